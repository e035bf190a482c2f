import Verif.References.Props
import Verif.Decl.Lemmas
import Verif.Store.Demo

/-! C99–C102: find references. -/

namespace Verif.References
open Verif.Types
open Verif.Imports (Table importTableAtPos inNamespace)
open Verif.Encoding (Range Position)
open Verif.Analyser (Node Tok PType Ctx toks toksOf Chain)
open Verif.Store (Env Store Doc HOp EnvOK HistOK RefsOK run)

/-! ### a file and uses of it, for the examples -/

namespace Demo

def rg (l : Nat) (a b : Nat) : Range := ⟨⟨.ofNat 64 l, .ofNat 64 a⟩, ⟨.ofNat 64 l, .ofNat 64 b⟩⟩

/-- `class Foo { public function m() {} public $p; public $q = 1; const C = 1; } function f() {} trait T {}` -/
def fileA : File where
  tables := [⟨⟨0, 0⟩, none, [], [], []⟩]
  symbols := [
    ⟨.class_ b!"\\Foo", rg 1 0 50, rg 1 6 9⟩, ⟨.method b!"m", rg 2 0 30, rg 2 16 17⟩,
    ⟨.property b!"$p", rg 3 0 10, rg 3 7 9⟩, ⟨.property b!"$q", rg 4 0 14, rg 4 7 9⟩,
    ⟨.classConst b!"C", rg 5 0 12, rg 5 6 7⟩,
    ⟨.function b!"\\f", rg 6 0 15, rg 6 9 10⟩, ⟨.trait b!"\\T", rg 7 0 10, rg 7 6 7⟩]

/-- `$x = new Foo; $x->m(); $x->p; f(); Foo::C;` and, of another class, `$y->m(); $x->Q; $x->m`, in two namespaces. -/
def fileB : File where
  tables := [⟨⟨0, 0⟩, none, [], [], []⟩, ⟨⟨20, 0⟩, some b!"A", [], [], []⟩]
  symbols := [
    ⟨.classUse .designator b!"Foo" [⟨b!"\\Foo", b!"Foo", 0⟩], rg 1 9 12, rg 0 0 0⟩, ⟨.other, rg 1 0 2, rg 0 0 0⟩,
    ⟨.methodAccess b!"m", rg 2 4 5, rg 0 0 0⟩, ⟨.propertyAccess b!"p", rg 3 4 5, rg 0 0 0⟩,
    ⟨.call b!"f", rg 4 0 1, rg 0 0 0⟩,
    ⟨.classUse .classAccess b!"Foo" [⟨b!"\\Foo", b!"Foo", 0⟩], rg 5 0 3, rg 0 0 0⟩, ⟨.scopedConstantAccess b!"C", rg 5 5 6, rg 0 0 0⟩,
    ⟨.methodAccess b!"m", rg 6 4 5, rg 0 0 0⟩, ⟨.propertyAccess b!"q", rg 7 4 5, rg 0 0 0⟩,
    ⟨.classUse .classAccess b!"self" [⟨b!"\\Foo", b!"Foo", 0⟩], rg 8 0 4, rg 0 0 0⟩,
    ⟨.class_ b!"\\A\\Bar", rg 21 0 10, rg 21 6 9⟩, ⟨.function b!"\\A\\g", rg 22 0 10, rg 22 9 10⟩,
    ⟨.call b!"f", rg 23 0 1, rg 0 0 0⟩, ⟨.call b!"g", rg 24 0 1, rg 0 0 0⟩]

def docA : Doc := ⟨Store.Demo.uA, b!"1", [], [], (recorded fileA).getD []⟩
def docB : Doc := ⟨Store.Demo.uB, b!"2", [], [], (recorded fileB).getD []⟩
def src (d : Doc) : File := if d.uri = Store.Demo.uA then fileA else fileB
def hist : List HOp := [.upgrade b!"v0.0.16", .index docA, .index docB]
def st : Store := (run Store.Demo.env Store.Demo.root hist).getD (Store.Store.new Store.Demo.root)

theorem docs_hist : Store.docs hist = [docA, docB] := rfl

theorem docA_ok : Store.DocOK Store.Demo.env docA where
  uri := Store.Demo.uA_ok
  len := by decide
  syms := by simp [docA]
  refsLen := by decide +kernel
  refs := by
    intro r hr
    exact Store.Demo.short ((by decide +kernel : ∀ r ∈ docA.refs, r.1.length < 1000) r hr)

theorem docB_ok : Store.DocOK Store.Demo.env docB where
  uri := Store.Demo.uB_ok
  len := by decide
  syms := by simp [docB]
  refsLen := by decide +kernel
  refs := by
    intro r hr
    exact Store.Demo.short ((by decide +kernel : ∀ r ∈ docB.refs, r.1.length < 1000) r hr)

theorem ready : Ready Store.Demo.env Store.Demo.root hist st src where
  environment := Store.Demo.env_ok
  filter := Store.Demo.filter_ok
  hist := by
    refine ⟨?_, ?_, by simp [Store.Keeps, hist]⟩
    · rw [docs_hist]
      simp [docA_ok, docB_ok]
    · intro d1 h1 d2 h2 c1 c2 m1 m2 _ _
      rw [docs_hist] at h1 h2
      simp only [List.mem_cons, List.not_mem_nil, or_false] at h1 h2
      rcases h1 with rfl | rfl <;> rcases h2 with rfl | rfl <;> simp [docA, docB] at m1 m2
  inside := by
    intro o ho
    have hA : Store.InWorkspace Store.Demo.root Store.Demo.uA := by constructor <;> decide
    have hB : Store.InWorkspace Store.Demo.root Store.Demo.uB := by constructor <;> decide
    simp only [hist, List.mem_cons, List.not_mem_nil, or_false] at ho
    rcases ho with rfl | rfl | rfl
    · trivial
    · exact fun _ => hA
    · exact fun _ => hB
  result := by
    have : (run Store.Demo.env Store.Demo.root hist).isSome = true := by decide +kernel
    rw [st]
    revert this
    cases run Store.Demo.env Store.Demo.root hist <;> simp
  recorded := by
    intro d hd
    rw [docs_hist] at hd
    simp only [List.mem_cons, List.not_mem_nil, or_false] at hd
    rcases hd with rfl | rfl
    · show recorded fileA = some ((recorded fileA).getD [])
      have : (recorded fileA).isSome = true := by decide +kernel
      revert this
      cases recorded fileA <;> simp
    · show recorded fileB = some ((recorded fileB).getD [])
      have : (recorded fileB).isSome = true := by decide +kernel
      revert this
      cases recorded fileB <;> simp

theorem named : AllNamed src hist := by
  intro u d hl s hs
  have hd := latest_docs hist u d hl
  rw [docs_hist] at hd
  simp only [List.mem_cons, List.not_mem_nil, or_false] at hd
  rcases hd with rfl | rfl
  · have : s ∈ fileA.symbols := hs
    simp only [fileA, List.mem_cons, List.not_mem_nil, or_false] at this
    rcases this with rfl | rfl | rfl | rfl | rfl | rfl | rfl <;> simp [Named, ClassName]
  · have : s ∈ fileB.symbols := hs
    simp only [fileB, List.mem_cons, List.not_mem_nil, or_false] at this
    rcases this with rfl | rfl | rfl | rfl | rfl | rfl | rfl | rfl | rfl | rfl | rfl | rfl | rfl | rfl <;>
      simp [Named, ClassName]

/-- A text of one line. -/
def ctx (text : Bytes) : Ctx := ⟨text, fun o => ⟨0, o⟩, fun _ => false, fun _ => []⟩

/-- A keyword and a name. -/
def header (ty : PType) (key name : Nat) : Node :=
  .phr ty [.tok ⟨.other 1, 0, key⟩, .tok ⟨.whitespace, key, 1⟩, .tok ⟨.name, key + 1, name⟩]

end Demo

/-! ### C99: uses of classes -/

section
variable {env : Env} {root : Bytes} {h : List HOp} {st : Store} {src : Doc → File} {tree : Node} {a b offset : Nat} {t : Tok}
  {ps : List Node} {tables : List Table} {found : Option Symbol}

theorem refsAt_fallback (c : Ctx) (hc : Chain a b (toks tree)) (hcur : Cursor tree offset t ps) (hps : notDeclared ps = true) :
    refsAt c tables tree offset found = match found with | some s => symToRefs tables s | none => some [] := by
  unfold refsAt
  rw [nodeSpineAt_eq hc hcur.1 hcur.2]
  simp only [Option.map_some, Option.getD_some]
  match ps, hps with
  | [], _ => rfl
  | .tok _ :: _, _ => rfl
  | .err _ :: _, _ => rfl
  | [.phr ty ks], hps => cases ty <;> first | rfl | simp [notDeclared, isClassHeader] at hps
  | .phr ty ks :: .tok _ :: _, hps => cases ty <;> first | rfl | simp [notDeclared, isClassHeader] at hps
  | .phr ty ks :: .err _ :: _, hps => cases ty <;> first | rfl | simp [notDeclared, isClassHeader] at hps
  | .phr ty ks :: .phr ty' ks' :: _, hps =>
    by_cases h : ty = .identifier
    · subst h
      cases ty' <;> first | rfl | simp [notDeclared, isClassHeader] at hps
    · cases ty <;> first | rfl | exact absurd rfl h | simp [notDeclared, isClassHeader] at hps

/-- C99: with the cursor on a use of a class (or interface, or trait), find references lists exactly the places of the
indexed files that name that class: declarations of a class or interface of that name, and uses of it. -/
theorem C99_class_use (hr : Ready env root h st src) (c : Ctx) (hc : Chain a b (toks tree)) (hcur : Cursor tree offset t ps)
    (hps : notDeclared ps = true) {kind : ClassUse} {name : Bytes} {ty : Ty} {r r' : Range}
    (hf : found = some ⟨.classUse kind name [ty], r, r'⟩)
    (hs : ¬ (kind = .classAccess ∧ (name = b!"static" ∨ name = b!"self" ∨ name = b!"$this"))) (hX : ClassName ty.fqn) :
    Answers src h (fun _ s r => NamesClass ty.fqn s r) (references env st c tables tree offset found) := by
  unfold references
  rw [refsAt_fallback c hc hcur hps, hf]
  have : (kind == .classAccess && isNameRelative name) = false := by
    simp only [isNameRelative, Bool.and_eq_false_iff, Bool.or_eq_false_iff, beq_eq_false_iff_ne, ne_eq]
    by_cases h1 : kind = .classAccess
    · right
      have := fun x => hs ⟨h1, x⟩
      tauto
    · exact .inl h1
  simp only [symToRefs, this, Bool.false_eq_true, if_false, List.map_cons, List.map_nil, Option.bind_some]
  refine answers_congr (search_answers hr _) fun u d _ s _ r => ?_
  simp [records_class (src d).tables s hX r]

/-- C99: with the cursor on `self`, `static` or `$this`, nothing is listed. -/
theorem C99_self (hr : Ready env root h st src) (c : Ctx) (hc : Chain a b (toks tree)) (hcur : Cursor tree offset t ps)
    (hps : notDeclared ps = true) {name : Bytes} {types : Union} {r r' : Range}
    (hf : found = some ⟨.classUse .classAccess name types, r, r'⟩)
    (hs : name = b!"static" ∨ name = b!"self" ∨ name = b!"$this") :
    references env st c tables tree offset found = some [] := by
  unfold references
  rw [refsAt_fallback c hc hcur hps, hf]
  have : isNameRelative name = true := by
    rcases hs with rfl | rfl | rfl <;> decide
  simp [symToRefs, this, search]

/-! ### C100: declarations of classes -/

theorem importTable_first {i : Table} (hb : Blocks tables i) : importTableAtPos tables ⟨0, 0⟩ = some i := by
  obtain ⟨x, h1, h2⟩ := Imports.C28_last_block_before tables ⟨0, 0⟩ (by rintro rfl; cases hb.first) hb.ordered
  rw [h1]
  rcases h2 with ⟨y, z, e, h2, -⟩ | ⟨h2, -⟩
  · exact absurd h2 (hb.inside x (by rw [e]; simp))
  · rw [← hb.first, h2]

theorem newTypeString_ordinary {s : Bytes} (ho : Decl.Ordinary s) : newTypeString s = some ⟨s, s, 0⟩ := by
  have h := Decl.tyOf_plain ho.1 ho.2.2.1 ho.2.2.2.1 ho.2.2.2.2.2
  unfold Analyser.tyOf at h
  have := Types.newTypeString_spec s (Decl.noSuffix_of ho.2.2.2.2.2) ho.1 (by rintro rfl; exact ho.2.2.2.2.2 ⟨[], rfl⟩) 0
  rw [show s ++ Types.suffixes 0 = s by simp [Types.suffixes]] at this
  rw [this] at h ⊢
  simpa using h

theorem className_inNamespace {ns s : Bytes} (h1 : (40 : UInt8) ∉ ns) (h2 : (40 : UInt8) ∉ s) : ClassName (inNamespace ns s) := by
  unfold ClassName inNamespace
  split <;> simp_all

/-- C100, for classes and interfaces of the first namespace block of a file: with the cursor on the name that a class or an
interface declares (behind its first letter), find references lists exactly the places of the indexed files that name this
class, its declaration among them. -/
theorem C100_class_partial (hr : Ready env root h st src) (c : Ctx) (hc : Chain a b (toks tree)) (hcur : Cursor tree offset t ps)
    {ty : PType} {ks rest : List Node} (hps : ps = .phr ty ks :: rest) (hty : isClassHeader ty = true)
    {i : Table} (hb : Blocks tables i) (hn : Decl.Ordinary (c.tokText t)) (h1 : (40 : UInt8) ∉ i.getNamespace)
    (h2 : (40 : UInt8) ∉ c.tokText t) :
    Answers src h (fun _ s r => NamesClass (inNamespace i.getNamespace (c.tokText t)) s r)
      (references env st c tables tree offset found) := by
  have hrefs : refsAt c tables tree offset found = some [inNamespace i.getNamespace (c.tokText t)] := by
    unfold refsAt
    rw [nodeSpineAt_eq hc hcur.1 hcur.2]
    subst hps
    have hname := Decl.ordinary_name i.getNamespace (c.tokText t) hn
    unfold Analyser.tyOf at hname
    rw [newTypeString_ordinary hn] at hname
    simp only [Option.getD_some] at hname
    cases ty <;> simp only [isClassHeader, Bool.false_eq_true] at hty <;>
      simp [phraseType, newTypeString_ordinary hn, importTable_first hb, hname]
  unfold references
  rw [hrefs]
  refine answers_congr (search_answers hr _) fun u d _ s _ r => ?_
  simp [records_class (src d).tables s (className_inNamespace h1 h2) r]

/-! ### C101: members -/

/-- C101, for the name in the declaration of a method: every method of that name is listed, with its declarations and its
calls, and nothing else. -/
theorem C101_method_declaration (hr : Ready env root h st src) (hall : AllNamed src h) (c : Ctx) (hc : Chain a b (toks tree))
    (hcur : Cursor tree offset t ps) {ks ks' rest : List Node}
    (hps : ps = .phr .identifier ks :: .phr .methodDeclarationHeader ks' :: rest) {n : Bytes}
    (hn : c.nodeText (.phr .identifier ks) = n) (hp : (40 : UInt8) ∉ n) :
    Answers src h (fun _ s r => NamesMethod n s r) (references env st c tables tree offset found) := by
  have hrefs : refsAt c tables tree offset found = some [46 :: (n ++ b!"()")] := by
    unfold refsAt
    rw [nodeSpineAt_eq hc hcur.1 hcur.2]
    subst hps hn
    simp [phraseType]
  unfold references
  rw [hrefs]
  refine answers_congr (search_answers hr _) fun u d hd s hs r => ?_
  simp only [List.mem_singleton, exists_eq_left]
  exact records_method (src d).tables s hp (hall u d hd s hs) r

/-- C101, for the name in the declaration of a class constant. -/
theorem C101_constant_declaration (hr : Ready env root h st src) (hall : AllNamed src h) (c : Ctx) (hc : Chain a b (toks tree))
    (hcur : Cursor tree offset t ps) {ks ks' rest : List Node}
    (hps : ps = .phr .identifier ks :: .phr .classConstElement ks' :: rest) {n : Bytes}
    (hn : c.nodeText (.phr .identifier ks) = n) (hp : (40 : UInt8) ∉ n) (h36 : n.head? ≠ some 36) :
    Answers src h (fun _ s r => NamesConstant n s r) (references env st c tables tree offset found) := by
  have hrefs : refsAt c tables tree offset found = some [46 :: n] := by
    unfold refsAt
    rw [nodeSpineAt_eq hc hcur.1 hcur.2]
    subst hps hn
    simp [phraseType]
  unfold references
  rw [hrefs]
  refine answers_congr (search_answers hr _) fun u d hd s hs r => ?_
  simp only [List.mem_singleton, exists_eq_left]
  exact records_constant (src d).tables s hp h36 (hall u d hd s hs) r

/-- C101, for the name in the declaration of a property, if the declaration has no default value: the text of the element is
the name. -/
theorem C101_property_declaration_partial (hr : Ready env root h st src) (hall : AllNamed src h) (c : Ctx)
    (hc : Chain a b (toks tree)) (hcur : Cursor tree offset t ps) {ks rest : List Node}
    (hps : ps = .phr .propertyElement ks :: rest) {n : Bytes}
    (hn : c.nodeText (.phr .propertyElement ks) = 36 :: n) (hp : (40 : UInt8) ∉ n) :
    Answers src h (fun _ s r => NamesProperty n s r) (references env st c tables tree offset found) := by
  have hrefs : refsAt c tables tree offset found = some [46 :: 36 :: n] := by
    unfold refsAt
    rw [nodeSpineAt_eq hc hcur.1 hcur.2]
    subst hps
    simp [phraseType, hn]
  unfold references
  rw [hrefs]
  refine answers_congr (search_answers hr _) fun u d hd s hs r => ?_
  simp only [List.mem_singleton, exists_eq_left]
  exact records_property (src d).tables s hp (hall u d hd s hs) r

/-- C101, for calls: with the cursor on the name of a method in `$x->m()` or `X::m()`, every method of that name is listed,
with its declarations and its calls, and nothing else. -/
theorem C101_method_use (hr : Ready env root h st src) (hall : AllNamed src h) (c : Ctx) (hc : Chain a b (toks tree))
    (hcur : Cursor tree offset t ps) (hps : notDeclared ps = true) {n : Bytes} {r r' : Range}
    (hf : found = some ⟨.methodAccess n, r, r'⟩ ∨ found = some ⟨.scopedMethodAccess n, r, r'⟩) (hp : (40 : UInt8) ∉ n) :
    Answers src h (fun _ s r => NamesMethod n s r) (references env st c tables tree offset found) := by
  have hrefs : refsAt c tables tree offset found = some [46 :: (n ++ b!"()")] := by
    rw [refsAt_fallback c hc hcur hps]
    rcases hf with rfl | rfl <;> rfl
  unfold references
  rw [hrefs]
  refine answers_congr (search_answers hr _) fun u d hd s hs r => ?_
  simp only [List.mem_singleton, exists_eq_left]
  exact records_method (src d).tables s hp (hall u d hd s hs) r

/-- C101, for uses of properties, `$x->p` and `X::$p`. -/
theorem C101_property_use (hr : Ready env root h st src) (hall : AllNamed src h) (c : Ctx) (hc : Chain a b (toks tree))
    (hcur : Cursor tree offset t ps) (hps : notDeclared ps = true) {n : Bytes} {r r' : Range}
    (hf : found = some ⟨.propertyAccess n, r, r'⟩ ∧ n ≠ [] ∧ n.head? ≠ some 36 ∨ found = some ⟨.scopedPropertyAccess (36 :: n), r, r'⟩)
    (hp : (40 : UInt8) ∉ n) :
    Answers src h (fun _ s r => NamesProperty n s r) (references env st c tables tree offset found) := by
  have hrefs : refsAt c tables tree offset found = some [46 :: 36 :: n] := by
    rw [refsAt_fallback c hc hcur hps]
    rcases hf with ⟨rfl, h1, h2⟩ | rfl
    · cases n with
      | nil => exact absurd rfl h1
      | cons x n =>
        have : x ≠ 36 := by rintro rfl; exact h2 rfl
        simp [symToRefs, Mark.memberName, this]
    · rfl
  unfold references
  rw [hrefs]
  refine answers_congr (search_answers hr _) fun u d hd s hs r => ?_
  simp only [List.mem_singleton, exists_eq_left]
  exact records_property (src d).tables s hp (hall u d hd s hs) r

/-- C101, for uses of class constants. -/
theorem C101_constant_use (hr : Ready env root h st src) (hall : AllNamed src h) (c : Ctx) (hc : Chain a b (toks tree))
    (hcur : Cursor tree offset t ps) (hps : notDeclared ps = true) {n : Bytes} {r r' : Range}
    (hf : found = some ⟨.scopedConstantAccess n, r, r'⟩) (hp : (40 : UInt8) ∉ n) (h36 : n.head? ≠ some 36) :
    Answers src h (fun _ s r => NamesConstant n s r) (references env st c tables tree offset found) := by
  have hrefs : refsAt c tables tree offset found = some [46 :: n] := by
    rw [refsAt_fallback c hc hcur hps, hf]
    rfl
  unfold references
  rw [hrefs]
  refine answers_congr (search_answers hr _) fun u d hd s hs r => ?_
  simp only [List.mem_singleton, exists_eq_left]
  exact records_constant (src d).tables s hp h36 (hall u d hd s hs) r

/-! ### C102: functions -/

theorem isFQN_ne_nil {F : Bytes} (h : isFQN F = true) : F ≠ [] := by
  rintro rfl
  revert h
  decide

/-- C102: with the cursor on the name of a function in a call, the places listed are the declarations and calls of the
functions that the name may be by the imports and the namespace at the call. -/
theorem C102_call (hr : Ready env root h st src) (hall : AllNamed src h) (c : Ctx) (hc : Chain a b (toks tree))
    (hcur : Cursor tree offset t ps) (hps : notDeclared ps = true) {name : Bytes} {ty : Ty} {i : Table} {r r' : Range}
    (hf : found = some ⟨.call name, r, r'⟩) (hi : importTableAtPos tables (posOf r.start) = some i)
    (ht : newTypeString name = some ty) :
    Answers src h (fun f s r => ∃ F ∈ i.functionPossibleFQNs ty, NamesFunction f.tables F s r)
      (references env st c tables tree offset found) := by
  have hrefs : refsAt c tables tree offset found = some ((i.functionPossibleFQNs ty).map (· ++ b!"()")) := by
    rw [refsAt_fallback c hc hcur hps, hf]
    simp [symToRefs, callRefs, hi, ht]
  unfold references
  rw [hrefs]
  refine answers_congr (search_answers hr _) fun u d hd s hs r => ?_
  have key : ∀ F ∈ i.functionPossibleFQNs ty, Records (src d).tables s (F ++ b!"()") r ↔ NamesFunction (src d).tables F s r :=
    fun F hF => records_function _ s (isFQN_no_dot (possible_isFQN i ty F hF)) (isFQN_ne_nil (possible_isFQN i ty F hF))
      (hall u d hd s hs) r
  constructor
  · rintro ⟨ref, h1, h2⟩
    obtain ⟨F, hF, rfl⟩ := List.mem_map.1 h1
    exact ⟨F, hF, (key F hF).1 h2⟩
  · rintro ⟨F, hF, h2⟩
    exact ⟨_, List.mem_map.2 ⟨F, hF, rfl⟩, (key F hF).2 h2⟩

/-- C102, for the name in the declaration of a function in a file without namespace that does not import a function under this
name: the places listed are the declarations and the calls of this function. -/
theorem C102_declaration_partial (hr : Ready env root h st src) (hall : AllNamed src h) (c : Ctx) (hc : Chain a b (toks tree))
    (hcur : Cursor tree offset t ps) {ks rest : List Node} (hps : ps = .phr .functionDeclarationHeader ks :: rest)
    {i : Table} (hb : Blocks tables i) (hn : Decl.Ordinary (c.tokText t)) (hns : i.getNamespace = [])
    (him : i.importedFQN i.functions ⟨c.tokText t, c.tokText t, 0⟩ = none) :
    Answers src h (fun f s r => NamesFunction f.tables (92 :: c.tokText t) s r)
      (references env st c tables tree offset found) := by
  have hrefs : refsAt c tables tree offset found = some [(92 :: c.tokText t) ++ b!"()"] := by
    unfold refsAt
    rw [nodeSpineAt_eq hc hcur.1 hcur.2]
    subst hps
    have hname := Decl.ordinary_name i.getNamespace (c.tokText t) hn
    unfold Analyser.tyOf at hname
    rw [newTypeString_ordinary hn] at hname
    simp only [Option.getD_some, hns] at hname
    have hfq : isFQN (c.tokText t) = false := by
      unfold isFQN
      obtain ⟨h0, h1, -, -, h4, -⟩ := hn
      revert h0 h1 h4
      cases c.tokText t with
      | nil => intro h0; exact absurd rfl h0
      | cons x s =>
        intro _ h1 h4
        simp only [Bool.or_eq_false_iff]
        refine ⟨by simpa using h1, ?_⟩
        unfold Imports.FullyQualified at h4
        simpa using h4
    have : i.functionPossibleFQNs ⟨c.tokText t, c.tokText t, 0⟩ = [92 :: c.tokText t] := by
      unfold Imports.Table.functionPossibleFQNs
      simp [him, Imports.globalFQN, hfq, hns, hname, inNamespace]
    simp [phraseType, callRefs, newTypeString_ordinary hn, importTable_first hb, this]
  unfold references
  rw [hrefs]
  refine answers_congr (search_answers hr _) fun u d hd s hs r => ?_
  simp only [List.mem_singleton, exists_eq_left]
  exact records_function _ s (by simp) (by simp) (hall u d hd s hs) r

end

/-! ### the hypotheses are met -/

namespace Demo

/-- The answer of the handler, with the file (`true`: `fileA`), line and column of each place. -/
def ask (text : Bytes) (tables : List Table) (tree : Node) (offset : Nat) (found : Option Symbol) : Option (List (Bool × Nat × Nat)) :=
  (references Store.Demo.env st (ctx text) tables tree offset found).map fun l =>
    l.map fun e => (e.1 == Store.Demo.uA, e.2.start.line.toNat, e.2.start.character.toNat)

/-- A name that stands somewhere. -/
def use (n : Nat) : Node := .phr .functionCallExpression [.tok ⟨.name, 0, n⟩]

def method : Node :=
  .phr .methodDeclarationHeader [.tok ⟨.other 1, 0, 8⟩, .tok ⟨.whitespace, 8, 1⟩, .phr .identifier [.tok ⟨.name, 9, 1⟩]]

def const : Node := .phr .classConstElement [.phr .identifier [.tok ⟨.name, 0, 1⟩], .tok ⟨.equals, 1, 1⟩, .tok ⟨.other 2, 2, 1⟩]

def property : Node := .phr .propertyElement [.tok ⟨.variableName, 0, 2⟩]

def propertyDefault : Node :=
  .phr .propertyElement [.tok ⟨.variableName, 0, 2⟩, .tok ⟨.equals, 2, 1⟩, .tok ⟨.other 2, 3, 1⟩]

theorem use_cursor (n : Nat) (h : 0 < n) : Cursor (use n) 1 ⟨.name, 0, n⟩ [use n] :=
  ⟨⟨by simp [use, Analyser.Node.kids], rfl⟩, by simp only [Touched]; omega⟩

theorem use_chain (n : Nat) : Chain 0 n (toks (use n)) := by simp [use, toks, toksOf, Chain]

theorem header_cursor (ty : PType) (k n : Nat) (h : 0 < n) : Cursor (header ty k n) (k + 2) ⟨.name, k + 1, n⟩ [header ty k n] :=
  ⟨⟨by simp [header, Analyser.Node.kids], rfl⟩, by simp only [Touched]; omega⟩

theorem header_chain (ty : PType) (k n : Nat) : Chain 0 (k + 1 + n) (toks (header ty k n)) := by
  simp [header, toks, toksOf, Chain]

theorem blocksA : Blocks fileA.tables ⟨⟨0, 0⟩, none, [], [], []⟩ where
  first := rfl
  inside := by simp [fileA, Position.Before]
  ordered := by simp [fileA]

theorem blocksB : Blocks fileB.tables ⟨⟨0, 0⟩, none, [], [], []⟩ where
  first := rfl
  inside := by simp [fileB, Position.Before]
  ordered := by simp [fileB, Position.Before]

end Demo

open Demo

example : Answers src hist (fun _ s r => NamesClass b!"\\Foo" s r)
    (references Store.Demo.env st (ctx b!"Foo") fileB.tables (use 3) 1
      (some ⟨.classUse .designator b!"Foo" [⟨b!"\\Foo", b!"Foo", 0⟩], rg 1 9 12, rg 0 0 0⟩)) :=
  C99_class_use ready _ (use_chain 3) (use_cursor 3 (by decide)) rfl rfl (by simp) (by unfold ClassName; decide)

example : ask b!"Foo" fileB.tables (use 3) 1
    (some ⟨.classUse .designator b!"Foo" [⟨b!"\\Foo", b!"Foo", 0⟩], rg 1 9 12, rg 0 0 0⟩) =
      some [(true, 1, 6), (false, 1, 9), (false, 5, 0)] := by decide +kernel

example : references Store.Demo.env st (ctx b!"self") fileB.tables (use 4) 1
    (some ⟨.classUse .classAccess b!"self" [⟨b!"\\Foo", b!"Foo", 0⟩], rg 8 0 4, rg 0 0 0⟩) = some [] :=
  C99_self ready _ (use_chain 4) (use_cursor 4 (by decide)) rfl rfl (.inr (.inl rfl))

example : Answers src hist (fun _ s r => NamesClass b!"\\Foo" s r)
    (references Store.Demo.env st (ctx b!"class Foo") fileA.tables (header .classDeclarationHeader 5 3) 7 none) :=
  C100_class_partial ready (ctx b!"class Foo") (header_chain _ 5 3) (header_cursor _ 5 3 (by decide)) rfl rfl blocksA
    (by unfold Decl.Ordinary; decide +kernel) (by decide) (by decide)

example : ask b!"class Foo" fileA.tables (header .classDeclarationHeader 5 3) 7 none =
    some [(true, 1, 6), (false, 1, 9), (false, 5, 0)] := by decide +kernel

/-- C100 is false with the cursor directly before the name: the token before it is taken. -/
theorem C100_false_start_of_name :
    ask b!"class Foo" fileA.tables (header .classDeclarationHeader 5 3) 6 none = some [] ∧
    (⟨.class_ b!"\\Foo", rg 1 0 50, rg 1 6 9⟩ : Symbol) ∈ fileA.symbols := by decide +kernel

/-- C100 is false for a trait: its declaration is not listed. -/
theorem C100_false_trait :
    ask b!"trait T" fileA.tables (header .traitDeclarationHeader 5 1) 7 none = some [] ∧
    (⟨.trait b!"\\T", rg 7 0 10, rg 7 6 7⟩ : Symbol) ∈ fileA.symbols := by decide +kernel

/-- C100 is false for a class in the second namespace block of a file: it is looked for in the namespace of the first one, so
that not even its declaration is listed. -/
theorem C100_false_second_namespace :
    ask b!"class Bar" fileB.tables (header .classDeclarationHeader 5 3) 7 none = some [] ∧
    (⟨.class_ b!"\\A\\Bar", rg 21 0 10, rg 21 6 9⟩ : Symbol) ∈ fileB.symbols := by decide +kernel

example : Answers src hist (fun _ s r => NamesMethod b!"m" s r)
    (references Store.Demo.env st (ctx b!"function m") fileA.tables method 10 none) :=
  C101_method_declaration (t := ⟨.name, 9, 1⟩) (ps := [.phr .identifier [.tok ⟨.name, 9, 1⟩], method])
    (ks := [.tok ⟨.name, 9, 1⟩]) (a := 0) (b := 10) ready named _ (by simp [method, toks, toksOf, Chain])
    ⟨⟨List.mem_singleton.2 rfl, ⟨by simp [method, Analyser.Node.kids], rfl⟩⟩, by simp [Touched]⟩ rfl (by decide +kernel) (by decide)

/-- C101: as the answer goes by the name alone, a call of a method of another class is listed too (`$y->m()` in line 6). -/
theorem C101_false_other_class :
    ask b!"function m" fileA.tables method 10 none = some [(true, 2, 16), (false, 2, 4), (false, 6, 4)] := by decide +kernel

example : Answers src hist (fun _ s r => NamesConstant b!"C" s r)
    (references Store.Demo.env st (ctx b!"C=1") fileA.tables const 1 none) :=
  C101_constant_declaration (t := ⟨.name, 0, 1⟩) (ps := [.phr .identifier [.tok ⟨.name, 0, 1⟩], const])
    (ks := [.tok ⟨.name, 0, 1⟩]) (a := 0) (b := 3) ready named _ (by simp [const, toks, toksOf, Chain])
    ⟨⟨List.mem_singleton.2 rfl, ⟨by simp [const, Analyser.Node.kids], rfl⟩⟩, by simp [Touched]⟩ rfl (by decide +kernel) (by decide)
    (by decide)

example : ask b!"C=1" fileA.tables const 1 none = some [(true, 5, 6), (false, 5, 5)] := by decide +kernel

example : Answers src hist (fun _ s r => NamesProperty b!"p" s r)
    (references Store.Demo.env st (ctx b!"$p") fileA.tables property 1 none) :=
  C101_property_declaration_partial (t := ⟨.variableName, 0, 2⟩) (ps := [property]) (ks := [.tok ⟨.variableName, 0, 2⟩]) (a := 0) (b := 2) ready named _
    (by simp [property, toks, toksOf, Chain])
    ⟨⟨by simp [property, Analyser.Node.kids], rfl⟩, by simp [Touched]⟩ rfl (by decide +kernel) (by decide)

example : ask b!"$p" fileA.tables property 1 none = some [(true, 3, 7), (false, 3, 4)] := by decide +kernel

/-- C101 is false for the declaration of a property with a default value: nothing is listed. -/
theorem C101_false_default_value :
    ask b!"$q=1" fileA.tables propertyDefault 1 none = some [] ∧
    (⟨.property b!"$q", rg 4 0 14, rg 4 7 9⟩ : Symbol) ∈ fileA.symbols ∧
    (⟨.propertyAccess b!"q", rg 7 4 5, rg 0 0 0⟩ : Symbol) ∈ fileB.symbols := by decide +kernel

example : Answers src hist (fun _ s r => NamesMethod b!"m" s r)
    (references Store.Demo.env st (ctx b!"m") fileB.tables (use 1) 1 (some ⟨.methodAccess b!"m", rg 2 4 5, rg 0 0 0⟩)) :=
  C101_method_use ready named _ (use_chain 1) (use_cursor 1 (by decide)) rfl (.inl rfl) (by decide)

example : Answers src hist (fun _ s r => NamesProperty b!"p" s r)
    (references Store.Demo.env st (ctx b!"p") fileB.tables (use 1) 1 (some ⟨.propertyAccess b!"p", rg 3 4 5, rg 0 0 0⟩)) :=
  C101_property_use ready named _ (use_chain 1) (use_cursor 1 (by decide)) rfl (.inl ⟨rfl, by decide, by decide⟩) (by decide)

example : Answers src hist (fun _ s r => NamesConstant b!"C" s r)
    (references Store.Demo.env st (ctx b!"C") fileB.tables (use 1) 1 (some ⟨.scopedConstantAccess b!"C", rg 5 5 6, rg 0 0 0⟩)) :=
  C101_constant_use ready named _ (use_chain 1) (use_cursor 1 (by decide)) rfl rfl (by decide) (by decide)

/-- C101 is false for `$a->$b`, a property whose name is the value of `$b`: it is recorded as a use of a property `$b`. -/
theorem C101_false_dynamic_name :
    symbolRefs fileA.tables ⟨.propertyAccess b!"$b", rg 1 4 6, rg 0 0 0⟩ = some [(b!".$b", rg 1 4 6)] ∧
    symbolRefs fileA.tables ⟨.propertyAccess b!"b", rg 2 4 5, rg 0 0 0⟩ = some [(b!".$b", rg 2 4 5)] := by decide +kernel

/-- C101 is false for a method that is called in another case than it is declared in, which is legal in PHP: the call is not
recorded under the name of the method. -/
theorem C101_false_case :
    symbolRefs fileA.tables ⟨.method b!"getName", rg 1 0 20, rg 1 9 16⟩ = some [(b!".getName()", rg 1 9 16)] ∧
    symbolRefs fileA.tables ⟨.methodAccess b!"getname", rg 2 4 11, rg 0 0 0⟩ = some [(b!".getname()", rg 2 4 11)] := by
  decide +kernel

example : Answers src hist
    (fun f s r => ∃ F ∈ (⟨⟨20, 0⟩, some b!"A", [], [], []⟩ : Table).functionPossibleFQNs ⟨b!"f", b!"f", 0⟩, NamesFunction f.tables F s r)
    (references Store.Demo.env st (ctx b!"f") fileB.tables (use 1) 1 (some ⟨.call b!"f", rg 23 0 1, rg 0 0 0⟩)) :=
  C102_call ready named _ (use_chain 1) (use_cursor 1 (by decide)) rfl rfl (by decide +kernel) (by decide +kernel)

example : Answers src hist (fun f s r => NamesFunction f.tables b!"\\f" s r)
    (references Store.Demo.env st (ctx b!"function f") fileA.tables (header .functionDeclarationHeader 8 1) 10 none) :=
  C102_declaration_partial ready named (ctx b!"function f") (header_chain _ 8 1) (header_cursor _ 8 1 (by decide)) rfl blocksA
    (by unfold Decl.Ordinary; decide +kernel) (by decide) (by decide +kernel)

/-- C102 is false as to how often a place is listed: a call in a namespace is listed twice, once for each function that it may
be a call of. -/
theorem C102_false_twice :
    ask b!"f" fileB.tables (use 1) 1 (some ⟨.call b!"f", rg 23 0 1, rg 0 0 0⟩) =
      some [(true, 6, 9), (false, 4, 0), (false, 23, 0), (false, 23, 0)] := by decide +kernel

/-- C102 is false for the declaration of a function in the second namespace block of a file: it is taken for a function of the
first block, and its own declaration is not listed. -/
theorem C102_false_second_namespace :
    ask b!"function g" fileB.tables (header .functionDeclarationHeader 8 1) 10 none = some [(false, 24, 0)] ∧
    (⟨.function b!"\\A\\g", rg 22 0 10, rg 22 9 10⟩ : Symbol) ∈ fileB.symbols := by decide +kernel

/-- C102 is false in that a call of another function is listed: with the cursor on a global function `g`, the call `g()` in the
namespace `A`, which calls the function `g` that this namespace declares, is listed. -/
theorem C102_false_other_function :
    ask b!"function g" fileA.tables (header .functionDeclarationHeader 8 1) 10 none = some [(false, 24, 0)] ∧
    importTableAtPos fileB.tables ⟨24, 0⟩ = some ⟨⟨20, 0⟩, some b!"A", [], [], []⟩ ∧
    (⟨.function b!"\\A\\g", rg 22 0 10, rg 22 9 10⟩ : Symbol) ∈ fileB.symbols := by decide +kernel

end Verif.References
