import Verif.References.PropsFind
import Verif.Analyser.PropsUses
import Verif.Analyser.PropsNamed
import Verif.Whole.Text

/-! C146: find references, from the text of the files. -/

namespace Verif.References
open Verif.Types
open Verif.Imports (Table importTableAtPos)
open Verif.Encoding (Range)
open Verif.Analyser (Node Tok PType Ctx Kind toks Chain InDocument IsSymbol Writes UsesSupported Supported SitsIn flat symbolsOf InNamespace writtenName HasTag)
open Verif.Store (Env Store Doc HOp)

/-! ### from the analysis to the references -/

/-- What a symbol of the analysis is, as far as references go (`store.go:534-551`, `1128-1153`); the names of classes in code
are not considered here, their types are not in the model of the analysis. -/
def markOf (a : Analyser.Sym) : Option Mark :=
  match a.kind with
  | .class_ => some (.class_ a.name)
  | .interface_ => some (.interface a.name)
  | .trait_ => some (.trait a.name)
  | .function => some (.function a.name)
  | .method | .docMethod => some (.method a.name)
  | .property | .docProperty => some (.property a.name)
  | .classConst => some (.classConst a.name)
  | .functionCall => some (.call a.name)
  | .methodAccess => some (.methodAccess a.name)
  | .propertyAccess => some (.propertyAccess a.name)
  | .scopedMethodAccess => some (.scopedMethodAccess a.name)
  | .scopedPropertyAccess => some (.scopedPropertyAccess a.name)
  | .scopedConstantAccess => some (.scopedConstantAccess a.name)
  | _ => none

/-- It is something else, or the name of a class. -/
def Mark.isElse : Mark → Bool
  | .other | .classUse .. => true
  | _ => false

/-- `GetLocation().Range` of something at that place. -/
def rangeOf (u : Bytes) (r : Rng) : Range := (Show.toLocation u r).range

/-- The symbol `s` of the file `u` is the symbol `a` of the analysis. In the code they are one object. -/
def IsSymbolOf (u : Bytes) (a : Analyser.Sym) (s : Symbol) : Prop :=
  s.range = rangeOf u a.range ∧ match markOf a with
    | some m => s.mark = m
    | none => s.mark.isElse = true

/-- `T` has the syntax tree of the current version of every file, and `src` the symbols of these trees, in the order of
`traverseDocument` (`symbol.go:111-143`). -/
structure Texts (T : Bytes → Option (Ctx × Node)) (src : Doc → File) (h : List HOp) : Prop where
  files : ∀ u, (T u).isSome = (Store.latest h u).isSome
  symbols : ∀ u c root d, T u = some (c, root) → Store.latest h u = some d →
    List.Forall₂ (IsSymbolOf u) (flat (symbolsOf c root)) (src d).symbols
  /-- namespaces are not inside of anything, as PHP demands -/
  orderly : ∀ u c root, T u = some (c, root) → ∀ k ∈ root.kids, k.orderly = true

/-! ### specification -/

/-- The sorts of members. -/
inductive Member where
  | method | property | constant
  deriving DecidableEq, Repr

/-- How the member `n` is written in an access of that sort, if it can be: `$x->n()`, `X::n()`, `$x->n`, `X::$n`, `X::n`. -/
def Member.written (n : Bytes) : Member → Kind → Option Bytes
  | .method, .methodAccess => some n
  | .method, .scopedMethodAccess => some n
  | .property, .propertyAccess => some n
  | .property, .scopedPropertyAccess => some (36 :: n)
  | .constant, .scopedConstantAccess => some n
  | _, _ => none

/-- How it is written in a declaration of that sort: in the class or in its doc comment. -/
def Member.declared (n : Bytes) : Member → Kind → Option Bytes
  | .method, .method => some n
  | .method, .docMethod => some n
  | .property, .property => some (36 :: n)
  | .property, .docProperty => some (36 :: n)
  | .constant, .classConst => some n
  | _, _ => none

/-- The answer lists the places of the members called `n` in the current texts `T` of the indexed files. -/
structure Lists (T : Bytes → Option (Ctx × Node)) (src : Doc → File) (h : List HOp) (m : Member) (n : Bytes)
    (res : List (Bytes × Range)) : Prop where
  /-- Every access of a member of that name that is written in a file with supported code is listed, at its name. -/
  accesses : ∀ u c root e node kind name r, T u = some (c, root) → Store.haveReferences u = true → UsesSupported c root →
    InDocument c root e node → m.written n kind = some name → Writes c node kind r name → (u, rangeOf u r) ∈ res
  /-- And every declaration, at what the file has as the place of its name. -/
  declarations : ∀ u c root e node kind name d, T u = some (c, root) → Store.latest h u = some d →
    Store.haveReferences u = true → Supported c root → InDocument c root e node → m.declared n kind = some name →
    Analyser.memberOf c e node = some (kind, name) →
    ∃ s ∈ (src d).symbols, s.range = rangeOf u (c.range node) ∧ (u, s.nameRange) ∈ res
  /-- Nothing else is listed: there is an access of a member of that name at the place, or it is the place that the file has
  for the name of a declaration with that name, or of a tag in a doc comment with that name. -/
  nothingElse : ∀ u r, (u, r) ∈ res → ∃ c root, T u = some (c, root) ∧
    ((∃ a σ node, m.written n a.kind = some a.name ∧ SitsIn c root σ node ∧ node.uses c a ∧ r = rangeOf u a.range) ∨
     ∃ d s kind name node, Store.latest h u = some d ∧ s ∈ (src d).symbols ∧ r = s.nameRange ∧ s.range = rangeOf u (c.range node) ∧
       m.declared n kind = some name ∧
       ((∃ ns, InNamespace c root ns node ∧ node.declares kind = true ∧ ∀ raw, writtenName c node = some raw → name = raw) ∨
        ∃ σ, SitsIn c root σ node ∧ HasTag c node (m = .method) name))

/-- What is listed is called `n`, as in C101. -/
def Member.Names (n : Bytes) : Member → Symbol → Range → Prop
  | .method => NamesMethod n
  | .property => NamesProperty n
  | .constant => NamesConstant n

/-! ### C146 -/

section
variable {env : Env} {root : Bytes} {h : List HOp} {st : Store} {src : Doc → File} {tree : Node} {a b offset : Nat} {t : Tok}
  {ps : List Node} {tables : List Table} {found : Option Symbol} {T : Bytes → Option (Ctx × Node)} {m : Member} {n : Bytes}

theorem names_iff {u : Bytes} {x : Analyser.Sym} {s : Symbol} (hx : IsSymbolOf u x s) (r : Range) :
    m.Names n s r ↔ (m.written n x.kind = some x.name ∧ r = s.range) ∨ (m.declared n x.kind = some x.name ∧ r = s.nameRange) := by
  obtain ⟨mark, r1, r2⟩ := s
  obtain ⟨-, hx⟩ := hx
  obtain ⟨kind, rng, name, sc⟩ := x
  constructor
  · intro hn
    cases m <;> cases hn <;> cases kind <;> simp only [markOf, Mark.isElse] at hx <;>
      first | (cases hx; done) | (cases hx; simp [Member.written, Member.declared])
  · rintro (⟨h1, rfl⟩ | ⟨h1, rfl⟩)
    · cases m <;> cases kind <;> simp only [Member.written, reduceCtorEq, Option.some.injEq] at h1 <;>
        simp only [markOf] at hx <;> subst hx <;> subst h1 <;> constructor
    · cases m <;> cases kind <;> simp only [Member.declared, reduceCtorEq, Option.some.injEq] at h1 <;>
        simp only [markOf] at hx <;> subst hx <;> subst h1 <;> constructor

theorem written_isUse {kind : Kind} {name : Bytes} (h : m.written n kind = some name) : kind.isUse = true := by
  cases m <;> cases kind <;> first | rfl | cases h

theorem declared_kind {kind : Kind} {name : Bytes} (h : m.declared n kind = some name) :
    kind.titled = true ∧ kind.inClass = true ∨ (kind = .docProperty ∨ kind = .docMethod) ∧ (kind == .docMethod) = decide (m = .method) := by
  cases m <;> cases kind <;> first | (cases h; done) | (left; exact ⟨rfl, rfl⟩) | (right; decide)

theorem lists_of (hT : Texts T src h) {ans : Option (List (Bytes × Range))}
    (ha : Answers src h (fun _ s r => m.Names n s r) ans) : ∃ res, ans = some res ∧ Lists T src h m n res := by
  obtain ⟨res, rfl, ha⟩ := ha
  have doc : ∀ {u c root}, T u = some (c, root) → ∃ d, Store.latest h u = some d := fun {u c root} ht => by
    have := hT.files u
    rw [ht] at this
    exact Option.isSome_iff_exists.mp this.symm
  refine ⟨res, rfl, ⟨?_, ?_, ?_⟩⟩
  · intro u c root e node kind name r ht hh hs hd hk hw
    obtain ⟨d, hl⟩ := doc ht
    obtain ⟨s, hs1, hs2⟩ := Whole.forall₂_left (hT.symbols u c root d ht hl) (Analyser.C145_found_partial hs hd hw)
    refine (ha _ _).mpr ⟨d, hl, hh, s, hs1, (names_iff hs2 _).mpr (.inl ⟨hk, hs2.1.symm⟩)⟩
  · intro u c root e node kind name d ht hl hh hs hd hk hm
    obtain ⟨x, h1, h2, h3, h4⟩ := Analyser.C69_found_partial hs hd hm
    obtain ⟨s, hs1, hs2⟩ := Whole.forall₂_left (hT.symbols u c root d ht hl) h1
    refine ⟨s, hs1, by rw [hs2.1, h3], (ha _ _).mpr ⟨d, hl, hh, s, hs1, (names_iff hs2 _).mpr (.inr ⟨?_, rfl⟩)⟩⟩
    rw [h2, h4]; exact hk
  · intro u r hr
    obtain ⟨d, hl, hh, s, hs, hn⟩ := (ha _ _).mp hr
    have := hT.files u
    rw [hl] at this
    obtain ⟨⟨c, root⟩, ht⟩ := Option.isSome_iff_exists.mp this
    obtain ⟨x, hx, hxs⟩ := Whole.forall₂_right (hT.symbols u c root d ht hl) hs
    refine ⟨c, root, ht, ?_⟩
    rcases (names_iff hxs _).mp hn with ⟨h1, rfl⟩ | ⟨h1, rfl⟩
    · obtain ⟨σ, node, h2, h3⟩ := Analyser.C73_uses hx (written_isUse h1)
      exact .inl ⟨x, σ, node, h1, h2, h3, hxs.1⟩
    · rcases declared_kind h1 with ⟨h2, h3⟩ | ⟨h2, h3⟩
      · obtain ⟨ns, node, h4, h5, h6, h7⟩ := Analyser.C140_names (hT.orderly u c root ht) hx h2
        refine .inr ⟨d, s, x.kind, x.name, node, hl, hs, rfl, by rw [hxs.1, h6], h1, .inl ⟨ns, h4, h5, fun raw hw => ?_⟩⟩
        have := h7 raw hw
        rwa [if_pos h3] at this
      · obtain ⟨σ, node, -, -, h4, h5, h6, -⟩ := Analyser.C71_sound hx h2
        rw [h3] at h6
        exact .inr ⟨d, s, x.kind, x.name, node, hl, hs, rfl, by rw [hxs.1, h5], h1, .inr ⟨σ, h4, h6⟩⟩

/-- C146: with the cursor on the name of a method in a call, find references lists the methods of that name in the current
texts of the indexed files. -/
theorem C146_method_use (hT : Texts T src h) (hr : Ready env root h st src) (hall : AllNamed src h) (c : Ctx)
    (hc : Chain a b (toks tree)) (hcur : Cursor tree offset t ps) (hps : notDeclared ps = true) {r r' : Range}
    (hf : found = some ⟨.methodAccess n, r, r'⟩ ∨ found = some ⟨.scopedMethodAccess n, r, r'⟩) (hp : (40 : UInt8) ∉ n) :
    ∃ res, references env st c tables tree offset found = some res ∧ Lists T src h .method n res :=
  lists_of hT (C101_method_use hr hall c hc hcur hps hf hp)

/-- C146: the same with the cursor on the name in the declaration of a method. -/
theorem C146_method_declaration (hT : Texts T src h) (hr : Ready env root h st src) (hall : AllNamed src h) (c : Ctx)
    (hc : Chain a b (toks tree)) (hcur : Cursor tree offset t ps) {ks ks' rest : List Node}
    (hps : ps = .phr .identifier ks :: .phr .methodDeclarationHeader ks' :: rest)
    (hn : c.nodeText (.phr .identifier ks) = n) (hp : (40 : UInt8) ∉ n) :
    ∃ res, references env st c tables tree offset found = some res ∧ Lists T src h .method n res :=
  lists_of hT (C101_method_declaration hr hall c hc hcur hps hn hp)

/-- C146: the same for properties. -/
theorem C146_property_use (hT : Texts T src h) (hr : Ready env root h st src) (hall : AllNamed src h) (c : Ctx)
    (hc : Chain a b (toks tree)) (hcur : Cursor tree offset t ps) (hps : notDeclared ps = true) {r r' : Range}
    (hf : found = some ⟨.propertyAccess n, r, r'⟩ ∧ n ≠ [] ∧ n.head? ≠ some 36 ∨ found = some ⟨.scopedPropertyAccess (36 :: n), r, r'⟩)
    (hp : (40 : UInt8) ∉ n) :
    ∃ res, references env st c tables tree offset found = some res ∧ Lists T src h .property n res :=
  lists_of hT (C101_property_use hr hall c hc hcur hps hf hp)

/-- C146: the same for class constants. -/
theorem C146_constant_use (hT : Texts T src h) (hr : Ready env root h st src) (hall : AllNamed src h) (c : Ctx)
    (hc : Chain a b (toks tree)) (hcur : Cursor tree offset t ps) (hps : notDeclared ps = true) {r r' : Range}
    (hf : found = some ⟨.scopedConstantAccess n, r, r'⟩) (hp : (40 : UInt8) ∉ n) (h36 : n.head? ≠ some 36) :
    ∃ res, references env st c tables tree offset found = some res ∧ Lists T src h .constant n res :=
  lists_of hT (C101_constant_use hr hall c hc hcur hps hf hp h36)

/-- C146: the same with the cursor on the name in the declaration of a class constant. -/
theorem C146_constant_declaration (hT : Texts T src h) (hr : Ready env root h st src) (hall : AllNamed src h) (c : Ctx)
    (hc : Chain a b (toks tree)) (hcur : Cursor tree offset t ps) {ks ks' rest : List Node}
    (hps : ps = .phr .identifier ks :: .phr .classConstElement ks' :: rest)
    (hn : c.nodeText (.phr .identifier ks) = n) (hp : (40 : UInt8) ∉ n) (h36 : n.head? ≠ some 36) :
    ∃ res, references env st c tables tree offset found = some res ∧ Lists T src h .constant n res :=
  lists_of hT (C101_constant_declaration hr hall c hc hcur hps hn hp h36)

theorem function_iff {u : Bytes} {x : Analyser.Sym} {s : Symbol} (hx : IsSymbolOf u x s) (ts : List Table) (F : Bytes) (r : Range) :
    NamesFunction ts F s r ↔ (x.kind = .function ∧ x.name = F ∧ r = s.nameRange) ∨
      (x.kind = .functionCall ∧ r = s.range ∧ ∃ ty i, importTableAtPos ts (posOf r.start) = some i ∧
        newTypeString x.name = some ty ∧ F ∈ i.functionPossibleFQNs ty) := by
  obtain ⟨mark, r1, r2⟩ := s
  obtain ⟨-, hx⟩ := hx
  obtain ⟨kind, rng, name, sc⟩ := x
  constructor
  · intro hn
    cases hn with
    | declared => cases kind <;> simp only [markOf, Mark.isElse] at hx <;> first | (cases hx; done) | (cases hx; simp)
    | called nm ty i _ _ hi ht hF =>
      cases kind <;> simp only [markOf, Mark.isElse] at hx <;>
        first | (cases hx; done) | (cases hx; exact .inr ⟨rfl, rfl, ty, i, hi, ht, hF⟩)
  · rintro (⟨rfl, rfl, rfl⟩ | ⟨rfl, rfl, ty, i, hi, ht, hF⟩)
    · simp only [markOf] at hx; subst hx; constructor
    · simp only [markOf] at hx; subst hx; exact .called _ ty i _ _ hi ht hF

/-- C146: with the cursor on the name of a function in a call, find references lists every call, in the current texts of the
indexed files with supported code, that may be a call of one of the functions the name may mean, and every declaration of
such a function; and all places listed are of this sort. -/
theorem C146_call (hT : Texts T src h) (hr : Ready env root h st src) (hall : AllNamed src h) (c : Ctx)
    (hc : Chain a b (toks tree)) (hcur : Cursor tree offset t ps) (hps : notDeclared ps = true) {name : Bytes} {ty : Ty} {i : Table}
    {r r' : Range} (hf : found = some ⟨.call name, r, r'⟩) (hi : importTableAtPos tables (posOf r.start) = some i)
    (ht : newTypeString name = some ty) :
    ∃ res, references env st c tables tree offset found = some res ∧
      (∀ u c root e node nm p d j ty' F, T u = some (c, root) → Store.latest h u = some d → Store.haveReferences u = true →
        UsesSupported c root → InDocument c root e node → Writes c node .functionCall p nm →
        importTableAtPos (src d).tables (posOf (rangeOf u p).start) = some j → newTypeString nm = some ty' →
        F ∈ j.functionPossibleFQNs ty' → F ∈ i.functionPossibleFQNs ty → (u, rangeOf u p) ∈ res) ∧
      (∀ u c root e ks nm d, T u = some (c, root) → Store.latest h u = some d → Store.haveReferences u = true →
        Supported c root → InDocument c root e (.phr .functionDeclaration ks) →
        Analyser.headName c .functionDeclarationHeader ks = some nm → Analyser.fullName e.ns nm ∈ i.functionPossibleFQNs ty →
        ∃ s ∈ (src d).symbols, s.range = rangeOf u (c.range (.phr .functionDeclaration ks)) ∧ (u, s.nameRange) ∈ res) ∧
      (∀ u r, (u, r) ∈ res → ∃ c root d, T u = some (c, root) ∧ Store.latest h u = some d ∧ ∃ F ∈ i.functionPossibleFQNs ty,
        ((∃ x σ node j ty', SitsIn c root σ node ∧ x.kind = .functionCall ∧ node.uses c x ∧ r = rangeOf u x.range ∧
          importTableAtPos (src d).tables (posOf r.start) = some j ∧ newTypeString x.name = some ty' ∧
          F ∈ j.functionPossibleFQNs ty') ∨
         (∃ s ns node, s ∈ (src d).symbols ∧ r = s.nameRange ∧ s.range = rangeOf u (c.range node) ∧
          InNamespace c root ns node ∧ node.declares .function = true ∧
          ∀ raw, writtenName c node = some raw → Analyser.plain raw = true → F = Analyser.fullName ns raw))) := by
  obtain ⟨res, he, ha⟩ := C102_call hr hall c hc hcur hps hf hi ht
  refine ⟨res, he, ?_, ?_, ?_⟩
  · intro u c root e node nm p d j ty' F hu hl hh hs hd hw hj hty hF1 hF2
    obtain ⟨s, hs1, hs2⟩ := Whole.forall₂_left (hT.symbols u c root d hu hl) (Analyser.C145_found_partial hs hd hw)
    exact (ha _ _).mpr ⟨d, hl, hh, s, hs1, F, hF2, (function_iff hs2 _ _ _).mpr (.inr ⟨rfl, hs2.1.symm, ty', j, hj, hty, hF1⟩)⟩
  · intro u c root e ks nm d hu hl hh hs hd hn hF
    obtain ⟨s, hs1, hs2⟩ := Whole.forall₂_left (hT.symbols u c root d hu hl)
      (Analyser.C68_declaration_partial hs hd (kind := .function) rfl hn)
    exact ⟨s, hs1, hs2.1, (ha _ _).mpr ⟨d, hl, hh, s, hs1, _, hF, (function_iff hs2 _ _ _).mpr (.inl ⟨rfl, rfl, rfl⟩)⟩⟩
  · intro u r hr
    obtain ⟨d, hl, hh, s, hs, F, hF, hn⟩ := (ha _ _).mp hr
    have := hT.files u
    rw [hl] at this
    obtain ⟨⟨c, root⟩, hu⟩ := Option.isSome_iff_exists.mp this
    obtain ⟨x, hx, hxs⟩ := Whole.forall₂_right (hT.symbols u c root d hu hl) hs
    refine ⟨c, root, d, hu, hl, F, hF, ?_⟩
    rcases (function_iff hxs _ _ _).mp hn with ⟨h1, rfl, rfl⟩ | ⟨h1, rfl, ty', j, h2, h3, h4⟩
    · obtain ⟨ns, node, h4, h5, h6, h7⟩ := Analyser.C140_names (hT.orderly u c root hu) hx (by rw [h1]; rfl)
      rw [h1] at h5
      refine .inr ⟨s, ns, node, hs, rfl, by rw [hxs.1, h6], h4, h5, fun raw hw => ?_⟩
      have := h7 raw hw
      rwa [h1, if_neg (by decide)] at this
    · obtain ⟨σ, node, h5, h6⟩ := Analyser.C73_uses hx (by rw [h1]; rfl)
      exact .inl ⟨x, σ, node, j, ty', h5, h1, h6, hxs.1, h2, h3, h4⟩

end

/-! ### the hypotheses are met -/

namespace Demo

open Analyser.Src in
/-- `class A{function m($q){return $q->m();}}` -/
def text : Analyser.Src :=
  doc [classDecl b!"A" [methodDecl b!"m" [param b!"$q"] [ret (Analyser.Src.method (var b!"$q") b!"m" [])]]]

/-- Its symbols; `nameRange` of the method is the place of `m` in its header. -/
def fileT : File where
  tables := [⟨⟨0, 0⟩, none, [], [], []⟩]
  symbols := [⟨.class_ b!"\\A", rg 1 0 40, rg 1 6 7⟩, ⟨.method b!"m", rg 1 8 39, rg 1 17 18⟩, ⟨.other, rg 1 30 32, rg 0 0 0⟩,
    ⟨.methodAccess b!"m", rg 1 34 35, rg 0 0 0⟩, ⟨.other, rg 1 35 37, rg 0 0 0⟩]

def docT : Doc := ⟨Store.Demo.uA, b!"1", [], [], (recorded fileT).getD []⟩
def srcT (_ : Doc) : File := fileT
def histT : List HOp := [.upgrade b!"v0.0.16", .index docT]
def stT : Store := (Store.run Store.Demo.env Store.Demo.root histT).getD (Store.Store.new Store.Demo.root)

/-- The text of the file. -/
def textsT (u : Bytes) : Option (Ctx × Node) := if u = Store.Demo.uA then some (text.ctx, text.root) else none

theorem docT_ok : Store.DocOK Store.Demo.env docT where
  uri := Store.Demo.uA_ok
  len := by decide
  syms := by simp [docT]
  refsLen := by decide +kernel
  refs := by
    intro r hr
    exact Store.Demo.short ((by decide +kernel : ∀ r ∈ docT.refs, r.1.length < 1000) r hr)

theorem docs_histT : Store.docs histT = [docT] := rfl

theorem readyT : Ready Store.Demo.env Store.Demo.root histT stT srcT where
  environment := Store.Demo.env_ok
  filter := Store.Demo.filter_ok
  hist := by
    refine ⟨?_, ?_, by simp [Store.Keeps, histT]⟩
    · rw [docs_histT]
      simp [docT_ok]
    · intro d1 h1 d2 h2 c1 c2 m1 m2 _ _
      rw [docs_histT] at h1 h2
      simp only [List.mem_singleton] at h1 h2
      subst h1
      simp [docT] at m1
  inside := by
    intro o ho
    have hA : Store.InWorkspace Store.Demo.root Store.Demo.uA := by constructor <;> decide
    simp only [histT, List.mem_cons, List.not_mem_nil, or_false] at ho
    rcases ho with rfl | rfl
    · trivial
    · exact fun _ => hA
  result := by
    have : (Store.run Store.Demo.env Store.Demo.root histT).isSome = true := by decide +kernel
    rw [stT]
    revert this
    cases Store.run Store.Demo.env Store.Demo.root histT <;> simp
  recorded := by
    intro d hd
    rw [docs_histT] at hd
    rw [List.mem_singleton.mp hd]
    show recorded fileT = some ((recorded fileT).getD [])
    have : (recorded fileT).isSome = true := by decide +kernel
    revert this
    cases recorded fileT <;> simp

theorem namedT : AllNamed srcT histT := by
  intro u d hl s hs
  have : s ∈ fileT.symbols := hs
  simp only [fileT, List.mem_cons, List.not_mem_nil, or_false] at this
  rcases this with rfl | rfl | rfl | rfl | rfl <;> simp [Named, ClassName]

theorem latestT (u : Bytes) : Store.latest histT u = if u = Store.Demo.uA then some docT else none := by
  simp only [Store.latest, histT, List.foldl_cons, List.foldl_nil, Store.latestStep]
  rfl

theorem textsT_ok : Texts textsT srcT histT where
  files u := by
    rw [latestT, textsT]
    split <;> rfl
  symbols u c root d hu hl := by
    rw [textsT] at hu
    split at hu
    · injection hu with hu
      injection hu with h1 h2
      subst h1 h2
      have e : flat (symbolsOf text.ctx text.root) = [⟨.class_, ⟨⟨1, 0⟩, ⟨1, 40⟩⟩, b!"\\A", []⟩, ⟨.method, ⟨⟨1, 8⟩, ⟨1, 39⟩⟩, b!"m", b!"\\A"⟩,
          ⟨.variable, ⟨⟨1, 30⟩, ⟨1, 32⟩⟩, b!"$q", []⟩, ⟨.methodAccess, ⟨⟨1, 34⟩, ⟨1, 35⟩⟩, b!"m", []⟩,
          ⟨.argumentList, ⟨⟨1, 35⟩, ⟨1, 37⟩⟩, b!"()", []⟩] := by decide +kernel
      rw [e]
      refine .cons ⟨rfl, rfl⟩ (.cons ⟨rfl, rfl⟩ (.cons ⟨rfl, rfl⟩ (.cons ⟨rfl, rfl⟩ (.cons ⟨rfl, rfl⟩ .nil))))
    · cases hu
  orderly u c root hu := by
    rw [textsT] at hu
    split at hu
    · injection hu with hu
      injection hu with h1 h2
      subst h1 h2
      have : (text.root.kids.all Node.orderly) = true := by decide +kernel
      exact List.all_eq_true.mp this
    · cases hu

end Demo

open Demo

/-- C146: find references on a call of `m` lists the call and the declaration in the file. -/
example : UsesSupported text.ctx text.root ∧ text.text = b!"<?php\nclass A{function m($q){return $q->m();}}" ∧
    ∃ res, references Store.Demo.env stT (ctx b!"m") fileT.tables (use 1) 1 (some ⟨.methodAccess b!"m", rg 1 34 35, rg 0 0 0⟩) = some res ∧
      Lists textsT srcT histT .method b!"m" res :=
  ⟨by decide +kernel, by decide +kernel,
    C146_method_use textsT_ok readyT namedT _ (use_chain 1) (use_cursor 1 (by decide)) rfl (.inl rfl) (by decide)⟩

example : (references Store.Demo.env stT (ctx b!"m") fileT.tables (use 1) 1 (some ⟨.methodAccess b!"m", rg 1 34 35, rg 0 0 0⟩)).map
    (fun l => l.map fun e => (e.1 == Store.Demo.uA, e.2.start.character.toNat)) = some [(true, 17), (true, 34)] := by decide +kernel

end Verif.References
