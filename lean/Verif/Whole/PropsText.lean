import Verif.Whole.Text
import Verif.Whole.PropsSymbols

/-! C141: from the text of the files to where go to definition leads. -/

namespace Verif.Whole

open Verif.Encoding Verif.Storage Verif.Store Verif.Query
open Analyser (Ctx Node IsSymbol InDocument InNamespace Supported)

section
variable {env : Env} {root : Bytes} {h : List HOp} {s : Store} {T : Bytes → Option (Ctx × Node)} {L : Bytes → Option Doc}

theorem name_of_path {x x' : Sym} (hk : sort x = sort x') (hg : isGlobal (sort x) = true) (hc : sort x ≠ .class_)
    (hp : x.path env = x'.path env) : titleOf x = titleOf x' := by
  cases x <;> cases x' <;> first
    | (cases hk; done)
    | (cases hg; done)
    | exact absurd rfl hc
    | exact (List.cons.inj hp).1

theorem isThere_iff (hT : Current T L) {kind : Analyser.Kind} (hk : isGlobal kind = true) (hc : kind ≠ .class_) (q : Bytes) :
    IsThere T kind q ↔ ∃ x, Live env L x ∧ sort x = kind ∧ titleOf x = q := by
  constructor
  · rintro ⟨u, c, r, ht, a, ha, rfl, rfl⟩
    obtain ⟨x, a', hx, -, -, -, hs, x', hs', hd⟩ := text_live (env := env) hT ht ha hk
    refine ⟨x, hx, hs, ?_⟩
    rw [← hs'.of.2]
    exact name_of_path (sort_of_same hd) (hs ▸ hk) (hs ▸ hc) hd.2.1
  · rintro ⟨x, hx, rfl, rfl⟩
    obtain ⟨u, c, r, a, ht, ha, hs⟩ := live_text hT hx
    exact ⟨u, c, r, ht, a, ha, hs.kind hk, hs.of.2.symm⟩

open Classical in
/-- What the answer consists of. -/
theorem definition_leads (he : EnvOK env) (hsl : env.LowerSlash) (hok : HistOK env h) (hs : run env root h = some s)
    (hT : Current T (latest h)) (tbl : Imports.Table) (keyOf : Bytes → Bytes) (n ni : Nat) (u : Use)
    (hu : match u with
      | .cls ts => ∀ t ∈ ts, Unaliased tbl t
      | .intf ts => ∀ t ∈ ts, Unaliased tbl t
      | .trt _ => True
      | .typ _ => True
      | .function _ => True
      | .constant _ => True
      | _ => False) :
    ∃ r, definitionIn env s tbl keyOf n ni u = some r ∧
      Leads env (latest h) r fun x => isGlobal (sort x) = true ∧ Asks env T tbl u (sort x) (titleOf x) := by
  cases u with
  | new_ _ => cases hu
  | member _ _ _ _ => cases hu
  | function name =>
    obtain ⟨r, h1, h2⟩ := C125_functions he hok hs tbl keyOf n ni name
    refine ⟨r, h1, h2.imp fun x => ?_⟩
    have ex : (fun q => decide (FunctionExists env (latest h) q)) = fun q => decide (IsThere T .function q) := by
      funext q
      rw [decide_eq_decide, isThere_iff (env := env) hT rfl (by decide)]
      constructor
      · rintro ⟨f, hf, e⟩; exact ⟨_, hf, rfl, e⟩
      · rintro ⟨x, hx, h3, h4⟩
        cases x <;> first | (cases h3; done) | exact ⟨_, hx, h4⟩
    rw [ex]
    cases x <;> simp [Asks, sort, titleOf, isGlobal]
  | constant name =>
    obtain ⟨r, h1, h2⟩ := C125_constants he hok hs tbl keyOf n ni name
    refine ⟨r, h1, h2.imp fun x => ?_⟩
    have ex : (fun q => decide (ConstExists env (latest h) q)) = fun q => decide (IsThere T .const_ q) := by
      funext q
      rw [decide_eq_decide, isThere_iff (env := env) hT rfl (by decide)]
      constructor
      · rintro ⟨f, hf, e⟩; exact ⟨_, hf, rfl, e⟩
      · rintro ⟨x, hx, h3, h4⟩
        cases x <;> first | (cases h3; done) | exact ⟨_, hx, h4⟩
    have ex' : (fun q => decide (DefineExists env (latest h) q)) = fun q => decide (IsThere T .define q) := by
      funext q
      rw [decide_eq_decide, isThere_iff (env := env) hT rfl (by decide)]
      constructor
      · rintro ⟨f, hf, e⟩; exact ⟨_, hf, rfl, e⟩
      · rintro ⟨x, hx, h3, h4⟩
        cases x <;> first | (cases h3; done) | exact ⟨_, hx, h4⟩
    rw [ex, ex']
    cases x <;> simp [Asks, sort, titleOf, isGlobal]
  | cls ts =>
    obtain ⟨r, h1, h2⟩ := C125_names he hsl hok hs tbl keyOf n ni (.cls ts) hu
    exact ⟨r, h1, h2.imp fun x => by cases x <;> simp [Asks, sort, titleOf, isGlobal, Wanted]⟩
  | intf ts =>
    obtain ⟨r, h1, h2⟩ := C125_names he hsl hok hs tbl keyOf n ni (.intf ts) hu
    exact ⟨r, h1, h2.imp fun x => by cases x <;> simp [Asks, sort, titleOf, isGlobal, Wanted]⟩
  | trt ts =>
    obtain ⟨r, h1, h2⟩ := C125_names he hsl hok hs tbl keyOf n ni (.trt ts) hu
    exact ⟨r, h1, h2.imp fun x => by cases x <;> simp [Asks, sort, titleOf, isGlobal, Wanted]⟩
  | typ ts =>
    obtain ⟨r, h1, h2⟩ := C125_names he hsl hok hs tbl keyOf n ni (.typ ts) hu
    exact ⟨r, h1, h2.imp fun x => by cases x <;> simp [Asks, sort, titleOf, isGlobal, Wanted]⟩

theorem asks_same (hsl : env.LowerSlash) {tbl : Imports.Table} {u : Use} {x x' : Sym} (hd : SameDecl env x x')
    (h : Asks env T tbl u (sort x') (titleOf x')) : Asks env T tbl u (sort x) (titleOf x) := by
  have hk := sort_of_same hd
  have hp := hd.2.1
  cases x <;> cases x' <;> first
    | (cases hk; done)
    | (have e := (List.cons.inj hp).1
       cases u <;> first
         | exact h
         | (simp only [Asks, sort, titleOf] at h ⊢
            first
            | exact h.elim
            | (obtain ⟨t, ht, h⟩ := h
               exact ⟨t, ht, (classFQNLower_eq_iff hsl _ _).mp (e.trans ((classFQNLower_eq_iff hsl _ _).mpr h))⟩)
            | (obtain ⟨t, ht, h⟩ := h
               exact ⟨t, ht, e.trans h⟩)
            | exact e.trans h))
    | (cases u <;> exact h)

/-- A declaration in a supported tree is a symbol of it. -/
theorem declared_symbol {c : Ctx} {root n : Node} {e : Analyser.Env} {kind : Analyser.Kind} {q : Bytes} (hs : Supported c root)
    (hn : InDocument c root e n) (hd : declaredAs c e n = some (kind, q)) :
    IsSymbol c root ⟨kind, c.range n, q, []⟩ ∧ isGlobal kind = true := by
  unfold declaredAs at hd
  split at hd
  case h_6 =>
    split at hd
    · rename_i hc
      obtain ⟨x, hx, e⟩ := Option.map_eq_some_iff.mp hd
      cases e
      exact ⟨Analyser.C68_define_partial hs hn hc.1 hc.2 hx, rfl⟩
    · cases hd
  case h_7 => cases hd
  all_goals
    obtain ⟨x, hx, e⟩ := Option.map_eq_some_iff.mp hd
    cases e
    first
    | exact ⟨Analyser.C68_const_partial hs hn hx, rfl⟩
    | exact ⟨Analyser.C68_declaration_partial hs hn rfl hx, rfl⟩

/-- The file has no other declaration of that sort and name. -/
def Single (env : Env) (c : Ctx) (root : Node) (kind : Analyser.Kind) (q : Bytes) (r : Rng) : Prop :=
  ∀ a, IsSymbol c root a → a.kind = kind → (if kind = .class_ then SameClassName env a.name q else a.name = q) → a.range = r

/-- C141: after any history of indexing, re-indexing, deleting, restarting and crashing, go to definition on a name

* leads only to declarations that are written in the current texts of files that can be opened, of the sort and with the full
  name that is asked for (the name in its header behind the namespace declared last before it), at their places in the text;
* leads to every such declaration, unless the same file has another one of the same name. -/
theorem C141_definition (he : EnvOK env) (hsl : env.LowerSlash) (hok : HistOK env h) (hs : run env root h = some s)
    (hT : Current T (latest h)) (hns : ∀ file c root, T file = some (c, root) → ∀ k ∈ root.kids, k.orderly = true)
    (tbl : Imports.Table) (keyOf : Bytes → Bytes) (n ni : Nat) (u : Use)
    (hu : match u with
      | .cls ts => ∀ t ∈ ts, Unaliased tbl t
      | .intf ts => ∀ t ∈ ts, Unaliased tbl t
      | .trt _ => True
      | .typ _ => True
      | .function _ => True
      | .constant _ => True
      | _ => False) :
    ∃ r, definitionIn env s tbl keyOf n ni u = some r ∧
      (∀ y ∈ r, b!"file://" <+: y.location.uri ∧ ∃ kind, WrittenAt T kind (Asks env T tbl u kind) y.location) ∧
      ∀ file c root e n kind q, T file = some (c, root) → Supported c root → InDocument c root e n →
        declaredAs c e n = some (kind, q) → Asks env T tbl u kind q → b!"file://" <+: file →
        Single env c root kind q (c.range n) → ∃ y ∈ r, y.location = Show.toLocation file (c.range n) := by
  obtain ⟨r, h1, h2⟩ := definition_leads he hsl hok hs hT tbl keyOf n ni u hu
  refine ⟨r, h1, fun y hy => ?_, fun file c root e n kind q ht hsup hn hd ha hf hone => ?_⟩
  · obtain ⟨x, hx, ⟨hg, ha⟩, ho, rfl⟩ := (h2 y).mp hy
    rw [stored_location]
    refine ⟨ho, sort x, ?_⟩
    obtain ⟨file, c, root, a, ht, hsym, hst⟩ := live_text hT hx
    have hk := hst.kind hg
    obtain ⟨ns, n, g1, g2, g3, g4⟩ := Analyser.C140_names (hns file c root ht) hsym
      (by rw [hk]; revert hg; cases sort x <;> simp [isGlobal, Analyser.Kind.titled])
    refine ⟨file, c, root, ht, ns, n, g1, hk ▸ g2, by rw [hst.of.1, g3], fun raw hraw hp => ?_⟩
    have := g4 raw hraw
    rw [if_neg (by rw [hk]; revert hg; cases sort x <;> simp [isGlobal, Analyser.Kind.inClass])] at this
    rw [← this hp, ← hst.of.2]
    exact ha
  · obtain ⟨hsym, hg⟩ := declared_symbol hsup hn hd
    obtain ⟨x, a', hx, hsym', hst, hk', hk, x', hst', hsame⟩ := text_live (env := env) hT ht hsym hg
    have hk2 := hst'.sort hg
    refine ⟨x.stored, (h2 _).mpr ⟨x, hx, ⟨hk.symm ▸ hg, asks_same hsl hsame ?_⟩, ?_, rfl⟩, ?_⟩
    · rw [hk2, hst'.of.2]; exact ha
    · rw [Openable, hst.of.1]; exact hf
    · rw [stored_location, hst.of.1, hone a' hsym' hk' ?_]
      have hp := hsame.2.1
      rw [← hst.of.2]
      have e2 : titleOf x' = q := hst'.of.2
      rw [← e2]
      simp only at hk hk2
      rw [← hk2]
      rw [← hk2] at hk
      rw [← hk2] at hg
      clear hst hst' e2 hk2 hone ha hd hsym hk'
      cases x <;> cases x' <;> first
        | (cases hk; done)
        | (cases hg; done)
        | exact (classFQNLower_eq_iff hsl _ _).mp (List.cons.inj hp).1
        | exact (List.cons.inj hp).1

/-- The sort of member that an access asks for, and whether a member of that name is one: methods are compared ignoring case;
of constants it is enough that the name starts like that. -/
def AsksMember (env : Env) (u : MemberUse) (name : Bytes) (kind : Analyser.Kind) (raw : Bytes) : Prop :=
  match u, kind with
  | .method, .method | .staticMethod, .method => env.lower raw = env.lower name
  | .prop, .property => raw = 36 :: name
  | .staticProp, .property => raw = name
  | .const, .classConst => name <+: raw
  | _, _ => False

/-- C141: after any history, go to definition on a member of an object or class leads only to members that are written in the
current texts of files that can be opened, of the sort and with the name that is asked for, at their places in the text; or to
a class whose doc comment has such a member. -/
theorem C141_members (he : EnvOK env) (hsl : env.LowerSlash) (hok : HistOK env h) (hs : run env root h = some s)
    (hT : Current T (latest h)) (hns : ∀ file c root, T file = some (c, root) → ∀ k ∈ root.kids, k.orderly = true)
    (ho : OneEach env (latest h)) (tbl : Imports.Table) (keyOf : Bytes → Bytes) (n ni : Nat) (u : MemberUse) (a : Access)
    (name cur : Bytes) (hn : name ≠ []) (r : List Sym)
    (hr : definitionIn env s tbl keyOf n ni (.member u a name cur) = some r) (y : Sym) (hy : y ∈ r) :
    b!"file://" <+: y.location.uri ∧ ∃ file c root, T file = some (c, root) ∧
      ((∃ ns n kind, InNamespace c root ns n ∧ n.declares kind = true ∧ y.location = Show.toLocation file (c.range n) ∧
          ∀ raw, Analyser.writtenName c n = some raw → AsksMember env u name kind raw) ∨
        ∃ a, IsSymbol c root a ∧ y.location = Show.toLocation file a.range ∧
          (a.kind = .docMethod ∧ AsksMember env u name .method a.name ∨
           a.kind = .docProperty ∧ AsksMember env u name .property a.name)) := by
  obtain ⟨x, hx, rfl, hopen, -, -, scope, -, hd, -, -⟩ := C125_members he hsl hok hs ho tbl keyOf n ni u a name cur hn r hr y hy
  rw [stored_location]
  obtain ⟨file, c, root, b, ht, hsym, hst⟩ := live_text hT hx
  refine ⟨hopen, file, c, root, ht, ?_⟩
  have written : ∀ kind, b.kind = kind → kind.titled = true → kind.inClass = true → AsksMember env u name kind b.name →
      ∃ ns n kind, InNamespace c root ns n ∧ n.declares kind = true ∧ x.location = Show.toLocation file (c.range n) ∧
        ∀ raw, Analyser.writtenName c n = some raw → AsksMember env u name kind raw := by
    rintro _ rfl ht' hc hb
    obtain ⟨ns, n, g1, g2, g3, g4⟩ := Analyser.C140_names (hns file c root ht) hsym ht'
    refine ⟨ns, n, _, g1, g2, by rw [hst.of.1, g3], fun raw hraw => ?_⟩
    have := g4 raw hraw
    rw [if_pos hc] at this
    exact this ▸ hb
  have hloc := hst.of.1
  have hnm := hst.of.2
  obtain ⟨-, hst⟩ := hst
  cases x with
  | met m =>
    have hb : AsksMember env u name .method b.name := by
      rcases hd with ⟨rfl | rfl, -, e⟩ <;> exact hnm ▸ e
    rcases hst.1 with hk | hk
    · exact .inl (written _ hk rfl rfl hb)
    · exact .inr ⟨b, hsym, hloc, .inl ⟨hk, hb⟩⟩
  | pro m =>
    have hb : AsksMember env u name .property b.name := by
      rcases hd with ⟨rfl, -, e⟩ | ⟨rfl, -, e⟩ <;> exact hnm ▸ e
    rcases hst.1 with hk | hk
    · exact .inl (written _ hk rfl rfl hb)
    · exact .inr ⟨b, hsym, hloc, .inr ⟨hk, hb⟩⟩
  | claCon m =>
    have hb : AsksMember env u name .classConst b.name := by
      obtain ⟨rfl, -, e⟩ := hd
      exact hnm ▸ e
    exact .inl (written _ hst.1 rfl rfl hb)
  | _ => cases hd

/-- As what a declaration is listed. -/
def listedAs : Analyser.Kind → Option InfoKind
  | .class_ | .trait_ => some .class_
  | .interface_ => some .interface
  | .function => some .function
  | .const_ | .define | .classConst => some .constant
  | .method | .docMethod => some .method
  | .property | .docProperty => some .property
  | _ => none

/-- C141: whatever the histories of the folders, what the symbol search lists is written in the current text of a file of
one of them, at that place: a declaration of that kind whose name is the one that is listed, or a class whose doc comment has
a member of that name. -/
theorem C141_symbols (he : EnvOK env) (folders : List (Folder env)) (T : Folder env → Bytes → Option (Ctx × Node))
    (hT : ∀ F ∈ folders, Current (T F) (latest F.history))
    (hns : ∀ F ∈ folders, ∀ file c root, T F file = some (c, root) → ∀ k ∈ root.kids, k.orderly = true) (q : Bytes) :
    ∃ l, workspaceSymbol env (folders.map (·.store)) q = some l ∧ ∀ e ∈ l, ∃ F ∈ folders, ∃ file c root,
      T F file = some (c, root) ∧
      ((∃ ns n kind, InNamespace c root ns n ∧ n.declares kind = true ∧ listedAs kind = some e.kind ∧
          e.location = Show.toLocation file (c.range n) ∧
          ∀ raw, Analyser.writtenName c n = some raw →
            if kind.inClass then e.name = raw else Analyser.plain raw = true → e.name = Analyser.fullName ns raw) ∨
        ∃ a, IsSymbol c root a ∧ (a.kind = .docMethod ∨ a.kind = .docProperty) ∧ listedAs a.kind = some e.kind ∧
          e.location = Show.toLocation file a.range ∧ e.name = a.name) := by
  obtain ⟨l, zs, h1, -, h2, -⟩ := C128_listed he folders q
  refine ⟨l, h1, fun e hel => ?_⟩
  obtain ⟨⟨i, x⟩, -, ⟨F, hF, hx⟩, hst⟩ := forall₂_right h2 hel
  have hF := List.mem_of_getElem? hF
  obtain ⟨file, c, root, a, ht, hsym, hsame⟩ := live_text (hT F hF) hx
  refine ⟨F, hF, file, c, root, ht, ?_⟩
  have hnm := hsame.of
  have key : listedAs a.kind = some e.kind ∧ e.location = x.location ∧ e.name = titleOf x ∧
      (a.kind.titled = true ∨ a.kind = .docMethod ∨ a.kind = .docProperty) := by
    obtain ⟨-, hk⟩ := hsame
    cases hst <;> first
      | exact ⟨by rw [hk.1]; rfl, rfl, rfl, .inl (by rw [hk.1]; rfl)⟩
      | (rcases hk.1 with hk | hk
         · exact ⟨by rw [hk]; rfl, rfl, rfl, .inl (by rw [hk]; rfl)⟩
         · exact ⟨by rw [hk]; rfl, rfl, rfl, .inr (by rw [hk]; simp)⟩)
  obtain ⟨k1, k2, k3, hk⟩ := key
  rcases hk with hk | hk
  · obtain ⟨ns, n, g1, g2, g3, g4⟩ := Analyser.C140_names (hns F hF file c root ht) hsym hk
    refine .inl ⟨ns, n, a.kind, g1, g2, k1, by rw [k2, hnm.1, g3], fun raw hraw => ?_⟩
    rw [k3, hnm.2]
    exact g4 raw hraw
  · exact .inr ⟨a, hsym, hk, k1, by rw [k2, hnm.1], by rw [k3, hnm.2]⟩

end

/-! ### an example -/

namespace Demo

open Verif.Store.Demo (env uA a1)

open Analyser.Src in
/-- `namespace N;class A{function m($q){return new B();}}function f($q){define('X',4);}` -/
def sampleText : Analyser.Src := doc [
  nspace b!"N",
  classDecl b!"A" [methodDecl b!"m" [param b!"$q"] [ret (create b!"B" [])]],
  funDecl b!"f" [param b!"$q"] [stmt (call b!"define" [str b!"'X'", Analyser.Src.num b!"4"])]]

def onLine (i j : GoInt) : Location := ⟨uA, ⟨⟨1, i⟩, ⟨1, j⟩⟩⟩

/-- What is stored of it. -/
def textDoc : Doc where
  uri := uA
  hash := b!"5"
  symbols := [
    .cla ⟨onLine 12 52, onLine 18 19, 0, [], Store.Demo.ty b!"N\\A", Store.Demo.ty [], [], [], none⟩,
    .met ⟨onLine 20 51, onLine 29 30, b!"m", [], [], [], Store.Demo.ty b!"N\\A", 0, false, 0, none⟩,
    .fn ⟨onLine 52 82, onLine 61 62, Store.Demo.ty b!"N\\f", [], [], [], none⟩,
    .def_ ⟨onLine 67 80, [], none, Store.Demo.ty b!"N\\X", b!"4"⟩]
  namespaces := []
  refs := []

/-- An earlier version of the file was indexed before. -/
def textHist : List HOp := [.upgrade b!"v0.0.16", .index a1, .index textDoc, .restart]

/-- The current text. -/
def texts (u : Bytes) : Option (Ctx × Node) := if u = uA then some (sampleText.ctx, sampleText.root) else none

theorem textDoc_ok : DocOK env textDoc where
  uri := Store.Demo.uA_ok
  len := by decide
  syms := by
    have : ∀ x ∈ textDoc.symbols, x.WF := by
      simp [textDoc, Sym.WF, Class.WF, Function.WF, Method.WF, Const.WF, onLine,
        Location.WF, uA, Str, Store.Demo.ty, TypeString.WF, Types.WF, ListWF, DeprecatedWF]
    intro x hx
    exact Store.Demo.sym_ok (this x hx) ((by decide +kernel : ∀ x ∈ textDoc.symbols, ∀ n ∈ x.names, sep ∉ n) x hx)
      ((by decide +kernel : ∀ x ∈ textDoc.symbols, x.location.uri = uA) x hx)
      ((by decide +kernel : ∀ x ∈ textDoc.symbols, (x.key env).length < 1000) x hx)
  refsLen := by decide
  refs := by simp [textDoc]

theorem textHist_ok : HistOK env textHist where
  docs := by
    rw [show docs textHist = [a1, textDoc] from rfl]
    simp [Store.Demo.a1_ok, textDoc_ok]
  consts := by
    intro d1 h1 d2 h2 c1 c2 m1 m2 _ _
    rw [show docs textHist = [a1, textDoc] from rfl] at h1 h2
    simp only [List.mem_cons, List.not_mem_nil, or_false] at h1 h2
    rcases h1 with rfl | rfl <;> rcases h2 with rfl | rfl <;>
      first
        | rfl
        | (simp [a1, textDoc, Store.Demo.cla, Store.Demo.met, Store.Demo.pro, Store.Demo.fn, Store.Demo.glo,
            Store.Demo.claCon] at m1 m2)
  crashes := by simp [Store.Keeps, textHist]

theorem latest_text (u : Bytes) : latest textHist u = if u = uA then some textDoc else none := by
  simp only [latest, textHist, List.foldl_cons, List.foldl_nil, latestStep]
  by_cases h : u = uA
  · rw [if_pos h]; exact if_pos h
  · rw [if_neg h]
    exact (if_neg h).trans (if_neg h)

theorem texts_current : Current texts (latest textHist) where
  files u := by rw [latest_text, texts]; split <;> rfl
  uris u d hd := by
    rw [latest_text] at hd
    split at hd
    · cases hd; exact Eq.symm ‹_›
    · cases hd
  texts u t d ht hd := by
    rw [latest_text] at hd
    rw [texts] at ht
    split at hd
    · cases hd
      rw [if_pos ‹_›] at ht
      cases ht
      unfold OfText
      decide +kernel
    · cases hd

theorem one_text : OneEach env (latest textHist) := by
  have live : ∀ x, Live env (latest textHist) x → x ∈ textDoc.symbols := by
    rintro x ⟨u, d, pre, post, hd, e, -⟩
    rw [latest_text] at hd
    split at hd <;> cases hd
    simp [e]
  constructor
  · intro c d hc hd _
    have h1 := live _ hc
    have h2 := live _ hd
    simp only [textDoc, List.mem_cons, Sym.cla.injEq, reduceCtorEq, List.not_mem_nil, or_false] at h1 h2
    rw [h1, h2]
  · intro c d hc
    have h1 := live _ hc
    simp [textDoc] at h1

theorem kids_three : 3 < sampleText.root.kids.length := by decide +kernel

/-- Non-vacuity of C141: the hypotheses are met, the class and the function are declared and asked for, and the answers are
their places in the text. -/
example : HistOK env textHist ∧ OneEach env (latest textHist) ∧ Current texts (latest textHist) ∧
    (∀ file c root, texts file = some (c, root) → ∀ k ∈ root.kids, k.orderly = true) ∧
    Supported sampleText.ctx sampleText.root ∧
    (∃ e n, InDocument sampleText.ctx sampleText.root e n ∧
      declaredAs sampleText.ctx e n = some (.function, b!"\\N\\f") ∧
      Single env sampleText.ctx sampleText.root .function b!"\\N\\f" (sampleText.ctx.range n) ∧
      Show.toLocation uA (sampleText.ctx.range n) = onLine 52 82) ∧
    (∃ s, run env Store.Demo.root textHist = some s ∧
      [definitionIn env s (Imports.newTable ⟨0, 0⟩) id 9 9 (.cls [⟨b!"\\N\\a", b!"a", 0⟩]),
       definitionIn env s (Imports.newTable ⟨0, 0⟩) id 9 9 (.function ⟨b!"\\N\\f", b!"f", 0⟩),
       definitionIn env s (Imports.newTable ⟨0, 0⟩) id 9 9 (.member .method ⟨b!"$x", [b!"\\N\\A"]⟩ b!"m" [])].map
        (Option.map (List.map Sym.location)) = [some [onLine 12 52], some [onLine 52 82], some [onLine 20 51]]) := by
  refine ⟨textHist_ok, one_text, texts_current, fun file c root h => ?_, ?_, ?_, Store.Demo.observe _ _ (by decide +kernel)⟩
  · rw [texts] at h
    split at h <;> cases h
    decide +kernel
  · unfold Supported Analyser.SupportedFor; decide +kernel
  · refine ⟨_, _, ⟨sampleText.root.kids.take 3, sampleText.root.kids[3]'kids_three, sampleText.root.kids.drop 4,
      by rw [List.getElem_cons_drop, List.take_append_drop], .here _ _⟩, by decide +kernel, ?_, by decide +kernel⟩
    intro a ha hk hn
    exact (by decide +kernel : ∀ a ∈ Analyser.flat (Analyser.symbolsOf sampleText.ctx sampleText.root), a.kind = .function →
      a.name = b!"\\N\\f" → a.range = sampleText.ctx.range (sampleText.root.kids[3]'kids_three)) a ha hk hn

/-- Non-vacuity of C141_symbols: a folder with that history, and what is listed. -/
example : ∃ F : Folder env, F.history = textHist ∧ Current texts (latest F.history) ∧
    workspaceSymbol env ([F].map (·.store)) b!"m" = some [⟨.method, b!"m", onLine 20 51, b!"\\N\\A"⟩] := by
  obtain ⟨s, r, h⟩ := Store.Demo.observe (env := env) (root := Store.Demo.root) (h := textHist)
    (fun s => workspaceSymbol env [s] b!"m") (some [⟨.method, b!"m", onLine 20 51, b!"\\N\\A"⟩]) (by decide +kernel)
  exact ⟨⟨Store.Demo.root, textHist, s, textHist_ok, r⟩, rfl, texts_current, h⟩

end Demo

end Verif.Whole
