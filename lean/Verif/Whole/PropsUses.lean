import Verif.Whole.PropsText
import Verif.Decl.Uses

/-! C142: from a name that is used in the text to where go to definition leads. -/

namespace Verif.Whole

open Verif.Encoding Verif.Storage Verif.Store Verif.Query
open Analyser (Ctx Node IsSymbol InDocument InNamespace Supported)
open Decl (Enclosing Means Resolvable classAccessTypes interfaceAccessTypes traitAccessTypes typeDeclaration IsName IsPhrase)

section
variable {env : Env} {root : Bytes} {h : List HOp} {s : Store} {T : Bytes → Option (Ctx × Node)} {L : Bytes → Option Doc}

/-- The name is fully qualified and its first part is not the alias of an import. -/
def NotAlias (tbl : Imports.Table) (q : Bytes) : Prop :=
  Imports.FullyQualified q ∧ tbl.classes.get (Imports.firstSegment (q.drop 1)) = none

theorem NotAlias.unaliased {tbl : Imports.Table} {t : Types.Ty} (h : NotAlias tbl t.fqn) : Unaliased tbl t := by
  obtain ⟨h1, h2⟩ := h
  obtain ⟨m, hm⟩ : ∃ m, t.fqn = 92 :: m := by
    unfold Imports.FullyQualified at h1
    cases e : t.fqn with
    | nil => rw [e] at h1; cases h1
    | cons x m => rw [e] at h1; cases h1; exact ⟨m, rfl⟩
  refine ⟨?_, ?_⟩
  · rw [(Imports.firstAndRest_full t m hm).1]
    rw [hm] at h2
    exact h2
  · rw [hm]; simp [Types.isFQN]

/-- What is stored of a global declaration is written in the current text. -/
theorem written_of_live (hT : Current T L)
    (hns : ∀ file c root, T file = some (c, root) → ∀ k ∈ root.kids, k.orderly = true) {x : Sym} (hx : Live env L x)
    (hg : isGlobal (sort x) = true) : WrittenAt T (sort x) (· = titleOf x) x.location := by
  obtain ⟨file, c, root, a, ht, hsym, hst⟩ := live_text hT hx
  have hk := hst.kind hg
  obtain ⟨ns, n, g1, g2, g3, g4⟩ := Analyser.C140_names (hns file c root ht) hsym
    (by rw [hk]; revert hg; cases sort x <;> simp [isGlobal, Analyser.Kind.titled])
  refine ⟨file, c, root, ht, ns, n, g1, hk ▸ g2, by rw [hst.of.1, g3], fun raw hraw hp => ?_⟩
  have := g4 raw hraw
  rw [if_neg (by rw [hk]; revert hg; cases sort x <;> simp [isGlobal, Analyser.Kind.inClass])] at this
  rw [← this hp, hst.of.2]

/-- The answer `r` consists of the places in the current texts of files that can be opened where something is declared that
satisfies `Q`: only of such places, and of each of them, unless the same file has another declaration of the same sort and
name. -/
def LeadsToText (env : Env) (T : Bytes → Option (Ctx × Node)) (Q : Analyser.Kind → Bytes → Prop) (r : List Sym) : Prop :=
  (∀ y ∈ r, b!"file://" <+: y.location.uri ∧ ∃ kind q, Q kind q ∧ WrittenAt T kind (· = q) y.location) ∧
  ∀ file c root e n kind q, T file = some (c, root) → Supported c root → InDocument c root e n →
    declaredAs c e n = some (kind, q) → Q kind q → b!"file://" <+: file →
    Single env c root kind q (c.range n) → ∃ y ∈ r, y.location = Show.toLocation file (c.range n)

theorem leads_to_text (he : EnvOK env) (hsl : env.LowerSlash) (hok : HistOK env h) (hs : run env root h = some s)
    (hT : Current T (latest h)) (hns : ∀ file c root, T file = some (c, root) → ∀ k ∈ root.kids, k.orderly = true)
    (tbl : Imports.Table) (keyOf : Bytes → Bytes) (n ni : Nat) (u : Use)
    (hu : match u with
      | .cls ts => ∀ t ∈ ts, Unaliased tbl t
      | .intf ts => ∀ t ∈ ts, Unaliased tbl t
      | .trt _ => True
      | .typ _ => True
      | .function _ => True
      | .constant _ => True
      | _ => False) :
    ∃ r, definitionIn env s tbl keyOf n ni u = some r ∧ LeadsToText env T (Asks env T tbl u) r := by
  obtain ⟨r, h1, h2⟩ := definition_leads he hsl hok hs hT tbl keyOf n ni u hu
  obtain ⟨r', h1', -, h3⟩ := C141_definition he hsl hok hs hT hns tbl keyOf n ni u hu
  obtain rfl : r = r' := Option.some.inj (h1.symm.trans h1')
  refine ⟨r, h1, fun y hy => ?_, h3⟩
  obtain ⟨x, hx, ⟨hg, ha⟩, ho, rfl⟩ := (h2 y).mp hy
  rw [stored_location]
  exact ⟨ho, sort x, titleOf x, ha, written_of_live hT hns hx hg⟩

theorem LeadsToText.imp {Q Q' : Analyser.Kind → Bytes → Prop} {r : List Sym} (h : LeadsToText env T Q r)
    (hQ : ∀ k q, Q k q ↔ Q' k q) : LeadsToText env T Q' r := by
  have : Q = Q' := funext fun k => funext fun q => propext (hQ k q)
  exact this ▸ h

/-- C142: after any history of indexing, re-indexing, deleting, restarting and crashing, go to definition on a name before `::`
(or behind `instanceof` or `extends`, or in a `catch`) leads to the classes that are written in the current texts under the
full name that PHP gives the name there: the enclosing class for `self`, `static` and `$this`, its parents for `parent`, and
the class given by the imports and the namespace for other names; nowhere else; and to each of them, unless the same file has
another class of that name. Condition: no import has the first part of that full name as its alias (C78). -/
theorem C142_class_definition (he : EnvOK env) (hsl : env.LowerSlash) (hok : HistOK env h) (hs : run env root h = some s)
    (hT : Current T (latest h)) (hns : ∀ file c root, T file = some (c, root) → ∀ k ∈ root.kids, k.orderly = true)
    (keyOf : Bytes → Bytes) (n ni : Nat) (e : Decl.Env) (cls : Option Enclosing) (p : Node)
    (hp : IsName p ∧ Resolvable e.table (e.ctx.nodeText p) ∨
      e.ctx.nodeText p ∈ [b!"self", b!"static", b!"$this", b!"parent"])
    (hfree : ∀ q, Means e.table cls (e.ctx.nodeText p) q → NotAlias e.table q) :
    ∃ r, definitionIn env s e.table keyOf n ni (.cls (classAccessTypes e cls p)) = some r ∧
      LeadsToText env T (fun kind q => kind = .class_ ∧ ∃ m, Means e.table cls (e.ctx.nodeText p) m ∧ SameClassName env q m) r := by
  have hm : ∀ q, q ∈ (classAccessTypes e cls p).map Types.Ty.fqn ↔ Means e.table cls (e.ctx.nodeText p) q := by
    intro q
    rcases hp with hp | hp
    · exact Decl.C142_access e cls p hp.1 hp.2 q
    · exact Decl.C142_relative e cls p hp q
  obtain ⟨r, h1, h2⟩ := leads_to_text he hsl hok hs hT hns e.table keyOf n ni (.cls (classAccessTypes e cls p))
    (fun t ht => (hfree _ ((hm _).mp (List.mem_map_of_mem ht))).unaliased)
  refine ⟨r, h1, h2.imp fun k q => ?_⟩
  have : (∃ t ∈ classAccessTypes e cls p, SameClassName env q t.fqn) ↔
      ∃ m, Means e.table cls (e.ctx.nodeText p) m ∧ SameClassName env q m := by
    constructor
    · rintro ⟨t, ht, hq⟩; exact ⟨_, (hm _).mp (List.mem_map_of_mem ht), hq⟩
    · rintro ⟨m, hm', hq⟩
      obtain ⟨t, ht, rfl⟩ := List.mem_map.mp ((hm m).mpr hm')
      exact ⟨t, ht, hq⟩
  cases k <;> simp [Asks, this]

theorem exists_of_map_fqn {ts : List Types.Ty} {m : Bytes} (h : ts.map Types.Ty.fqn = [m]) (P : Bytes → Prop) :
    (∃ t ∈ ts, P t.fqn) ↔ P m := by
  constructor
  · rintro ⟨t, ht, hp⟩
    have := List.mem_map_of_mem (f := Types.Ty.fqn) ht
    rw [h, List.mem_singleton] at this
    exact this ▸ hp
  · intro hp
    obtain ⟨t, ht, e⟩ := List.mem_map.mp (h ▸ List.mem_singleton.mpr rfl : m ∈ ts.map Types.Ty.fqn)
    exact ⟨t, ht, e ▸ hp⟩

/-- C142: after any history, go to definition on a declared type leads to the classes and interfaces that are written in the
current texts under the full name that the imports and the namespace give (the case of class names does not count). -/
theorem C142_type_definition (he : EnvOK env) (hsl : env.LowerSlash) (hok : HistOK env h) (hs : run env root h = some s)
    (hT : Current T (latest h)) (hns : ∀ file c root, T file = some (c, root) → ∀ k ∈ root.kids, k.orderly = true)
    (tbl : Imports.Table) (keyOf : Bytes → Bytes) (n ni : Nat) (e : Decl.Env) (p : Node) (hp : IsPhrase .typeDeclaration p)
    (hr : Resolvable e.table (e.ctx.nodeText p)) :
    ∃ r, definitionIn env s tbl keyOf n ni (.typ (typeDeclaration e p).2) = some r ∧
      LeadsToText env T (fun kind q =>
        let m := Imports.phpClassName Types.natives e.table.getNamespace (Imports.names e.table.classes) (e.ctx.nodeText p)
        kind = .class_ ∧ SameClassName env q m ∨ kind = .interface_ ∧ q = m) r := by
  obtain ⟨r, h1, h2⟩ := leads_to_text he hsl hok hs hT hns tbl keyOf n ni (.typ (typeDeclaration e p).2) trivial
  have hm := (Decl.C142_types e p hp hr).2
  refine ⟨r, h1, h2.imp fun k q => ?_⟩
  have e1 := exists_of_map_fqn hm (fun m => SameClassName env q m)
  have e2 := exists_of_map_fqn hm (fun m => q = m)
  cases k <;> simp [Asks, e1, e2]

/-- C142: after any history, go to definition on an interface behind `implements`, and on a trait that a class uses, leads to
the interfaces and traits that are written in the current texts under the full name that the imports and the namespace give. -/
theorem C142_head_definition (he : EnvOK env) (hsl : env.LowerSlash) (hok : HistOK env h) (hs : run env root h = some s)
    (hT : Current T (latest h)) (hns : ∀ file c root, T file = some (c, root) → ∀ k ∈ root.kids, k.orderly = true)
    (keyOf : Bytes → Bytes) (n ni : Nat) (e : Decl.Env) (p : Node) (hp : IsName p)
    (hr : Resolvable e.table (e.ctx.nodeText p))
    (hfree : NotAlias e.table (Imports.phpClassName Types.natives e.table.getNamespace (Imports.names e.table.classes)
      (e.ctx.nodeText p))) :
    let m := Imports.phpClassName Types.natives e.table.getNamespace (Imports.names e.table.classes) (e.ctx.nodeText p)
    (∃ r, definitionIn env s e.table keyOf n ni (.intf (interfaceAccessTypes e p)) = some r ∧
      LeadsToText env T (fun kind q => kind = .interface_ ∧ q = m) r) ∧
    ∃ r, definitionIn env s e.table keyOf n ni (.trt (traitAccessTypes e p)) = some r ∧
      LeadsToText env T (fun kind q => kind = .trait_ ∧ q = m) r := by
  obtain ⟨m1, m2⟩ := Decl.C142_heads e p hp hr
  refine ⟨?_, ?_⟩
  · obtain ⟨r, h1, h2⟩ := leads_to_text he hsl hok hs hT hns e.table keyOf n ni (.intf (interfaceAccessTypes e p))
      (fun t ht => by
        apply NotAlias.unaliased
        have := List.mem_map_of_mem (f := Types.Ty.fqn) ht
        rw [m1, List.mem_singleton] at this
        exact this ▸ hfree)
    refine ⟨r, h1, h2.imp fun k q => ?_⟩
    have e2 := exists_of_map_fqn m1 (fun m => q = m)
    cases k <;> simp [Asks, e2]
  · obtain ⟨r, h1, h2⟩ := leads_to_text he hsl hok hs hT hns e.table keyOf n ni (.trt (traitAccessTypes e p)) trivial
    refine ⟨r, h1, h2.imp fun k q => ?_⟩
    have e2 := exists_of_map_fqn m2 (fun m => q = m)
    cases k <;> simp [Asks, e2]

end

/-! ### an example -/

namespace Demo

open Verif.Store.Demo (env uA)

/-- A file in the namespace `N` with a name and `self`. -/
def useSrc : Analyser.Src := .p .statementList [.p .qualifiedName [.t .name b!"a"], .p .qualifiedName [.t .name b!"self"],
  .p .typeDeclaration [.t .name b!"A"]]

def useEnv : Decl.Env where
  ctx := useSrc.ctx
  table := { Imports.newTable ⟨0, 0⟩ with ns := some b!"N" }
  cls := none
  doc := none
  strip := id

def useNode (i : Nat) : Node := useSrc.root.kids.getD i useSrc.root

def inClassA : Option Enclosing := some (.class_ ⟨b!"\\N\\A", b!"A", 0⟩ ⟨[], [], 0⟩)

/-- Non-vacuity of C142: with the texts of C141, `a` and `self` in the namespace and class lead to the class `\N\A`, and so does
the type `A`. -/
example : HistOK env textHist ∧ Current texts (latest textHist) ∧
    IsName (useNode 0) ∧ Resolvable useEnv.table (useEnv.ctx.nodeText (useNode 0)) ∧
    useEnv.ctx.nodeText (useNode 1) = b!"self" ∧ IsPhrase .typeDeclaration (useNode 2) ∧
    (∀ i, i = 0 ∨ i = 1 → ∀ q, Means useEnv.table inClassA (useEnv.ctx.nodeText (useNode i)) q → NotAlias useEnv.table q) ∧
    (∃ s, run env Store.Demo.root textHist = some s ∧
      ([Use.cls (classAccessTypes useEnv inClassA (useNode 0)), .cls (classAccessTypes useEnv inClassA (useNode 1)),
        .typ (typeDeclaration useEnv (useNode 2)).2].map fun u =>
          (definitionIn env s useEnv.table id 9 9 u).map (·.map (·.location))) =
        List.replicate 3 (some [onLine 12 52])) := by
  refine ⟨textHist_ok, texts_current, .inl ⟨_, rfl⟩, ?_, by decide +kernel, ⟨_, rfl⟩, ?_, ?_⟩
  · exact Decl.Resolvable.of _ _ (by decide +kernel)
  · rintro i (rfl | rfl) q hq
    · rw [show useEnv.ctx.nodeText (useNode 0) = b!"a" by decide +kernel, Means, if_neg (by decide), if_neg (by decide)] at hq
      rw [hq]
      exact ⟨by decide +kernel, by decide +kernel⟩
    · rw [show useEnv.ctx.nodeText (useNode 1) = b!"self" by decide +kernel, Means, if_pos (by decide)] at hq
      obtain ⟨c, hc, rfl⟩ := hq
      cases hc
      exact ⟨by decide +kernel, by decide +kernel⟩
  · exact Store.Demo.observe _ _ (by decide +kernel)

end Demo

end Verif.Whole
