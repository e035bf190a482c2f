import Verif.Whole.Marks
import Verif.Whole.PropsShow
import Verif.Show.PropsMembers
import Mathlib.Data.List.Forall2

/-! C127: which uses are marked as deprecated after any history of the index. -/

namespace Verif.Whole

open Verif.Encoding Verif.Storage Verif.Store Verif.Query

variable {env : Env} {root : Bytes} {h : List HOp} {s : Store}

/-- The declaration has an `@deprecated` tag. -/
def Deprecated : Sym → Prop
  | .cla c => c.deprecated ≠ none
  | .int c => c.deprecated ≠ none
  | .fn c => c.deprecated ≠ none
  | .con c => c.deprecated ≠ none
  | .def_ c => c.deprecated ≠ none
  | .met c => c.deprecated ≠ none
  | .claCon c => c.deprecated ≠ none
  | .pro c => c.deprecated ≠ none
  | _ => False

open Classical in
/-- The name stands for the declaration: after `new` for classes, before `::` and as a type for classes and interfaces, after
`implements` for interfaces. `C::NAME` stands for the constants of `C` itself whose names start so. -/
def Means (env : Env) (L : Bytes → Option Doc) (tbl : Imports.Table) : Use → Sym → Prop
  | .new_ ts, .cla c => ∃ t ∈ ts, SameClassName env c.name.fqn t.fqn
  | .cls ts, .cla c => ∃ t ∈ ts, SameClassName env c.name.fqn t.fqn
  | .cls ts, .int i => ∃ t ∈ ts, i.name.fqn = t.fqn
  | .typ ts, .cla c => ∃ t ∈ ts, SameClassName env c.name.fqn t.fqn
  | .typ ts, .int i => ∃ t ∈ ts, i.name.fqn = t.fqn
  | .intf ts, .int i => ∃ t ∈ ts, i.name.fqn = t.fqn
  | .function t, .fn f => f.name.fqn = tbl.getFunctionReferenceFQN (fun q => decide (FunctionExists env L q)) t
  | .constant t, .con c => c.name.fqn = tbl.getConstReferenceFQN
      (fun q => decide (ConstExists env L q)) (fun q => decide (DefineExists env L q)) t
  | .constant t, .def_ c => c.name.fqn = tbl.getConstReferenceFQN
      (fun q => decide (ConstExists env L q)) (fun q => decide (DefineExists env L q)) t
  | .member .const a name _, .claCon c => ∃ t ∈ a.types, c.scope.fqn = t ∧ name <+: c.name
  | _, _ => False

/-- The access may be to this member: one of the types of the object has it, and it is not private elsewhere, or not static. -/
def Accesses (env : Env) (L : Bytes → Option Doc) (u : MemberUse) (a : Access) (name cur : Bytes) (x : Sym) : Prop :=
  ∃ t ∈ a.types, ∃ scope, Has env L t scope ∧ Declares env u scope name x ∧
    ((u = .prop ∨ u = .method) → Private x → a.scopeName = b!"$this" ∧ scope = cur ∨ cur ∈ a.types) ∧
    ((u ≠ .prop ∧ u ≠ .method) → a.scopeName ∉ [b!"parent", b!"self", b!"static", b!"$this"] → Static x)

/-- The declarations because of which a use may be marked. -/
def Behind (env : Env) (L : Bytes → Option Doc) (tbl : Imports.Table) (u : Use) (x : Sym) : Prop :=
  Live env L x ∧ Deprecated x ∧
    match u with
    | .member .const _ _ _ => Means env L tbl u x
    | .member v a name cur => Accesses env L v a name cur x
    | u => Means env L tbl u x

/-- The use is a method or a property of an object or class. -/
def IsAccess : Use → Prop
  | .member .const _ _ _ => False
  | .member _ _ _ _ => True
  | _ => False

/-- What the mark of a use must be. A mark has a reason; and a use that has a reason is marked, unless it is of a method or
property. -/
def Marked (env : Env) (L : Bytes → Option Doc) (x : Rng × Imports.Table × Use) (m : Option Sym) : Prop :=
  (∀ y, m = some y → ∃ z, Behind env L x.2.1 x.2.2 z ∧ z.stored = y) ∧
  (¬ IsAccess x.2.2 → (∃ z, Behind env L x.2.1 x.2.2 z) → m ≠ none)

/-- Members are named, and the names of classes are without NUL. -/
def Named : Use → Prop
  | .member _ a name _ => name ≠ [] ∧ ∀ t ∈ a.types, sep ∉ t
  | _ => True

theorem tagged_iff (x : Sym) : tagged x.stored = true ↔ Deprecated x := by
  cases x <;> simp [tagged, Sym.stored, Deprecated, Option.isSome_iff_ne_none]

theorem Deprecated.noGlobal {x : Sym} (hx : Deprecated x) : ∀ g, x ≠ .gloVar g := by
  rintro g rfl; exact hx

theorem dep_num (he : EnvOK env) (hok : HistOK env h) (hs : run env root h = some s) {x : Sym}
    (hx : Live env (latest h) x) (hg : ∀ g, x ≠ .gloVar g) :
    (siteOf env s).deprecated (num s x.stored) = true ↔ Deprecated x := by
  simp only [siteOf, get_num_live he hok hs hx hg, Option.elim_some, tagged_iff]

theorem mem_classConsts (he : EnvOK env) (hok : HistOK env h) (hs : run env root h = some s) {scope name : Bytes}
    (hsc : sep ∉ scope) (hn : name ≠ []) (m : Member) : m ∈ (worldOf env s).members .consts scope name ↔
      ∃ a, Live env (latest h) (.claCon a) ∧ (a.scope.fqn = scope ∧ name <+: a.name) ∧
        conOf s (kClaCon.st a) = m := by
  have := mem_lookup kClaCon he hok hs (scope ++ sep :: name) (fun a => a.scope.fqn = scope ∧ name <+: a.name)
    (fun a ha => by
      have hno := live_nosep he hok ha
      have := sep_prefix (a := scope) (a' := a.scope.fqn) (b' := a.name) (r := name) hsc
        (hno.1 _ (by simp [kClaCon, Sym.names]))
      exact this.trans (by rw [eq_comm]))
  simp only [worldOf, membersOf, if_pos hn, List.mem_map]
  constructor
  · rintro ⟨y, hy, rfl⟩
    obtain ⟨a, ha, hp, rfl⟩ := (this y).mp hy
    exact ⟨a, ha, hp, rfl⟩
  · rintro ⟨a, ha, hp, rfl⟩
    exact ⟨_, (this _).mpr ⟨a, ha, hp, rfl⟩, rfl⟩

/-- The first deprecated one of a list of declarations. -/
theorem find_dep (he : EnvOK env) (hok : HistOK env h) (hs : run env root h = some s) {P : Sym → Prop} {l : List Nat}
    (hg : ∀ x, P x → ∀ g, x ≠ .gloVar g)
    (hl : ∀ d, d ∈ l ↔ ∃ x, Live env (latest h) x ∧ P x ∧ num s x.stored = d) :
    (∀ d, l.find? (siteOf env s).deprecated = some d → ∃ x, Live env (latest h) x ∧ Deprecated x ∧ P x ∧ num s x.stored = d) ∧
    ((∃ x, Live env (latest h) x ∧ Deprecated x ∧ P x) → l.find? (siteOf env s).deprecated ≠ none) := by
  constructor
  · intro d hd
    obtain ⟨x, hx, hp, rfl⟩ := (hl d).mp (List.mem_of_find?_eq_some hd)
    exact ⟨x, hx, (dep_num he hok hs hx (hg x hp)).mp (by simpa using List.find?_some hd), hp, rfl⟩
  · rintro ⟨x, hx, hdx, hp⟩ hn
    rw [List.find?_eq_none] at hn
    exact hn _ ((hl _).mpr ⟨x, hx, hp, rfl⟩) ((dep_num he hok hs hx (hg x hp)).mpr hdx)

theorem find_append (p : Nat → Bool) (l l' : List Nat) :
    (match l.find? p with | some d => some d | none => l'.find? p) = (l ++ l').find? p := by
  rw [List.find?_append]
  cases l.find? p <;> rfl

theorem firstDeprecated_reported {w : World} (hw : Distinct w) {n ni : Nat} {u : MemberUse}
    {name : Bytes} (dep : Nat → Bool) (cur : Bytes) (a : Access) (ls : List Lookup)
    (hls : ∀ l ∈ ls, ∃ t ∈ a.types, l ∈ lookups w n ni u name t) (st : St) (hst : Reachable w st) (m : Option Nat)
    (st' : St) (h : firstDeprecated dep (u.reduce cur a) ls st = some (m, st')) :
    Reachable w st' ∧ ∀ d, m = some d → dep d = true ∧
      ∃ t ∈ a.types, ∃ x, MemberOf w u name t x ∧ x.decl = d ∧ Reported u cur a x := by
  induction ls generalizing st with
  | nil => injection h with h; injection h with h1 h2; subst h1 h2; exact ⟨hst, nofun⟩
  | cons l ls ih =>
    obtain ⟨t, ht, hl⟩ := hls l List.mem_cons_self
    unfold firstDeprecated at h
    split at h
    · cases h
    · rename_i r st1 h1
      obtain ⟨h2, h3⟩ := lookup_sound hw hl hst h1
      split at h
      · rename_i f hf
        injection h with h
        injection h with e1 e2
        subst e1 e2
        refine ⟨h2, fun d hd => ?_⟩
        injection hd with hd
        subst hd
        refine ⟨by simpa using List.find?_some hf, t, ht, f.member, ?_, rfl, ?_⟩
        · obtain ⟨g, hg, e1, _⟩ := mem_reduce (List.mem_of_find?_eq_some hf)
          rw [e1]
          exact h3 g hg
        · obtain ⟨g, hg, e1, _, e3, e4⟩ := mem_reduce (List.mem_of_find?_eq_some hf)
          rw [e1]
          refine ⟨fun hu hv => C31_private_needs_class cur a r.rel g.member (e3 hu) hv, fun hu hn => ?_⟩
          simp only [List.mem_cons, List.not_mem_nil, or_false, not_or] at hn
          exact C31_static_only cur a r.rel g.member hn.1 (by simp [hn]) (e4 hu)
      · exact ih (fun x hx => hls x (List.mem_cons_of_mem _ hx)) _ h2 h

/-- One use. -/
theorem mark_right (he : EnvOK env) (hsl : env.LowerSlash) (hok : HistOK env h) (hs : run env root h = some s)
    (ho : OneEach env (latest h)) (n ni : Nat) (tbl : Imports.Table) (u : Use) (hu : Named u) (st : St)
    (hst : Reachable (worldOf env s) st) (m : Option Nat) (st' : St)
    (hm : mark (siteOf env s) tbl n ni u st = some (m, st')) :
    Reachable (worldOf env s) st' ∧
      (∀ d, m = some d → ∃ z, Behind env (latest h) tbl u z ∧ num s z.stored = d) ∧
      (¬ IsAccess u → (∃ z, Behind env (latest h) tbl u z) → m ≠ none) := by
  have pair : ∀ {x : Option Nat}, some (x, st) = some (m, st') → m = x ∧ st' = st := fun h => by
    injection h with h; injection h with h1 h2; exact ⟨h1.symm, h2.symm⟩
  have go : ∀ {l : List Nat}, some (l.find? (siteOf env s).deprecated, st) = some (m, st') →
      (∀ x, Behind env (latest h) tbl u x ↔ Live env (latest h) x ∧ Deprecated x ∧ Means env (latest h) tbl u x) →
      (∀ d, d ∈ l ↔ ∃ x, Live env (latest h) x ∧ Means env (latest h) tbl u x ∧ num s x.stored = d) →
      Reachable (worldOf env s) st' ∧
      (∀ d, m = some d → ∃ z, Behind env (latest h) tbl u z ∧ num s z.stored = d) ∧
      (¬ IsAccess u → (∃ z, Behind env (latest h) tbl u z) → m ≠ none) := by
    intro l e hb hl
    obtain ⟨rfl, rfl⟩ := pair e
    obtain ⟨h1, h2⟩ := find_dep he hok hs (P := Means env (latest h) tbl u)
      (by rintro x hx g rfl; cases u <;> (try exact hx); rename_i v _ _ _; cases v <;> exact hx) hl
    refine ⟨hst, fun d hd => ?_, fun _ ⟨z, hz⟩ => h2 ⟨z, (hb z).mp hz⟩⟩
    obtain ⟨x, hx, hdx, hp, hnum⟩ := h1 d hd
    exact ⟨x, (hb x).mpr ⟨hx, hdx, hp⟩, hnum⟩
  have cls : ∀ (ts : List Types.Ty) (d : Nat), (∃ t ∈ ts, d ∈ ((worldOf env s).classesNamed t.fqn).map (·.decl)) ↔
      ∃ c, Live env (latest h) (.cla c) ∧ (∃ t ∈ ts, SameClassName env c.name.fqn t.fqn) ∧ num s (Sym.cla c).stored = d := by
    intro ts d
    constructor
    · rintro ⟨t, ht, hd⟩
      obtain ⟨c, hc, hk, rfl⟩ := (class_nums he hsl hok hs _ _).mp hd
      exact ⟨c, hc, ⟨t, ht, hk⟩, rfl⟩
    · rintro ⟨c, hc, ⟨t, ht, hk⟩, rfl⟩
      exact ⟨t, ht, (class_nums he hsl hok hs _ _).mpr ⟨c, hc, hk, rfl⟩⟩
  have itf : ∀ (ts : List Types.Ty) (d : Nat), (∃ t ∈ ts, d ∈ ((worldOf env s).interfacesNamed t.fqn).map (·.decl)) ↔
      ∃ c, Live env (latest h) (.int c) ∧ (∃ t ∈ ts, c.name.fqn = t.fqn) ∧ num s (Sym.int c).stored = d := by
    intro ts d
    constructor
    · rintro ⟨t, ht, hd⟩
      obtain ⟨c, hc, hk, rfl⟩ := (interface_nums he hok hs _ _).mp hd
      exact ⟨c, hc, ⟨t, ht, hk⟩, rfl⟩
    · rintro ⟨c, hc, ⟨t, ht, hk⟩, rfl⟩
      exact ⟨t, ht, (interface_nums he hok hs _ _).mpr ⟨c, hc, hk, rfl⟩⟩
  have both : ∀ (ts : List Types.Ty) (d : Nat), (∃ t ∈ ts, d ∈ ((worldOf env s).classesNamed t.fqn).map (·.decl) ++
      ((worldOf env s).interfacesNamed t.fqn).map (·.decl)) ↔
      (∃ c, Live env (latest h) (.cla c) ∧ (∃ t ∈ ts, SameClassName env c.name.fqn t.fqn) ∧ num s (Sym.cla c).stored = d) ∨
      ∃ c, Live env (latest h) (.int c) ∧ (∃ t ∈ ts, c.name.fqn = t.fqn) ∧ num s (Sym.int c).stored = d := by
    intro ts d
    rw [← cls, ← itf, ← exists_or]
    refine exists_congr fun t => ?_
    rw [List.mem_append, and_or_left]
  cases u with
  | new_ ts =>
    refine go hm (fun x => Iff.rfl) fun d => ?_
    rw [List.mem_flatMap]
    refine (cls ts d).trans ⟨?_, ?_⟩
    · rintro ⟨c, hc, hk, e⟩; exact ⟨.cla c, hc, hk, e⟩
    · rintro ⟨x, hx, hk, e⟩
      cases x with
      | cla c => exact ⟨c, hx, hk, e⟩
      | _ => cases hk
  | cls ts =>
    refine go hm (fun x => Iff.rfl) fun d => ?_
    rw [List.mem_flatMap]
    refine (both ts d).trans ⟨?_, ?_⟩
    · rintro (⟨c, hc, hk, e⟩ | ⟨c, hc, hk, e⟩)
      · exact ⟨.cla c, hc, hk, e⟩
      · exact ⟨.int c, hc, hk, e⟩
    · rintro ⟨x, hx, hk, e⟩
      cases x with
      | cla c => exact .inl ⟨c, hx, hk, e⟩
      | int c => exact .inr ⟨c, hx, hk, e⟩
      | _ => cases hk
  | intf ts =>
    refine go hm (fun x => Iff.rfl) fun d => ?_
    rw [List.mem_flatMap]
    refine (itf ts d).trans ⟨?_, ?_⟩
    · rintro ⟨c, hc, hk, e⟩; exact ⟨.int c, hc, hk, e⟩
    · rintro ⟨x, hx, hk, e⟩
      cases x with
      | int c => exact ⟨c, hx, hk, e⟩
      | _ => cases hk
  | trt ts =>
    obtain ⟨rfl, rfl⟩ := pair hm
    refine ⟨hst, nofun, fun _ => ?_⟩
    rintro ⟨z, -, -, hz⟩
    cases z <;> cases hz
  | typ ts =>
    refine go hm (fun x => Iff.rfl) fun d => ?_
    rw [List.mem_flatMap]
    refine (both ts d).trans ⟨?_, ?_⟩
    · rintro (⟨c, hc, hk, e⟩ | ⟨c, hc, hk, e⟩)
      · exact ⟨.cla c, hc, hk, e⟩
      · exact ⟨.int c, hc, hk, e⟩
    · rintro ⟨x, hx, hk, e⟩
      cases x with
      | cla c => exact .inl ⟨c, hx, hk, e⟩
      | int c => exact .inr ⟨c, hx, hk, e⟩
      | _ => cases hk
  | constant t =>
    simp only [mark] at hm
    rw [consts_exist he hok hs, defines_exist he hok hs] at hm
    refine go ((congrArg (fun x => some (x, st)) (find_append _ _ _).symm).trans hm) (fun x => Iff.rfl) fun d => ?_
    rw [List.mem_append, const_nums he hok hs, define_nums he hok hs]
    constructor
    · rintro (⟨c, hc, hk, e⟩ | ⟨c, hc, hk, e⟩)
      · exact ⟨.con c, hc, hk, e⟩
      · exact ⟨.def_ c, hc, hk, e⟩
    · rintro ⟨x, hx, hk, e⟩
      cases x with
      | con c => exact .inl ⟨c, hx, hk, e⟩
      | def_ c => exact .inr ⟨c, hx, hk, e⟩
      | _ => cases hk
  | function t =>
    simp only [mark] at hm
    rw [functions_exist he hok hs] at hm
    refine go hm (fun x => Iff.rfl) fun d => ?_
    rw [function_nums he hok hs]
    constructor
    · rintro ⟨c, hc, hk, e⟩; exact ⟨.fn c, hc, hk, e⟩
    · rintro ⟨x, hx, hk, e⟩
      cases x with
      | fn c => exact ⟨c, hx, hk, e⟩
      | _ => cases hk
  | member v a name cur =>
    by_cases hv : v = .const
    · subst hv
      refine go hm (fun x => Iff.rfl) fun d => ?_
      rw [List.mem_flatMap]
      constructor
      · rintro ⟨t, ht, hd⟩
        obtain ⟨y, hy, rfl⟩ := List.mem_map.mp hd
        obtain ⟨c, hc, hk, rfl⟩ := (mem_classConsts he hok hs (hu.2 t ht) hu.1 _).mp hy
        exact ⟨.claCon c, hc, ⟨t, ht, hk⟩, rfl⟩
      · rintro ⟨x, hx, hk, e⟩
        cases x with
        | claCon c =>
          obtain ⟨t, ht, hk⟩ := hk
          exact ⟨t, ht, List.mem_map.mpr ⟨_, (mem_classConsts he hok hs (hu.2 t ht) hu.1 _).mpr ⟨c, hx, hk, rfl⟩, e⟩⟩
        | _ => cases hk
    · have hm' : firstDeprecated (siteOf env s).deprecated (v.reduce cur a)
          (a.types.flatMap (lookups (worldOf env s) n ni v name)) st = some (m, st') := by
        cases v
        case const => exact absurd rfl hv
        all_goals exact hm
      have hacc : IsAccess (.member v a name cur) := by cases v <;> first | exact absurd rfl hv | trivial
      obtain ⟨h1, h2⟩ := firstDeprecated_reported (distinct he hsl hok hs ho) _ cur a _
        (fun l hl => List.mem_flatMap.mp hl) st hst m st' hm'
      refine ⟨h1, fun d hd => ?_, fun hna => absurd hacc hna⟩
      obtain ⟨hdep, t, ht, y, ⟨scope, hsc, hy⟩, rfl, hr1, hr2⟩ := h2 d hd
      have hh := has_of he hsl hok hs hsc
      obtain ⟨x, hx, hdx, hnum, hms, hg, hp, hstat⟩ := member_of he hok hs (has_nosep he hok hh) hu.1 hy
      rw [← hnum] at hdep
      refine ⟨x, ⟨hx, (dep_num he hok hs hx hg).mp hdep, ?_⟩, hnum⟩
      have : Accesses env (latest h) v a name cur x :=
        ⟨t, ht, scope, hh, hdx, fun hu hpr => (hr1 hu ((hp hu).mpr hpr)).imp_left fun h => ⟨h.1, hms ▸ h.2⟩,
          fun hu hn => hstat.mp (hr2 hu hn)⟩
      cases v
      case const => exact absurd rfl hv
      all_goals exact this

/-- C127: which places of a document are marked, after any history of the index. Every mark is at a use, at most one at each,
in the order of the document; there is a deprecated declaration in the current versions of the files that the use stands for,
or to whose methods or properties it may belong. And every use that stands for a deprecated class, interface, function or
constant is marked, wherever it is in the document. -/
theorem C127_marks (he : EnvOK env) (hsl : env.LowerSlash) (hok : HistOK env h) (hs : run env root h = some s)
    (ho : OneEach env (latest h)) (n ni : Nat) (us : List (Rng × Imports.Table × Use)) (hus : ∀ u ∈ us, Named u.2.2)
    (r : List (Rng × Sym)) (hr : deprecatedIn env s n ni us = some r) :
    ∃ ms : List (Option Sym), List.Forall₂ (Marked env (latest h)) us ms ∧
      r = (us.zip ms).filterMap fun x => x.2.map fun y => (x.1.1, y) := by
  have key : ∀ (us : List (Rng × Imports.Table × Use)) (st : St) (r : List (Rng × Nat)), Reachable (worldOf env s) st →
      (∀ u ∈ us, Named u.2.2) → deprecatedLoop (siteOf env s) n ni us st = some r →
      ∃ ms : List (Option Sym), List.Forall₂ (Marked env (latest h)) us ms ∧
        r.filterMap (fun x => ((decls s)[x.2]?).map fun y => (x.1, y)) =
          (us.zip ms).filterMap fun x => x.2.map fun y => (x.1.1, y) := by
    intro us
    induction us with
    | nil => intro st r _ _ h; injection h with h; subst h; exact ⟨[], .nil, rfl⟩
    | cons x us ih =>
      intro st r hst hus h
      obtain ⟨rg, tbl, u⟩ := x
      unfold deprecatedLoop at h
      split at h
      · cases h
      · rename_i m st1 h1
        obtain ⟨h2, h3, h4⟩ := mark_right he hsl hok hs ho n ni tbl u (hus _ List.mem_cons_self) st hst m st1 h1
        cases hl : deprecatedLoop (siteOf env s) n ni us st1 with
        | none => rw [hl] at h; cases h
        | some l =>
          rw [hl] at h
          injection h with h
          subst h
          obtain ⟨ms, h5, h6⟩ := ih st1 l h2 (fun x hx => hus x (List.mem_cons_of_mem _ hx)) hl
          cases m with
          | none =>
            refine ⟨none :: ms, .cons ⟨nofun, fun hn hz => absurd rfl (h4 hn hz)⟩ h5, ?_⟩
            simpa using h6
          | some d =>
            obtain ⟨z, hz, rfl⟩ := h3 d rfl
            refine ⟨some z.stored :: ms, .cons ⟨fun y hy => ⟨z, hz, Option.some.inj hy⟩, fun _ _ => by simp⟩ h5, ?_⟩
            have hg := get_num_live he hok hs hz.1 hz.2.1.noGlobal
            simp only [Option.map_some, Option.toList_some, List.singleton_append, List.zip_cons_cons]
            rw [List.filterMap_cons_some (b := (rg, z.stored)) (by simp [hg])]
            exact congrArg (List.cons (rg, z.stored)) h6
  obtain ⟨r', hr', rfl⟩ := Option.map_eq_some_iff.mp hr
  exact key us St.new r' .new hus hr'

theorem marks_ranges (us : List (Rng × Imports.Table × Use)) (ms : List (Option Sym)) :
    (((us.zip ms).filterMap fun x => x.2.map fun y => (x.1.1, y)).map (·.1)).Sublist (us.map (·.1)) := by
  induction us generalizing ms with
  | nil => simp
  | cons u us ih =>
    cases ms with
    | nil => simp
    | cons m ms =>
      cases m with
      | none => exact (ih ms).cons _
      | some y => exact (ih ms).cons₂ _

/-- C127: from the text of one file to the marks in another. The current version of a file declares a function, which no
other function of the current files is called like. A call that resolves to it is marked if and only if the doc comment of
the function has an `@deprecated` tag; whatever the history of the index, and whatever else is in the document. -/
theorem C127_function_source (he : EnvOK env) (hsl : env.LowerSlash) (hok : HistOK env h) (hs : run env root h = some s)
    (ho : OneEach env (latest h)) (uri : Bytes) (d : Doc) (hcur : latest h uri = some d) (denv : Decl.Env)
    (ks ps : List Analyser.Node) (doc tag : Option Analyser.Node)
    (hh : Decl.OnlyPhrase .functionDeclarationHeader ks (.phr .functionDeclarationHeader ps))
    (hd : Decl.DocApplies denv (.phr .functionDeclaration ks) doc)
    (htag : Show.FirstTag denv.ctx b!"@deprecated" doc tag) (pre post : List Sym)
    (hin : d.symbols = pre ++ .fn (Show.toFunction uri denv (.phr .functionDeclaration ks)) :: post)
    (hlast : ∀ y ∈ post, ¬ SameDecl env (.fn (Show.toFunction uri denv (.phr .functionDeclaration ks))) y)
    (honly : ∀ g, Live env (latest h) (.fn g) →
      g.name.fqn = (Show.toFunction uri denv (.phr .functionDeclaration ks)).name.fqn →
      g = Show.toFunction uri denv (.phr .functionDeclaration ks))
    (tbl : Imports.Table) (n ni : Nat) (t : Types.Ty)
    (ht : tbl.getFunctionReferenceFQN (fun q => @decide (FunctionExists env (latest h) q) (Classical.propDecidable _)) t =
      (Show.toFunction uri denv (.phr .functionDeclaration ks)).name.fqn)
    (before after : List (Rng × Imports.Table × Use)) (rg : Rng) (hus : ∀ u ∈ before ++ after, Named u.2.2)
    (r : List (Rng × Sym)) (hr : deprecatedIn env s n ni (before ++ (rg, tbl, .function t) :: after) = some r) :
    ∃ r1 m r2, r = r1 ++ m ++ r2 ∧ (r1.map (·.1)).Sublist (before.map (·.1)) ∧ (r2.map (·.1)).Sublist (after.map (·.1)) ∧
      m = (if tag.isSome then
        [(rg, (Sym.fn (Show.toFunction uri denv (.phr .functionDeclaration ks))).stored)] else []) := by
  have hlive : Live env (latest h) (.fn (Show.toFunction uri denv (.phr .functionDeclaration ks))) :=
    ⟨uri, d, pre, post, hcur, hin, trivial, fun y hy hc => hlast y hy hc.2⟩
  obtain ⟨u, -, hsok⟩ := live_ok he hok hlive
  obtain ⟨f, hf, hkept⟩ := Show.C120_function uri denv ks ps doc tag [] hh hd htag hsok.wf
  rw [C02_function_round_trip_partial _ hsok.wf] at hf
  injection hf with hf
  injection hf with hf _
  subst hf
  have hdep : Deprecated (.fn (Show.toFunction uri denv (.phr .functionDeclaration ks))) ↔ tag.isSome := by
    cases tag with
    | none => exact ⟨fun h => absurd hkept h, nofun⟩
    | some k =>
      obtain ⟨t, _, _, e, -⟩ := hkept
      exact ⟨fun _ => rfl, fun _ h => by have := e.symm.trans h; cases this⟩
  obtain ⟨ms, h1, rfl⟩ := C127_marks he hsl hok hs ho n ni _ (by
    intro u hu
    rcases List.mem_append.mp hu with hu | hu
    · exact hus u (List.mem_append_left _ hu)
    · rcases List.mem_cons.mp hu with rfl | hu
      · trivial
      · exact hus u (List.mem_append_right _ hu)) r hr
  have hlen : before.length ≤ ms.length := by
    have := h1.length_eq
    simp only [List.length_append, List.length_cons] at this
    omega
  have h3 := List.forall₂_drop before.length h1
  rw [List.drop_left] at h3
  cases hms : ms.drop before.length with
  | nil => rw [hms] at h3; cases h3
  | cons m ms2 =>
    rw [hms] at h3
    obtain ⟨hmk, -⟩ := List.forall₂_cons.mp h3
    have hzip : (before ++ (rg, tbl, Use.function t) :: after).zip ms =
        before.zip (ms.take before.length) ++ ((rg, tbl, Use.function t), m) :: after.zip ms2 := by
      conv_lhs => rw [← List.take_append_drop before.length ms]
      rw [List.zip_append (by rw [List.length_take]; omega), hms, List.zip_cons_cons]
    have hb : ∀ z, Behind env (latest h) tbl (.function t) z ↔
        z = .fn (Show.toFunction uri denv (.phr .functionDeclaration ks)) ∧ tag.isSome := by
      intro z
      constructor
      · rintro ⟨hz, hdz, hmz⟩
        cases z with
        | fn g =>
          have : g = _ := honly g hz (Eq.trans hmz ht)
          subst this
          exact ⟨rfl, hdep.mp hdz⟩
        | _ => cases hmz
      · rintro ⟨rfl, htg⟩
        exact ⟨hlive, hdep.mpr htg, ht.symm⟩
    refine ⟨_, (m.map fun y => (rg, y)).toList, _, ?_, marks_ranges before (ms.take before.length), marks_ranges after ms2, ?_⟩
    · rw [hzip, List.filterMap_append, List.append_assoc]
      congr 1
      cases m <;> rfl
    · cases m with
      | none =>
        have : ¬ tag.isSome := fun htg => hmk.2 id ⟨_, (hb _).mpr ⟨rfl, htg⟩⟩ rfl
        rw [if_neg this]
        rfl
      | some y =>
        obtain ⟨z, hz, rfl⟩ := hmk.1 y rfl
        obtain ⟨rfl, htg⟩ := (hb z).mp hz
        rw [if_pos htg]
        rfl

/-! ### examples -/

namespace Demo

open Verif.Store.Demo (loc ty uA uB)

def since : Option Tag := some ⟨b!"@deprecated", b!"1.2", b!"gone", [], false⟩
def oldBase : Class := ⟨loc uB 1, loc uB 1, 0, [], ty b!"Base", ⟨[], [], 0⟩, [], [], since⟩
def oldGo : Method := ⟨loc uB 3, loc uB 3, b!"go", [], [], [], ty b!"Base", 0, false, 0, since⟩
def oldMax : ClassConst := ⟨loc uB 5, loc uB 5, [], b!"MAX_SIZE", b!"1", ty b!"Base", 0, since⟩
def newMax : ClassConst := ⟨loc uB 6, loc uB 6, [], b!"MIN", b!"1", ty b!"Base", 0, none⟩
def oldF : Function := ⟨loc uB 2, loc uB 2, ty b!"f", [], [], [], since⟩
def oldDoc : Doc := ⟨uB, b!"9", [.cla oldBase, .met oldGo, .claCon oldMax, .claCon newMax, .fn oldF], [], []⟩

/-- In the second version of `b.php` everything is deprecated. -/
def oldHist : List HOp := [.upgrade b!"v0.0.16", .index Store.Demo.a1, .index Store.Demo.b1, .index oldDoc]

theorem oldDoc_ok : DocOK Store.Demo.env oldDoc :=
  Store.Demo.doc_ok Store.Demo.uB_ok (by simp [Str, uB]) _ _ (by decide) (by
    have h1 : ∀ x ∈ oldDoc.symbols, x.WF := by
      intro x hx
      simp only [oldDoc, List.mem_cons, List.not_mem_nil, or_false] at hx
      rcases hx with rfl | rfl | rfl | rfl | rfl
      · exact (show oldBase.WF by decide +kernel)
      · exact (show oldGo.WF by decide +kernel)
      · exact (show oldMax.WF by decide +kernel)
      · exact (show newMax.WF by decide +kernel)
      · exact (show oldF.WF by decide +kernel)
    intro x hx
    exact Store.Demo.sym_ok (h1 x hx) ((by decide +kernel : ∀ x ∈ oldDoc.symbols, ∀ n ∈ x.names, sep ∉ n) x hx)
      ((by decide +kernel : ∀ x ∈ oldDoc.symbols, x.location.uri = uB) x hx)
      ((by decide +kernel : ∀ x ∈ oldDoc.symbols, (x.key Store.Demo.env).length < 1000) x hx))

theorem oldHist_ok : HistOK Store.Demo.env oldHist where
  docs := by
    rw [show docs oldHist = [Store.Demo.a1, Store.Demo.b1, oldDoc] from rfl]
    simp [Store.Demo.a1_ok, Store.Demo.b1_ok, oldDoc_ok]
  consts := by
    intro d1 h1 d2 h2 c1 c2 m1 m2 e1 e2
    rw [show docs oldHist = [Store.Demo.a1, Store.Demo.b1, oldDoc] from rfl] at h1 h2
    simp only [List.mem_cons, List.not_mem_nil, or_false] at h1 h2
    rcases h1 with rfl | rfl | rfl <;> rcases h2 with rfl | rfl | rfl <;>
      first
        | rfl
        | (simp [Store.Demo.a1, Store.Demo.b1, oldDoc, Store.Demo.cla, Store.Demo.met, Store.Demo.pro, Store.Demo.fn,
            Store.Demo.glo, Store.Demo.claCon] at m1 m2; done)
        | (simp [Store.Demo.a1, Store.Demo.b1, oldDoc, Store.Demo.cla, Store.Demo.met, Store.Demo.pro, Store.Demo.fn,
            Store.Demo.glo, Store.Demo.claCon] at m1 m2
           first
            | (subst m1; rcases m2 with rfl | rfl <;> exact absurd e2 (by decide))
            | (subst m2; rcases m1 with rfl | rfl <;> exact absurd e2 (by decide)))
  crashes := by simp [Store.Keeps, oldHist]

theorem oldHist_latest {u : Bytes} {d : Doc} (hu : latest oldHist u = some d) : d = oldDoc ∨ d = Store.Demo.a1 := by
  simp only [latest, oldHist, List.foldl_cons, List.foldl_nil, latestStep] at hu
  split at hu
  · exact .inl (Option.some.inj hu).symm
  · rename_i h1
    rw [if_neg (show ¬ u = Store.Demo.b1.uri from h1)] at hu
    split at hu
    · exact .inr (Option.some.inj hu).symm
    · cases hu

theorem oldHist_live {x : Sym} (hx : Live Store.Demo.env (latest oldHist) x) :
    x ∈ oldDoc.symbols ++ Store.Demo.a1.symbols := by
  obtain ⟨u, d, pre, post, hu, hd, -⟩ := hx
  rw [List.mem_append]
  rcases oldHist_latest hu with rfl | rfl
  · left; rw [hd]; simp
  · right; rw [hd]; simp

theorem oldHist_one : OneEach Store.Demo.env (latest oldHist) where
  classes c d hc hd h := by
    have hh : ∀ {c : Class}, Live Store.Demo.env (latest oldHist) (.cla c) → c = foo ∨ c = oldBase := by
      intro c hc
      have := oldHist_live hc
      have : c = oldBase ∨ c = foo := by
        simpa [oldDoc, Store.Demo.a1, Store.Demo.cla, Store.Demo.met, Store.Demo.pro, Store.Demo.fn, Store.Demo.glo,
          Store.Demo.claCon, foo] using this
      exact this.symm
    rcases hh hc with rfl | rfl <;> rcases hh hd with rfl | rfl
    · rfl
    · exact absurd ((classFQNLower_eq_iff Store.Demo.lower_slash _ _).mpr h) (by decide +kernel)
    · exact absurd ((classFQNLower_eq_iff Store.Demo.lower_slash _ _).mpr h) (by decide +kernel)
    · rfl
  interfaces c d hc := by
    have := oldHist_live hc
    simp [oldDoc, Store.Demo.a1, Store.Demo.cla, Store.Demo.met, Store.Demo.pro, Store.Demo.fn, Store.Demo.glo,
      Store.Demo.claCon] at this

/-- A place in a document. -/
def at_ (l : Nat) : Rng := ⟨⟨l, 0⟩, ⟨l, 4⟩⟩

/-- `new base`, `$foo->GO()`, `Base::MIN`, `Base::MAX` (a beginning of `MAX_SIZE`), `\f()`, `use Foo` as a trait. -/
def oldUses : List (Rng × Imports.Table × Use) :=
  [(at_ 1, Imports.newTable ⟨0, 0⟩, .new_ [⟨b!"\\base", b!"base", 0⟩]),
   (at_ 2, Imports.newTable ⟨0, 0⟩, .member .method ⟨b!"$foo", [b!"\\N\\Foo"]⟩ b!"GO" []),
   (at_ 3, Imports.newTable ⟨0, 0⟩, .member .const ⟨b!"Base", [b!"\\Base"]⟩ b!"MIN" []),
   (at_ 4, Imports.newTable ⟨0, 0⟩, .member .const ⟨b!"Base", [b!"\\Base"]⟩ b!"MAX" []),
   (at_ 5, Imports.newTable ⟨0, 0⟩, .function ⟨b!"\\f", b!"\\f", 0⟩),
   (at_ 6, Imports.newTable ⟨0, 0⟩, .trt [⟨b!"\\Base", b!"Base", 0⟩])]

end Demo

/-- Non-vacuity of C127_marks. -/
example : EnvOK Store.Demo.env ∧ Store.Demo.env.LowerSlash ∧ HistOK Store.Demo.env Demo.oldHist ∧
    OneEach Store.Demo.env (latest Demo.oldHist) ∧ (∀ u ∈ Demo.oldUses, Named u.2.2) ∧
    ∃ s, run Store.Demo.env Store.Demo.root Demo.oldHist = some s ∧
      deprecatedIn Store.Demo.env s 9 9 Demo.oldUses =
        some [(Demo.at_ 1, .cla Demo.oldBase), (Demo.at_ 2, (Sym.met Demo.oldGo).stored),
          (Demo.at_ 4, (Sym.claCon Demo.oldMax).stored), (Demo.at_ 5, (Sym.fn Demo.oldF).stored)] := by
  refine ⟨Store.Demo.env_ok, Store.Demo.lower_slash, Demo.oldHist_ok, Demo.oldHist_one, ?_,
    Store.Demo.observe _ _ (by decide +kernel)⟩
  intro u hu
  simp only [Demo.oldUses, List.mem_cons, List.not_mem_nil, or_false] at hu
  rcases hu with rfl | rfl | rfl | rfl | rfl | rfl
  · trivial
  · exact ⟨by decide, by decide⟩
  · exact ⟨by decide, by decide⟩
  · exact ⟨by decide, by decide⟩
  · trivial
  · trivial


namespace Demo

/-- `function f()` in `namespace App` under a doc comment with `@deprecated 1.2 gone`. -/
def srcF : Function := Show.toFunction Store.Demo.uA Show.hEnv (Show.hPart 9)

def srcDoc : Doc := ⟨Store.Demo.uA, b!"9", [.fn srcF], [], []⟩

def srcHist : List HOp := [.upgrade b!"v0.0.16", .index Store.Demo.a1, .index Store.Demo.b1, .index srcDoc]

theorem srcDoc_ok : DocOK Store.Demo.env srcDoc :=
  Store.Demo.doc_ok Store.Demo.uA_ok (by simp [Str, Store.Demo.uA]) _ _ (by decide) (by
    intro x hx
    rw [List.mem_singleton.mp hx]
    exact Store.Demo.sym_ok (show srcF.WF by decide +kernel) (by decide +kernel) rfl (by decide +kernel))

theorem srcHist_ok : HistOK Store.Demo.env srcHist where
  docs := by
    rw [show docs srcHist = [Store.Demo.a1, Store.Demo.b1, srcDoc] from rfl]
    simp [Store.Demo.a1_ok, Store.Demo.b1_ok, srcDoc_ok]
  consts := by
    intro d1 h1 d2 h2 c1 c2 m1 m2 _ _
    rw [show docs srcHist = [Store.Demo.a1, Store.Demo.b1, srcDoc] from rfl] at h1 h2
    simp only [List.mem_cons, List.not_mem_nil, or_false] at h1 h2
    rcases h1 with rfl | rfl | rfl <;> rcases h2 with rfl | rfl | rfl <;>
      first
        | rfl
        | (simp [Store.Demo.a1, srcDoc, Store.Demo.b1, Store.Demo.cla, Store.Demo.met, Store.Demo.pro, Store.Demo.fn,
            Store.Demo.glo, Store.Demo.claCon] at m1 m2)
  crashes := by simp [Store.Keeps, srcHist]

theorem src_live {x : Sym} (hx : Live Store.Demo.env (latest srcHist) x) : x ∈ srcDoc.symbols ++ Store.Demo.b1.symbols := by
  obtain ⟨u, d, pre, post, hu, hd, -⟩ := hx
  have hx : x ∈ d.symbols := by rw [hd]; simp
  rw [List.mem_append]
  simp only [latest, srcHist, List.foldl_cons, List.foldl_nil, latestStep] at hu
  split at hu
  · cases hu; exact .inl hx
  · split at hu
    · cases hu; exact .inr hx
    · rename_i h1 h2
      rw [if_neg (show ¬ u = Store.Demo.a1.uri from h1)] at hu
      cases hu

theorem src_one : OneEach Store.Demo.env (latest srcHist) where
  classes c d hc hd _ := by
    have hh : ∀ {c : Class}, Live Store.Demo.env (latest srcHist) (.cla c) → c = base := by
      intro c hc
      simpa [srcDoc, Store.Demo.b1, Store.Demo.cla, Store.Demo.fn, base] using src_live hc
    rw [hh hc, hh hd]
  interfaces c d hc := by
    have := src_live hc
    simp [srcDoc, Store.Demo.b1, Store.Demo.cla, Store.Demo.fn] at this

end Demo

/-- Non-vacuity of C127_function_source. -/
example : HistOK Store.Demo.env Demo.srcHist ∧ OneEach Store.Demo.env (latest Demo.srcHist) ∧
    latest Demo.srcHist Store.Demo.uA = some Demo.srcDoc ∧
    Decl.OnlyPhrase .functionDeclarationHeader (Show.hPart 9).kids (Decl.sub (Show.hPart 9) 0) ∧
    Decl.DocApplies Show.hEnv (Show.hPart 9) (some (Show.hPart 1)) ∧
    Show.FirstTag Show.hEnv.ctx b!"@deprecated" (some (Show.hPart 1)) (some (Decl.sub (Show.hPart 1) 5)) ∧
    Demo.srcDoc.symbols = [] ++ .fn (Show.toFunction Store.Demo.uA Show.hEnv (Show.hPart 9)) :: [] ∧
    (∀ g, Live Store.Demo.env (latest Demo.srcHist) (.fn g) → g.name.fqn = Demo.srcF.name.fqn → g = Demo.srcF) ∧
    (Imports.newTable ⟨0, 0⟩).getFunctionReferenceFQN (fun q =>
      @decide (FunctionExists Store.Demo.env (latest Demo.srcHist) q) (Classical.propDecidable _))
      ⟨b!"\\App\\f", b!"\\App\\f", 0⟩ = Demo.srcF.name.fqn ∧
    ∃ s, run Store.Demo.env Store.Demo.root Demo.srcHist = some s := by
  refine ⟨Demo.srcHist_ok, Demo.src_one, by decide +kernel, Decl.OnlyPhrase.of_filter rfl, ⟨rfl, by decide +kernel⟩,
    Show.hTags.2, rfl, ?_, ?_, C08_never_fails Store.Demo.env_ok Demo.srcHist_ok _⟩
  · intro g hg e
    have : g = Demo.srcF ∨ Sym.fn g = Store.Demo.fn Store.Demo.uB b!"f" 2 := by
      simpa [Demo.srcDoc, Store.Demo.b1, Store.Demo.cla, Store.Demo.fn] using Demo.src_live hg
    rcases this with rfl | h
    · rfl
    · injection h with h
      rw [h] at e
      exact absurd e (by decide +kernel)
  · have : Demo.srcF.name.fqn = b!"\\App\\f" := by decide +kernel
    rw [this]
    have gen : ∀ b : Bool, (if b then b!"\\App\\f" else b!"\\App\\f") = b!"\\App\\f" := by decide +kernel
    exact gen _

end Verif.Whole
