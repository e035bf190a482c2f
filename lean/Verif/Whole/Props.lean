import Verif.Whole.Demo

/-! C125: where go to definition leads after any history of the index. -/

namespace Verif.Whole

open Verif.Encoding Verif.Storage Verif.Store Verif.Query

variable {env : Env} {root : Bytes} {h : List HOp} {s : Store}

/-- C125: what a lookup of a class, interface or trait by name finds in the index, whatever the name is, are the ones among
all indexed ones that are called so, in the same order; no lookup fails. -/
theorem C125_lookups (he : EnvOK env) (hok : HistOK env h) (hs : run env root h = some s) (fqn : Bytes) :
    (s.queryClasses env fqn).map (List.map (clsOf s)) = some ((worldOf env s).classesNamed fqn) ∧
    (s.getInterfaces fqn).map (List.map (intfOf s)) = some ((worldOf env s).interfacesNamed fqn) ∧
    (s.getTraits fqn).map (List.map (trtOf s)) = some ((worldOf env s).traitsNamed fqn) := by
  refine ⟨?_, ?_, ?_⟩
  · rw [queryClasses_eq he hok hs, Option.map_some, World.classesNamed, worldOf, List.filter_map]; rfl
  · rw [getInterfaces_eq he hok hs, Option.map_some, World.interfacesNamed, worldOf, List.filter_map]; rfl
  · rw [getTraits_eq he hok hs, Option.map_some, World.traitsNamed, worldOf, List.filter_map]; rfl

/-- From numbers to declarations. -/
theorem leads_of (he : EnvOK env) (hok : HistOK env h) (hs : run env root h = some s) {r : List Nat} {P : Sym → Prop}
    (hr : ∀ d, d ∈ r ↔ (siteOf env s).navigable d = true ∧
      ∃ x, Live env (latest h) x ∧ P x ∧ (∀ g, x ≠ .gloVar g) ∧ num s x.stored = d) :
    Leads env (latest h) (r.filterMap fun d => (decls s)[d]?) fun x => P x ∧ ∀ g, x ≠ .gloVar g := by
  have nav : ∀ {x : Sym}, Live env (latest h) x → (∀ g, x ≠ .gloVar g) →
      ((siteOf env s).navigable (num s x.stored) = true ↔ Openable x) := by
    intro x hx hg
    simp only [siteOf, get_num_live he hok hs hx hg, Option.elim_some, navigatable, hasPrefix_iff, locationOf_eq,
      stored_location, Openable]
  intro y
  rw [List.mem_filterMap]
  constructor
  · rintro ⟨d, hd, e⟩
    obtain ⟨h1, x, hx, hp, hg, rfl⟩ := (hr d).mp hd
    rw [get_num_live he hok hs hx hg] at e
    exact ⟨x, hx, ⟨hp, hg⟩, (nav hx hg).mp h1, Option.some.inj e⟩
  · rintro ⟨x, hx, ⟨hp, hg⟩, ho, rfl⟩
    exact ⟨_, (hr _).mpr ⟨(nav hx hg).mpr ho, x, hx, hp, hg, rfl⟩, get_num_live he hok hs hx hg⟩

theorem Leads.imp {L : Bytes → Option Doc} {r : List Sym} {P Q : Sym → Prop} (hl : Leads env L r P)
    (hpq : ∀ x, P x ↔ Q x) : Leads env L r Q := fun y => by
  rw [hl y]; exact exists_congr fun x => and_congr_right fun _ => and_congr_left fun _ => hpq x

/-- The names that are looked for. -/
def Wanted (env : Env) (u : Use) : Sym → Prop
  | .cla c => ∃ ts, (u = .cls ts ∨ u = .typ ts) ∧ ∃ t ∈ ts, SameClassName env c.name.fqn t.fqn
  | .int i => ∃ ts, (u = .intf ts ∨ u = .typ ts) ∧ ∃ t ∈ ts, i.name.fqn = t.fqn
  | .tra x => ∃ ts, u = .trt ts ∧ ∃ t ∈ ts, x.name.fqn = t.fqn
  | _ => False

theorem class_nums (he : EnvOK env) (hsl : env.LowerSlash) (hok : HistOK env h) (hs : run env root h = some s)
    (fqn : Bytes) (d : Nat) : d ∈ ((worldOf env s).classesNamed fqn).map (·.decl) ↔
      ∃ c, Live env (latest h) (.cla c) ∧ SameClassName env c.name.fqn fqn ∧ num s (.cla c) = d := by
  simp only [List.mem_map, World.classesNamed, List.mem_filter, mem_classes he hok hs, decide_eq_true_eq, key_iff hsl]
  constructor
  · rintro ⟨_, ⟨⟨c, hc, rfl⟩, hk⟩, rfl⟩; exact ⟨c, hc, hk, rfl⟩
  · rintro ⟨c, hc, hk, rfl⟩; exact ⟨_, ⟨⟨c, hc, rfl⟩, hk⟩, rfl⟩

theorem interface_nums (he : EnvOK env) (hok : HistOK env h) (hs : run env root h = some s)
    (fqn : Bytes) (d : Nat) : d ∈ ((worldOf env s).interfacesNamed fqn).map (·.decl) ↔
      ∃ c, Live env (latest h) (.int c) ∧ c.name.fqn = fqn ∧ num s (Sym.int c).stored = d := by
  simp only [List.mem_map, World.interfacesNamed, List.mem_filter, mem_interfaces he hok hs, decide_eq_true_eq]
  constructor
  · rintro ⟨_, ⟨⟨c, hc, rfl⟩, hk⟩, rfl⟩; exact ⟨c, hc, hk, rfl⟩
  · rintro ⟨c, hc, hk, rfl⟩; exact ⟨_, ⟨⟨c, hc, rfl⟩, hk⟩, rfl⟩

theorem trait_nums (he : EnvOK env) (hok : HistOK env h) (hs : run env root h = some s)
    (fqn : Bytes) (d : Nat) : d ∈ ((worldOf env s).traitsNamed fqn).map (·.decl) ↔
      ∃ c, Live env (latest h) (.tra c) ∧ c.name.fqn = fqn ∧ num s (.tra c) = d := by
  simp only [List.mem_map, World.traitsNamed, List.mem_filter, mem_traits he hok hs, decide_eq_true_eq]
  constructor
  · rintro ⟨_, ⟨⟨c, hc, rfl⟩, hk⟩, rfl⟩; exact ⟨c, hc, hk, rfl⟩
  · rintro ⟨c, hc, hk, rfl⟩; exact ⟨_, ⟨⟨c, hc, rfl⟩, hk⟩, rfl⟩

/-- C125: after any history of indexing, re-indexing, deleting, restarting and crashing, a name leads to exactly the
declarations of that name in the current versions of the files that can be opened: a class name before `::` and a type to
classes (whose last segments are compared ignoring case), a type and a name after `implements` to interfaces, a name after
`use` in a class to traits. The name must not start with the alias of an import (see C78). -/
theorem C125_names (he : EnvOK env) (hsl : env.LowerSlash) (hok : HistOK env h) (hs : run env root h = some s)
    (tbl : Imports.Table) (keyOf : Bytes → Bytes) (n ni : Nat) (u : Use)
    (hu : match u with
      | .cls ts => ∀ t ∈ ts, Unaliased tbl t
      | .intf ts => ∀ t ∈ ts, Unaliased tbl t
      | .trt _ => True
      | .typ _ => True
      | _ => False) :
    ∃ r, definitionIn env s tbl keyOf n ni u = some r ∧ Leads env (latest h) r (Wanted env u) := by
  have go : ∀ {l : List Nat} {P : Sym → Prop}, locations (siteOf env s) tbl keyOf n ni u = some l →
      (∀ d, d ∈ l ↔ ∃ x, Live env (latest h) x ∧ P x ∧ (∀ g, x ≠ .gloVar g) ∧ num s x.stored = d) →
      (∀ x, (P x ∧ ∀ g, x ≠ .gloVar g) ↔ Wanted env u x) →
      ∃ r, definitionIn env s tbl keyOf n ni u = some r ∧ Leads env (latest h) r (Wanted env u) := by
    intro l P hl hd hP
    refine ⟨_, by rw [definitionIn, definition, hl]; rfl, Leads.imp (leads_of he hok hs (P := P) fun d => ?_) hP⟩
    rw [List.mem_filter, hd, and_comm]
  cases u with
  | new_ _ => cases hu
  | constant _ => cases hu
  | function _ => cases hu
  | member _ _ _ _ => cases hu
  | cls ts =>
    refine go (P := fun x => ∃ c, x = .cla c ∧ ∃ t ∈ ts, SameClassName env c.name.fqn t.fqn) rfl (fun d => ?_) fun x => ?_
    · simp only [List.mem_flatMap]
      constructor
      · rintro ⟨t, ht, hd⟩
        rw [reference_same (hu t ht)] at hd
        obtain ⟨c, hc, hk, rfl⟩ := (class_nums he hsl hok hs _ _).mp hd
        exact ⟨.cla c, hc, ⟨c, rfl, t, ht, hk⟩, by simp, rfl⟩
      · rintro ⟨_, hc, ⟨c, rfl, t, ht, hk⟩, -, rfl⟩
        refine ⟨t, ht, ?_⟩
        rw [reference_same (hu t ht)]
        exact (class_nums he hsl hok hs _ _).mpr ⟨c, hc, hk, rfl⟩
    · cases x <;> simp [Wanted]
  | intf ts =>
    refine go (P := fun x => ∃ c, x = .int c ∧ ∃ t ∈ ts, c.name.fqn = t.fqn) rfl (fun d => ?_) fun x => ?_
    · simp only [List.mem_flatMap]
      constructor
      · rintro ⟨t, ht, hd⟩
        rw [reference_same (hu t ht)] at hd
        obtain ⟨c, hc, hk, rfl⟩ := (interface_nums he hok hs _ _).mp hd
        exact ⟨.int c, hc, ⟨c, rfl, t, ht, hk⟩, by simp, rfl⟩
      · rintro ⟨_, hc, ⟨c, rfl, t, ht, hk⟩, -, rfl⟩
        refine ⟨t, ht, ?_⟩
        rw [reference_same (hu t ht)]
        exact (interface_nums he hok hs _ _).mpr ⟨c, hc, hk, rfl⟩
    · cases x <;> simp [Wanted]
  | trt ts =>
    refine go (P := fun x => ∃ c, x = .tra c ∧ ∃ t ∈ ts, c.name.fqn = t.fqn) rfl (fun d => ?_) fun x => ?_
    · simp only [List.mem_flatMap]
      constructor
      · rintro ⟨t, ht, hd⟩
        obtain ⟨c, hc, hk, rfl⟩ := (trait_nums he hok hs _ _).mp hd
        exact ⟨.tra c, hc, ⟨c, rfl, t, ht, hk⟩, by simp, rfl⟩
      · rintro ⟨_, hc, ⟨c, rfl, t, ht, hk⟩, -, rfl⟩
        exact ⟨t, ht, (trait_nums he hok hs _ _).mpr ⟨c, hc, hk, rfl⟩⟩
    · cases x <;> simp [Wanted]
  | typ ts =>
    refine go (P := fun x => (∃ c, x = .cla c ∧ ∃ t ∈ ts, SameClassName env c.name.fqn t.fqn) ∨
      ∃ c, x = .int c ∧ ∃ t ∈ ts, c.name.fqn = t.fqn) rfl (fun d => ?_) fun x => ?_
    · simp only [List.mem_flatMap]
      constructor
      · rintro ⟨t, ht, hd⟩
        rcases List.mem_append.mp hd with hd | hd
        · obtain ⟨c, hc, hk, rfl⟩ := (class_nums he hsl hok hs _ _).mp hd
          exact ⟨.cla c, hc, .inl ⟨c, rfl, t, ht, hk⟩, by simp, rfl⟩
        · obtain ⟨c, hc, hk, rfl⟩ := (interface_nums he hok hs _ _).mp hd
          exact ⟨.int c, hc, .inr ⟨c, rfl, t, ht, hk⟩, by simp, rfl⟩
      · rintro ⟨_, hc, ⟨c, rfl, t, ht, hk⟩ | ⟨c, rfl, t, ht, hk⟩, -, rfl⟩
        · exact ⟨t, ht, List.mem_append_left _ ((class_nums he hsl hok hs _ _).mpr ⟨c, hc, hk, rfl⟩)⟩
        · exact ⟨t, ht, List.mem_append_right _ ((interface_nums he hok hs _ _).mpr ⟨c, hc, hk, rfl⟩)⟩
    · cases x <;> simp [Wanted]

theorem ne_nil_iff (l : List Nat) : l ≠ [] ↔ ∃ d, d ∈ l := by
  cases l with
  | nil => simp
  | cons a l => exact ⟨fun _ => ⟨a, by simp⟩, fun _ => by simp⟩

theorem function_nums (he : EnvOK env) (hok : HistOK env h) (hs : run env root h = some s) (q : Bytes) (d : Nat) :
    d ∈ (siteOf env s).functions q ↔
      ∃ f, Live env (latest h) (.fn f) ∧ f.name.fqn = q ∧ num s (Sym.fn f).stored = d := by
  simp only [siteOf, List.mem_map, mem_functions he hok hs]
  constructor
  · rintro ⟨_, ⟨f, hf, e, rfl⟩, rfl⟩; exact ⟨f, hf, e, rfl⟩
  · rintro ⟨f, hf, e, rfl⟩; exact ⟨_, ⟨f, hf, e, rfl⟩, rfl⟩

theorem const_nums (he : EnvOK env) (hok : HistOK env h) (hs : run env root h = some s) (q : Bytes) (d : Nat) :
    d ∈ (siteOf env s).consts q ↔ ∃ f, Live env (latest h) (.con f) ∧ f.name.fqn = q ∧ num s (.con f) = d := by
  simp only [siteOf, List.mem_map, mem_consts he hok hs]
  constructor
  · rintro ⟨_, ⟨f, hf, e, rfl⟩, rfl⟩; exact ⟨f, hf, e, rfl⟩
  · rintro ⟨f, hf, e, rfl⟩; exact ⟨_, ⟨f, hf, e, rfl⟩, rfl⟩

theorem define_nums (he : EnvOK env) (hok : HistOK env h) (hs : run env root h = some s) (q : Bytes) (d : Nat) :
    d ∈ (siteOf env s).defines q ↔ ∃ f, Live env (latest h) (.def_ f) ∧ f.name.fqn = q ∧ num s (.def_ f) = d := by
  simp only [siteOf, List.mem_map, mem_defines he hok hs]
  constructor
  · rintro ⟨_, ⟨f, hf, e, rfl⟩, rfl⟩; exact ⟨f, hf, e, rfl⟩
  · rintro ⟨f, hf, e, rfl⟩; exact ⟨_, ⟨f, hf, e, rfl⟩, rfl⟩

/-- Is there a function of this name in the current files? -/
def FunctionExists (env : Env) (L : Bytes → Option Doc) (q : Bytes) : Prop := ∃ f, Live env L (.fn f) ∧ f.name.fqn = q

/-- Is there a constant of this name, declared with `const`? -/
def ConstExists (env : Env) (L : Bytes → Option Doc) (q : Bytes) : Prop := ∃ f, Live env L (.con f) ∧ f.name.fqn = q

/-- Is there a constant of this name, declared with `define`? -/
def DefineExists (env : Env) (L : Bytes → Option Doc) (q : Bytes) : Prop := ∃ f, Live env L (.def_ f) ∧ f.name.fqn = q

open Classical in
/-- C125: a function call leads to exactly the functions of the current files that have the name to which the call resolves
(C27), among the files that can be opened. -/
theorem C125_functions (he : EnvOK env) (hok : HistOK env h) (hs : run env root h = some s)
    (tbl : Imports.Table) (keyOf : Bytes → Bytes) (n ni : Nat) (name : Types.Ty) :
    ∃ r, definitionIn env s tbl keyOf n ni (.function name) = some r ∧ Leads env (latest h) r fun x => ∃ f, x = .fn f ∧
      f.name.fqn = tbl.getFunctionReferenceFQN (fun q => decide (FunctionExists env (latest h) q)) name := by
  have ex : (fun q => decide ((siteOf env s).functions q ≠ [])) =
      fun q => decide (FunctionExists env (latest h) q) := by
    funext q
    rw [decide_eq_decide, ne_nil_iff]
    constructor
    · rintro ⟨d, hd⟩; obtain ⟨f, hf, e, -⟩ := (function_nums he hok hs _ _).mp hd; exact ⟨f, hf, e⟩
    · rintro ⟨f, hf, e⟩; exact ⟨_, (function_nums he hok hs _ _).mpr ⟨f, hf, e, rfl⟩⟩
  refine ⟨_, rfl, Leads.imp (leads_of he hok hs (P := fun x => ∃ f, x = .fn f ∧
    f.name.fqn = tbl.getFunctionReferenceFQN (fun q => decide (FunctionExists env (latest h) q)) name)
    fun d => ?_) fun x => ?_⟩
  · rw [← ex, List.mem_filter, function_nums he hok hs, and_comm]
    refine and_congr_right fun _ => ⟨?_, ?_⟩
    · rintro ⟨f, hf, e, rfl⟩; exact ⟨_, hf, ⟨f, rfl, e⟩, by simp, rfl⟩
    · rintro ⟨_, hf, ⟨f, rfl, e⟩, -, rfl⟩; exact ⟨f, hf, e, rfl⟩
  · exact ⟨fun h => h.1, fun h => ⟨h, by obtain ⟨f, rfl, -⟩ := h; simp⟩⟩

open Classical in
/-- C125: a constant leads to exactly the constants of the current files, declared with `const` or `define`, that have the
name to which it resolves, among the files that can be opened. -/
theorem C125_constants (he : EnvOK env) (hok : HistOK env h) (hs : run env root h = some s)
    (tbl : Imports.Table) (keyOf : Bytes → Bytes) (n ni : Nat) (name : Types.Ty) :
    ∃ r, definitionIn env s tbl keyOf n ni (.constant name) = some r ∧ Leads env (latest h) r fun x =>
      ∃ c, (x = .con c ∨ x = .def_ c) ∧ c.name.fqn = tbl.getConstReferenceFQN
        (fun q => decide (ConstExists env (latest h) q)) (fun q => decide (DefineExists env (latest h) q)) name := by
  have ex : (fun q => decide ((siteOf env s).consts q ≠ [])) = fun q => decide (ConstExists env (latest h) q) := by
    funext q
    rw [decide_eq_decide, ne_nil_iff]
    constructor
    · rintro ⟨d, hd⟩; obtain ⟨f, hf, e, -⟩ := (const_nums he hok hs _ _).mp hd; exact ⟨f, hf, e⟩
    · rintro ⟨f, hf, e⟩; exact ⟨_, (const_nums he hok hs _ _).mpr ⟨f, hf, e, rfl⟩⟩
  have ex' : (fun q => decide ((siteOf env s).defines q ≠ [])) = fun q => decide (DefineExists env (latest h) q) := by
    funext q
    rw [decide_eq_decide, ne_nil_iff]
    constructor
    · rintro ⟨d, hd⟩; obtain ⟨f, hf, e, -⟩ := (define_nums he hok hs _ _).mp hd; exact ⟨f, hf, e⟩
    · rintro ⟨f, hf, e⟩; exact ⟨_, (define_nums he hok hs _ _).mpr ⟨f, hf, e, rfl⟩⟩
  refine ⟨_, rfl, Leads.imp (leads_of he hok hs (P := fun x => ∃ c, (x = .con c ∨ x = .def_ c) ∧
    c.name.fqn = tbl.getConstReferenceFQN (fun q => decide (ConstExists env (latest h) q))
      (fun q => decide (DefineExists env (latest h) q)) name) fun d => ?_) fun x => ?_⟩
  · rw [← ex, ← ex', List.mem_filter, List.mem_append, const_nums he hok hs, define_nums he hok hs, and_comm]
    refine and_congr_right fun _ => ⟨?_, ?_⟩
    · rintro (⟨f, hf, e, rfl⟩ | ⟨f, hf, e, rfl⟩)
      · exact ⟨_, hf, ⟨f, .inl rfl, e⟩, by simp, rfl⟩
      · exact ⟨_, hf, ⟨f, .inr rfl, e⟩, by simp, rfl⟩
    · rintro ⟨_, hf, ⟨f, rfl | rfl, e⟩, -, rfl⟩
      · exact .inl ⟨f, hf, e, rfl⟩
      · exact .inr ⟨f, hf, e, rfl⟩
  · exact ⟨fun h => h.1, fun h => ⟨h, by obtain ⟨f, rfl | rfl, -⟩ := h <;> simp⟩⟩

/-- C125: an access of a member leads only to members of the current files: declared in a class, interface or trait from which
(a class or interface of) one of the types of the object has members, under the name that is written (methods in whatever
case; of constants it is enough that the name starts like that), in a file that can be opened. Private methods and properties
of objects are reached only by code of their class through `$this` or by code of the class of the object; after `Name::` only what is static is. -/
theorem C125_members (he : EnvOK env) (hsl : env.LowerSlash) (hok : HistOK env h) (hs : run env root h = some s)
    (ho : OneEach env (latest h)) (tbl : Imports.Table) (keyOf : Bytes → Bytes) (n ni : Nat) (u : MemberUse) (a : Access)
    (name cur : Bytes) (hn : name ≠ []) (r : List Sym)
    (hr : definitionIn env s tbl keyOf n ni (.member u a name cur) = some r) (y : Sym) (hy : y ∈ r) :
    ∃ x, Live env (latest h) x ∧ x.stored = y ∧ Openable x ∧ ∃ t ∈ a.types, ∃ scope, Has env (latest h) t scope ∧
      Declares env u scope name x ∧
      ((u = .prop ∨ u = .method) → Private x → a.scopeName = b!"$this" ∧ scope = cur ∨ cur ∈ a.types) ∧
      ((u ≠ .prop ∧ u ≠ .method) → a.scopeName ∉ [b!"parent", b!"self", b!"static", b!"$this"] → Static x) := by
  obtain ⟨r', hr', rfl⟩ := Option.map_eq_some_iff.mp hr
  obtain ⟨d, hd, e⟩ := List.mem_filterMap.mp hy
  obtain ⟨h1, t, ht, m, ⟨scope, hsc, hm⟩, rfl, h2, h3⟩ := C78_member_sound (siteOf env s) (distinct he hsl hok hs ho) tbl keyOf
    n ni u a name cur r' hr' d hd
  have hh := has_of he hsl hok hs hsc
  obtain ⟨x, hx, hdx, hnum, hms, hg, hp, hst⟩ := member_of he hok hs (has_nosep he hok hh) hn hm
  rw [← hnum, get_num_live he hok hs hx hg] at e
  refine ⟨x, hx, Option.some.inj e, ?_, t, ht, scope, hh, hdx, fun hu hpr => ?_, fun hu hn => hst.mp (h3 hu hn)⟩
  · rw [← hnum] at h1
    simpa only [siteOf, get_num_live he hok hs hx hg, Option.elim_some, navigatable, hasPrefix_iff, locationOf_eq,
      stored_location, Openable] using h1
  · exact (h2 hu ((hp hu).mpr hpr)).imp_left fun h => ⟨h.1, hms ▸ h.2⟩

theorem apart_of (he : EnvOK env) (hsl : env.LowerSlash) (hok : HistOK env h) (hs : run env root h = some s)
    (hap : ∀ d, Live env (latest h) (.cla d) → ∀ i, Live env (latest h) (.int i) →
      ¬ SameClassName env d.name.fqn i.name.fqn) : Apart (worldOf env s) := by
  intro d hd i hi e
  obtain ⟨x, hx, rfl⟩ := (mem_classes he hok hs _).mp hd
  obtain ⟨y, hy, rfl⟩ := (mem_interfaces he hok hs _).mp hi
  exact hap x hx y hy ((key_iff hsl _ _).mp e)

theorem alone_of (he : EnvOK env) (hsl : env.LowerSlash) (hok : HistOK env h) (hs : run env root h = some s) {c : Class}
    (hal : Unmistakable env (latest h) c) : Alone (worldOf env s) (clsOf s c) := by
  constructor
  · intro i hi e
    obtain ⟨y, hy, rfl⟩ := (mem_interfaces he hok hs _).mp hi
    exact hal.1 y hy ((key_iff hsl _ _).mp e)
  · intro i hi e
    obtain ⟨y, hy, rfl⟩ := (mem_traits he hok hs _).mp hi
    exact hal.2 y hy ((key_iff hsl _ _).mp e)

theorem named_of (he : EnvOK env) (hok : HistOK env h) (hs : run env root h = some s) {name : Bytes} (hn : name ≠ [])
    (hx : ∀ x, Live env (latest h) (.met x) → env.lower x.name = env.lower name → x.name = name) :
    AsNamed (worldOf env s) .method name := fun scope y hy => by
  obtain ⟨x, h3, ⟨-, h4⟩, rfl⟩ := (mem_methods he hok hs hn y).mp hy
  exact hx x h3 h4

/-- The first method that the lookup in `c` finds is the one that `k` declares. -/
theorem nearest_first (he : EnvOK env) (hsl : env.LowerSlash) (hok : HistOK env h) (hs : run env root h = some s)
    (ho : OneEach env (latest h)) (hap : ∀ d, Live env (latest h) (.cla d) → ∀ i, Live env (latest h) (.int i) →
      ¬ SameClassName env d.name.fqn i.name.fqn)
    (c : Class) (hc : Live env (latest h) (.cla c))
    (ds : List Class) (k : Class) (hk : (c :: ds).getLast? = some k) (hch : (c :: ds).IsChain (Extends env (latest h)))
    (hnd : (c :: ds).Nodup) (name : Bytes) (hn : name ≠ []) (hla : ∀ d ∈ (c :: ds).dropLast, Lacks env (latest h) name d)
    (m : Method) (hm : Live env (latest h) (.met m)) (hmk : m.scope.fqn = k.name.fqn) (hmn : m.name = name)
    (hone : ∀ x, Live env (latest h) (.met x) → x.scope.fqn = k.name.fqn → env.lower x.name = env.lower name → x = m) :
    ∃ N, ∀ n ni, N ≤ n → N ≤ ni → ∃ q f0 fs,
      classLookup (worldOf env s) n ni .method name (clsOf s c) none St.new = some q ∧ q.1.rel = [] ∧
      q.1.members = f0 :: fs ∧ f0.member = metOf s (kMet.st m) := by
  have hw := distinct he hsl hok hs ho
  have hap' := apart_of he hsl hok hs hap
  have hcw : clsOf s c ∈ (worldOf env s).classes := (mem_classes he hok hs _).mpr ⟨c, hc, rfl⟩
  -- what the lookup of a method in a declaration finds
  have found : ∀ {scope : Bytes} {y : Member}, y ∈ (worldOf env s).members .methods scope name → ∀ d,
      (scope = d.name.fqn ∨ scope ∈ d.use.map (·.fqn)) → sep ∉ scope → ¬ Lacks env (latest h) name d := by
    intro scope y hy d hd hsep hl
    obtain ⟨x, hx, hdx, -⟩ := member_of he hok hs (u := .method) hsep hn hy
    cases x with
    | met x =>
      obtain ⟨-, h1, h2⟩ := hdx
      obtain ⟨h3, h4⟩ := hl x hx h2
      rcases hd with rfl | hd
      · exact h3 h1
      · obtain ⟨t, ht, e⟩ := List.mem_map.mp hd
        exact h4 t ht (e.trans h1.symm)
    | pro x => rcases hdx with ⟨h, -⟩ | ⟨h, -⟩ <;> cases h
    | claCon x => cases hdx.1
    | _ => cases hdx
  -- all classes on the way are declared
  have live : ∀ (l : List Class) (d : Class), Live env (latest h) (.cla d) → (d :: l).IsChain (Extends env (latest h)) →
      ∀ e ∈ d :: l, Live env (latest h) (.cla e) := by
    intro l
    induction l with
    | nil => intro d hd _ e he; rw [List.mem_singleton.mp he]; exact hd
    | cons x l ih =>
      intro d hd hch e he
      rw [List.isChain_cons_cons] at hch
      rcases List.mem_cons.mp he with rfl | he
      · exact hd
      · exact ih x hch.1.2.1 hch.2 e he
  have hlive := live ds c hc hch
  obtain ⟨N, hN⟩ := C29_methods (worldOf env s)
  obtain ⟨q, hq⟩ := hN (clsOf s c) hcw name none St.new (by simp)
  refine ⟨N, fun n ni h1 h2 => ?_⟩
  have hcl : classLookup (worldOf env s) n ni .method name (clsOf s c) none St.new = some q := hq n ni h1 h2
  obtain ⟨hrel, l, I, hlin, hmem, -⟩ := classLookup_order hw hap' hcw (by decide) hcl
  have hpre : clsOf s c :: ds.map (clsOf s) <+: l := by
    refine lineage_prefix hw hlin _ ?_ ?_
    · rw [← List.map_cons, List.isChain_map]
      have : ∀ (l : List Class), l.IsChain (Extends env (latest h)) →
          l.IsChain (fun a b => ParentOf (worldOf env s) (clsOf s a) (clsOf s b)) := fun l hl =>
        hl.imp fun a b hab => ⟨hab.1, (mem_classes he hok hs _).mpr ⟨b, hab.2.1, rfl⟩, (key_iff hsl _ _).mpr hab.2.2⟩
      exact this _ hch
    · rw [← List.map_cons]
      exact List.Nodup.map_on (fun x hx y hy e => clsOf_inj he hok hs (hlive x hx) (hlive y hy) e) hnd
  obtain ⟨rest, rfl⟩ := hpre
  have hne : c :: ds ≠ [] := by simp
  have hsplit : c :: ds = (c :: ds).dropLast ++ [k] := by
    rw [List.getLast?_eq_some_getLast hne] at hk
    rw [← Option.some.inj hk, List.dropLast_append_getLast hne]
  have hkl : Live env (latest h) (.cla k) := hlive k (by rw [hsplit]; simp)
  -- nothing before `k`
  have hnone : ((c :: ds).dropLast.map (clsOf s)).flatMap (ownFound (worldOf env s) .method name) = [] := by
    rw [List.flatMap_eq_nil_iff]
    intro x hx
    obtain ⟨d, hd, rfl⟩ := List.mem_map.mp hx
    have hdl : Live env (latest h) (.cla d) := hlive d (by rw [hsplit]; exact List.mem_append_left _ hd)
    rw [List.eq_nil_iff_forall_not_mem]
    intro f hf
    simp only [ownFound, show MemberUse.method.kind = .methods from rfl, if_true, List.mem_append, List.mem_flatMap] at hf
    rcases hf with hf | ⟨t, ht, hf⟩
    · exact found (mem_found hf) d (.inl rfl) ((live_nosep he hok hdl).1 _ (by simp [Sym.names, clsOf])) (hla d hd)
    · obtain ⟨h3, h4, h5⟩ := (mem_used _ _ _).mp ht
      obtain ⟨x, hx, rfl⟩ := (mem_traits he hok hs _).mp h5
      exact found (mem_found hf) d (.inr h3) ((live_nosep he hok hx).1 _ (by simp [Sym.names, trtOf])) (hla d hd)
  -- all that `k` has
  have hof : ∀ y, y ∈ (worldOf env s).members .methods k.name.fqn name ↔ y = metOf s (kMet.st m) := fun y => by
    rw [mem_methods he hok hs hn]
    constructor
    · rintro ⟨x, h3, ⟨h4, h5⟩, rfl⟩
      rw [hone x h3 h4 h5]
    · rintro rfl
      exact ⟨m, hm, ⟨hmk, by rw [hmn]⟩, rfl⟩
  obtain ⟨f0, fs, hfs⟩ : ∃ f0 fs, ownFound (worldOf env s) .method name (clsOf s k) = f0 :: fs ∧
      f0.member = metOf s (kMet.st m) := by
    have : (⟨metOf s (kMet.st m), k.name.fqn, 0⟩ : Found) ∈ (worldOf env s).found .methods k.name.fqn name :=
      found_of_mem ((hof _).mpr rfl)
    cases hf : (worldOf env s).found .methods k.name.fqn name with
    | nil => rw [hf] at this; cases this
    | cons f0 fs =>
      refine ⟨f0, fs ++ if MemberUse.method.kind = .methods then
        ((worldOf env s).used (clsOf s k)).flatMap fun x => (worldOf env s).found .methods x.name name else [], ?_,
        (hof _).mp (mem_found (by rw [hf]; simp))⟩
      · unfold ownFound
        rw [show MemberUse.method.kind = .methods from rfl, show MemberUse.method.key name = name from rfl,
          show (clsOf s k).name = k.name.fqn from rfl, hf, List.cons_append]
  have hmem' : q.1.members = f0 :: (fs ++ (rest.flatMap (ownFound (worldOf env s) .method name) ++ I)) := by
    rw [hmem, ← List.map_cons, hsplit, List.map_append, List.flatMap_append, List.flatMap_append, hnone]
    simp [hfs.1]
  exact ⟨q, f0, _, hcl, hrel, hmem', hfs.2⟩

theorem method_found (he : EnvOK env) (hsl : env.LowerSlash) (hok : HistOK env h) (hs : run env root h = some s)
    (ho : OneEach env (latest h)) (hap : ∀ d, Live env (latest h) (.cla d) → ∀ i, Live env (latest h) (.int i) →
      ¬ SameClassName env d.name.fqn i.name.fqn)
    (c : Class) (hc : Live env (latest h) (.cla c)) (hal : Unmistakable env (latest h) c)
    (ds : List Class) (k : Class) (hk : (c :: ds).getLast? = some k) (hch : (c :: ds).IsChain (Extends env (latest h)))
    (hnd : (c :: ds).Nodup) (name : Bytes) (hn : name ≠ []) (hla : ∀ d ∈ (c :: ds).dropLast, Lacks env (latest h) name d)
    (m : Method) (hm : Live env (latest h) (.met m)) (hmk : m.scope.fqn = k.name.fqn) (hmn : m.name = name)
    (hpub : m.visibility = 0)
    (hone : ∀ x, Live env (latest h) (.met x) → x.scope.fqn = k.name.fqn → env.lower x.name = env.lower name → x = m)
    (hx : ∀ x, Live env (latest h) (.met x) → env.lower x.name = env.lower name → x.name = name)
    (t : Bytes) (ht : SameClassName env c.name.fqn t) (a : Access) (ha : a.types = [t])
    (cur : Bytes) (tbl : Imports.Table) (keyOf : Bytes → Bytes) :
    ∃ N, ∀ n ni, N ≤ n → N ≤ ni →
      locations (siteOf env s) tbl keyOf n ni (.member .method a name cur) = some [num s (Sym.met m).stored] := by
  have hw := distinct he hsl hok hs ho
  have hcw : clsOf s c ∈ (worldOf env s).classes := (mem_classes he hok hs _).mpr ⟨c, hc, rfl⟩
  have hal' := alone_of he hsl hok hs hal
  have hkey : (worldOf env s).key (clsOf s c).name = (worldOf env s).key t := (key_iff hsl _ _).mpr ht
  have hnamed := named_of he hok hs hn hx
  obtain ⟨N, hN⟩ := nearest_first he hsl hok hs ho hap c hc ds k hk hch hnd name hn hla m hm hmk hmn hone
  refine ⟨N, fun n ni h1 h2 => ?_⟩
  obtain ⟨q, f0, fs, hcl, hrel, hmem', hf0⟩ := hN n ni h1 h2
  have hall : ∀ f ∈ q.1.members, f.member.name = name := fun f hf => by
    obtain ⟨scope, -, h4⟩ := classLookup_mem hw hcw hal' hcl f hf
    exact hnamed scope _ h4
  have huse : Usable .method cur a f0.member := by
    rw [hf0]
    refine (C31_public cur a [] _ ?_).1
    show visOf m.visibility = _
    rw [hpub]; decide
  have hloc := locations_single (siteOf env s) hw tbl keyOf n ni (clsOf s c) hcw hal' t hkey .method a ha name cur hnamed
  rw [show (siteOf env s).world = worldOf env s from rfl, hcl, Option.map_some] at hloc
  have hred : (MemberUse.method.reduce cur a q.1).map (·.member.decl) = [num s (Sym.met m).stored] := by
    rcases reduce_first .method cur a q.1 hrel name hall with ⟨-, h3⟩ | ⟨pre, g, post, f, h3, h4, h5, h6, h7⟩
    · exact absurd huse (h3 f0 (by rw [hmem']; simp))
    · rw [h4]
      cases pre with
      | nil =>
        rw [hmem', List.nil_append] at h3
        injection h3 with h3 _
        simp only [List.map_cons, List.map_nil, h5, ← h3, hf0]
        rfl
      | cons x pre =>
        rw [hmem', List.cons_append] at h3
        injection h3 with h3 _
        exact absurd huse (by rw [h3]; exact h7 x (by simp))
  rw [hloc, hred]

/-- C125: for an object of the class `c`, a method call leads to exactly the method in the nearest class: if neither `c` nor
the classes between it and `k`, nor their traits, have a method of this name, and `k` declares a public one, the call leads
there and nowhere else. The methods of this name are written alike in all files. -/
theorem C125_methods (he : EnvOK env) (hsl : env.LowerSlash) (hok : HistOK env h) (hs : run env root h = some s)
    (ho : OneEach env (latest h)) (hap : ∀ d, Live env (latest h) (.cla d) → ∀ i, Live env (latest h) (.int i) →
      ¬ SameClassName env d.name.fqn i.name.fqn)
    (c : Class) (hc : Live env (latest h) (.cla c)) (hal : Unmistakable env (latest h) c)
    (ds : List Class) (k : Class) (hk : (c :: ds).getLast? = some k) (hch : (c :: ds).IsChain (Extends env (latest h)))
    (hnd : (c :: ds).Nodup) (name : Bytes) (hn : name ≠ []) (hla : ∀ d ∈ (c :: ds).dropLast, Lacks env (latest h) name d)
    (m : Method) (hm : Live env (latest h) (.met m)) (hmk : m.scope.fqn = k.name.fqn) (hmn : m.name = name)
    (hpub : m.visibility = 0)
    (hone : ∀ x, Live env (latest h) (.met x) → x.scope.fqn = k.name.fqn → env.lower x.name = env.lower name → x = m)
    (hx : ∀ x, Live env (latest h) (.met x) → env.lower x.name = env.lower name → x.name = name)
    (hopen : Openable (.met m)) (t : Bytes) (ht : SameClassName env c.name.fqn t) (a : Access) (ha : a.types = [t])
    (cur : Bytes) (tbl : Imports.Table) (keyOf : Bytes → Bytes) :
    ∃ N, ∀ n ni, N ≤ n → N ≤ ni →
      definitionIn env s tbl keyOf n ni (.member .method a name cur) = some [(Sym.met m).stored] := by
  have hnav : (siteOf env s).navigable (num s (Sym.met m).stored) = true := by
    simpa only [siteOf, get_num_live he hok hs hm (by simp), Option.elim_some, navigatable, hasPrefix_iff, locationOf_eq,
      stored_location, Openable] using hopen
  obtain ⟨N, hN⟩ := method_found he hsl hok hs ho hap c hc hal ds k hk hch hnd name hn hla m hm hmk hmn hpub hone hx t ht a
    ha cur tbl keyOf
  refine ⟨N, fun n ni h1 h2 => ?_⟩
  unfold definitionIn definition
  rw [hN n ni h1 h2]
  simp [hnav, get_num_live he hok hs hm (by simp)]

/-- Non-vacuity of C125: `b.php` was re-indexed with a method in the parent class of a class in `a.php`. The calls of the
method, the names of the classes and of the function lead there. -/
example : EnvOK Store.Demo.env ∧ Store.Demo.env.LowerSlash ∧ HistOK Store.Demo.env Demo.hist ∧
    OneEach Store.Demo.env (latest Demo.hist) ∧
    (∃ s, run Store.Demo.env Store.Demo.root Demo.hist = some s ∧
      [definitionIn Store.Demo.env s (Imports.newTable ⟨0, 0⟩) id 9 9 (.member .method ⟨b!"$x", [b!"\\N\\FOO"]⟩ b!"go" []),
       definitionIn Store.Demo.env s (Imports.newTable ⟨0, 0⟩) id 9 9 (.cls [⟨b!"\\BASE", b!"BASE", 0⟩]),
       definitionIn Store.Demo.env s (Imports.newTable ⟨0, 0⟩) id 9 9 (.function ⟨b!"\\f", b!"f", 0⟩)] =
      [some [(Sym.met Demo.go).stored], some [.cla Demo.base], some [(Store.Demo.fn Store.Demo.uB b!"f" 2).stored]]) :=
  ⟨Store.Demo.env_ok, Store.Demo.lower_slash, Demo.hist_ok, Demo.one_each, Store.Demo.observe _ _ (by decide +kernel)⟩

/-- Non-vacuity of C125_methods. -/
example : ∃ c ds k m, Live Store.Demo.env (latest Demo.hist) (.cla c) ∧ Unmistakable Store.Demo.env (latest Demo.hist) c ∧
    ds ≠ [] ∧ (c :: ds).getLast? = some k ∧ (c :: ds).IsChain (Extends Store.Demo.env (latest Demo.hist)) ∧ (c :: ds).Nodup ∧
    (∀ d ∈ (c :: ds).dropLast, Lacks Store.Demo.env (latest Demo.hist) b!"go" d) ∧
    Live Store.Demo.env (latest Demo.hist) (.met m) ∧ m.scope.fqn = k.name.fqn ∧ m.name = b!"go" ∧ m.visibility = 0 ∧
    (∀ x, Live Store.Demo.env (latest Demo.hist) (.met x) → x.scope.fqn = k.name.fqn →
      Store.Demo.env.lower x.name = Store.Demo.env.lower b!"go" → x = m) ∧
    (∀ x, Live Store.Demo.env (latest Demo.hist) (.met x) →
      Store.Demo.env.lower x.name = Store.Demo.env.lower b!"go" → x.name = b!"go") ∧ Openable (.met m) := by
  refine ⟨Demo.foo, [Demo.base], Demo.base, Demo.go, Demo.foo_live, ⟨fun _ h => (Demo.live_int h).elim,
    fun _ h => (Demo.live_tra h).elim⟩, by simp, rfl, ?_, by decide +kernel, ?_, Demo.go_live, rfl, rfl, rfl, ?_, ?_, ?_⟩
  · rw [List.isChain_pair]
    exact ⟨by decide, Demo.base_live, .inl rfl⟩
  · intro d hd m hm hl
    rw [List.mem_singleton.mp (show d ∈ [Demo.foo] from hd)]
    rcases Demo.live_met hm with h | rfl
    · rw [h] at hl; exact absurd hl (by decide +kernel)
    · exact ⟨by decide +kernel, by decide +kernel⟩
  · intro x hx _ hl
    rcases Demo.live_met hx with h | rfl
    · rw [h] at hl; exact absurd hl (by decide +kernel)
    · rfl
  · intro x hx hl
    rcases Demo.live_met hx with h | rfl
    · rw [h] at hl; exact absurd hl (by decide +kernel)
    · rfl
  · exact ⟨b!"/w/b.php", by decide +kernel⟩

end Verif.Whole
