import Verif.Whole.Types
import Verif.Whole.TypesSpec
import Verif.Whole.PropsMembers
import Verif.Whole.PropsShow
import Verif.Query.Own
import Verif.Query.PropsEnds
import Verif.Query.PropsRefer
import Verif.Infer.PropsTypes

/-! C133: the types of expressions after any history of the index. -/

namespace Verif.Whole

open Verif.Encoding Verif.Storage Verif.Store Verif.Query

variable {env : Env} {root : Bytes} {h : List HOp} {s : Store}

/-! ### What a lookup finds -/

theorem mem_props (he : EnvOK env) (hok : HistOK env h) (hs : run env root h = some s) {scope name : Bytes}
    (hn : name ≠ []) (m : Member) : m ∈ (worldOf env s).members .props scope name ↔
      ∃ p, Live env (latest h) (.pro p) ∧ (p.scope.fqn = scope ∧ p.name = name) ∧ memberOf s (Sym.pro p).stored = m := by
  simp only [worldOf, membersOf, if_pos hn, List.mem_map]
  have := fun y => mem_lookup kPro he hok hs _ (fun a => a.scope.fqn = scope ∧ a.name = name) (fun a ha => by
      have hno := live_nosep he hok ha
      refine two_prefix (hno.1 _ (by simp [kPro, Sym.names]))
        (hno.1 _ (by simp [kPro, Sym.names])) ?_
      rw [List.mem_append, not_or]
      exact ⟨hno.2, range_nosep _⟩) y
  constructor
  · rintro ⟨y, hy, rfl⟩
    obtain ⟨a, h1, h2, rfl⟩ := (this y).mp hy
    exact ⟨a, h1, h2, rfl⟩
  · rintro ⟨a, h1, h2, rfl⟩
    exact ⟨_, (this _).mpr ⟨a, h1, h2, rfl⟩, rfl⟩

/-- The name that is asked for. -/
def Fits (env : Env) (n : Bytes) : Sym → Prop
  | .met m => n ≠ [] → env.lower m.name = env.lower n
  | .pro p => n ≠ [] → p.name = n
  | _ => False

theorem found_live (he : EnvOK env) (hok : HistOK env h) (hs : run env root h = some s) {k : Query.Kind} (hk : k ≠ .consts)
    {scope name : Bytes} (hsc : sep ∉ scope) {m : Member} (hm : m ∈ (worldOf env s).members k scope name) :
    ∃ x, Live env (latest h) x ∧ kindOf x = some k ∧ scopeOf x = scope ∧ memberOf s x.stored = m ∧ Fits env name x := by
  by_cases hn : name = []
  · subst hn
    obtain ⟨x, h1, h2, h3, h4⟩ := (mem_all he hok hs k hsc m).mp hm
    refine ⟨x, h1, h2, h3, h4, ?_⟩
    cases x with
    | met _ => exact fun h => absurd rfl h
    | pro _ => exact fun h => absurd rfl h
    | claCon _ => cases h2; exact absurd rfl hk
    | _ => cases h2
  · cases k with
    | methods =>
      obtain ⟨x, h1, ⟨h2, h3⟩, h4⟩ := (mem_methods he hok hs hn m).mp hm
      exact ⟨.met x, h1, rfl, h2, h4, fun _ => h3⟩
    | props =>
      obtain ⟨x, h1, ⟨h2, h3⟩, h4⟩ := (mem_props he hok hs hn m).mp hm
      exact ⟨.pro x, h1, rfl, h2, h4, fun _ => h3⟩
    | consts => exact absurd rfl hk

theorem typesOfMember_gives {x : Sym} {u : Types.Union} (hu : typesOfMember x.stored = some u) (t : Types.Ty) :
    t ∈ u ↔ Gives x t := by
  cases x with
  | met m => simp only [Sym.stored, typesOfMember, Option.some.injEq] at hu; subst hu; exact Iff.rfl
  | pro m => simp only [Sym.stored, typesOfMember, Option.some.injEq] at hu; subst hu; exact Iff.rfl
  | _ => cases hu

/-- The declaration behind a member that a lookup found. -/
theorem member_types (he : EnvOK env) (hok : HistOK env h) (hs : run env root h = some s) {fs : List Found}
    {k : Query.Kind} {P : Sym → Prop}
    (hfs : ∀ f ∈ fs, ∃ x, Live env (latest h) x ∧ kindOf x = some k ∧ memberOf s x.stored = f.member ∧ P x)
    (u : Types.Union) (hu : u ∈ memberTypes s fs) (t : Types.Ty) (ht : t ∈ u) :
    ∃ x, Live env (latest h) x ∧ kindOf x = some k ∧ P x ∧ Gives x t := by
  obtain ⟨f, hf, e⟩ := List.mem_filterMap.mp hu
  obtain ⟨x, h1, h2, h3, h4⟩ := hfs f hf
  rw [← h3, memberOf_decl h2, get_num_live he hok hs h1 (kindOf_nog h2), Option.bind_some] at e
  exact ⟨x, h1, h2, h4, (typesOfMember_gives e t).mp ht⟩

theorem static_reached {cur : Bytes} {a : Query.Access} {rel : List (Bytes × Bytes)} {m : Member}
    (hi : isInheritedStatic cur a rel m = true) :
    a.scopeName ∈ [b!"parent", b!"self", b!"static", b!"$this"] ∨ m.isStatic = true := by
  by_cases hm : m.isStatic = true
  · exact .inr hm
  · left
    unfold isInheritedStatic at hi
    by_cases h1 : isNameParent a.scopeName = true
    · simp [isNameParent] at h1; simp [h1]
    · rw [if_neg h1] at hi
      by_cases h2 : isNameRelative a.scopeName = true
      · simp only [isNameRelative, Bool.or_eq_true, decide_eq_true_eq] at h2
        rcases h2 with (h2 | h2) | h2 <;> simp [h2]
      · rw [if_neg h2, if_pos (by simpa using hm)] at hi
        cases hi

theorem fromCls_live (he : EnvOK env) (hsl : env.LowerSlash) (hok : HistOK env h) (hs : run env root h = some s)
    {k : Query.Kind} (hk : k ≠ .consts) {c : Cls} {t name : Bytes} (hc : c ∈ (worldOf env s).classesNamed t) {f : Found}
    (hf : FromCls (worldOf env s) k name c f) :
    ∃ x, Live env (latest h) x ∧ kindOf x = some k ∧ memberOf s x.stored = f.member ∧
      FromClass env (latest h) t (scopeOf x) ∧ Fits env name x := by
  obtain ⟨hc1, hc2⟩ := (mem_classesNamed _ _ _).mp hc
  obtain ⟨d, hd, rfl⟩ := (mem_classes he hok hs _).mp hc1
  obtain ⟨scope, hp, hf⟩ := hf
  obtain ⟨m, hm, rfl⟩ := List.mem_map.mp hf
  have hfc : FromClass env (latest h) t scope := ⟨d, hd, (key_iff hsl _ _).mp hc2, classHas_of he hsl hok hs hp⟩
  have hsc : sep ∉ scope := has_nosep he hok (.inl hfc)
  obtain ⟨x, h1, h2, h3, h4, h5⟩ := found_live he hok hs hk hsc hm
  exact ⟨x, h1, h2, h4, h3 ▸ hfc, h5⟩

theorem fromIntf_live (he : EnvOK env) (hok : HistOK env h) (hs : run env root h = some s)
    {k : Query.Kind} (hk : k ≠ .consts) {i : Intf} {t name : Bytes} (hi : i ∈ (worldOf env s).interfacesNamed t) {f : Found}
    (hf : FromIntf (worldOf env s) k name i f) :
    ∃ x, Live env (latest h) x ∧ kindOf x = some k ∧ memberOf s x.stored = f.member ∧
      FromInterface env (latest h) t (scopeOf x) ∧ Fits env name x := by
  obtain ⟨hi1, hi2⟩ := of_interfacesNamed hi
  obtain ⟨d, hd, rfl⟩ := (mem_interfaces he hok hs _).mp hi1
  obtain ⟨scope, ⟨j, hj, rfl⟩, hf⟩ := hf
  obtain ⟨m, hm, rfl⟩ := List.mem_map.mp hf
  obtain ⟨y, hy, rfl⟩ := intfAbove_of he hok hs hj
  have hfi : FromInterface env (latest h) t y.name.fqn := ⟨d, hd, hi2, y, hy, rfl⟩
  have hsc : sep ∉ y.name.fqn := (live_nosep he hok (intfAbove_live hd hy)).1 _ (by simp [Sym.names])
  obtain ⟨x, h1, h2, h3, h4, h5⟩ := found_live he hok hs hk hsc hm
  exact ⟨x, h1, h2, h4, h3 ▸ hfi, h5⟩

/-- What the lookups of a method call find. -/
theorem calls_live (he : EnvOK env) (hsl : env.LowerSlash) (hok : HistOK env h) (hs : run env root h = some s)
    (ho : OneEach env (latest h)) (u : MemberUse) (cur : Bytes) (a : Query.Access) (n ni : Nat) (name t : Bytes) (st : St)
    (hst : Reachable (worldOf env s) st) :
    ∀ f ∈ (callLoop (u.reduce cur a) (callLookups (worldOf env s) n ni name t) st).getD [],
    ∃ x, Live env (latest h) x ∧ kindOf x = some .methods ∧ memberOf s x.stored = f.member ∧
      ((FromClass env (latest h) t (scopeOf x) ∨ FromInterface env (latest h) t (scopeOf x)) ∧ Fits env name x ∧
       ((u ≠ .prop ∧ u ≠ .method) → Reached a.scopeName x)) := by
  intro f hf
  have hw := distinct he hsl hok hs ho
  cases hl : callLoop (u.reduce cur a) (callLookups (worldOf env s) n ni name t) st with
  | none => rw [hl] at hf; cases hf
  | some fs =>
    rw [hl] at hf
    obtain ⟨l, hm, st', r, h1, h2, h3⟩ := callLoop_mem (P := Reachable (worldOf env s)) (u.reduce cur a) _ (by
      intro l hl st r hP hr
      rcases List.mem_append.mp hl with hl | hl
      · obtain ⟨c, hc, rfl⟩ := List.mem_map.mp hl
        exact .methods hP ((mem_classesNamed _ _ _).mp hc).1 hr
      · obtain ⟨i, hi, rfl⟩ := List.mem_map.mp hl
        exact .interface hP (of_interfacesNamed hi).1 hr) st hst fs hl f hf
    obtain ⟨g, hg, e, -, -, hst2⟩ := mem_reduce h3
    have key : ∃ x, Live env (latest h) x ∧ kindOf x = some .methods ∧ memberOf s x.stored = g.member ∧
        (FromClass env (latest h) t (scopeOf x) ∨ FromInterface env (latest h) t (scopeOf x)) ∧ Fits env name x := by
      rcases List.mem_append.mp hm with hm | hm
      · obtain ⟨c, hc, rfl⟩ := List.mem_map.mp hm
        obtain ⟨x, k1, k2, k3, k4, k5⟩ := fromCls_live he hsl hok hs (by decide) hc
          ((getClassMethods_ok _ hw n ni c ((mem_classesNamed _ _ _).mp hc).1 name none st' (h1.cacheOk hw) r h2).2 g hg)
        exact ⟨x, k1, k2, k3, .inl k4, k5⟩
      · obtain ⟨i, hi, rfl⟩ := List.mem_map.mp hm
        obtain ⟨x, k1, k2, k3, k4, k5⟩ := fromIntf_live he hok hs (by decide) hi
          ((getInterface_ok _ hw .methods ni i (of_interfacesNamed hi).1 name none st' (h1.cacheOk hw) r h2).2 g hg)
        exact ⟨x, k1, k2, k3, .inr k4, k5⟩
    obtain ⟨x, k1, k2, k3, k4, k5⟩ := key
    refine ⟨x, k1, k2, k3.trans e.symm, k4, k5, fun hu => ?_⟩
    exact (static_reached (hst2 hu)).imp_right fun h => (memberOf_static k2 s).mp (by rw [k3]; exact h)

/-- What the lookups of a property find. -/
theorem props_live (he : EnvOK env) (hsl : env.LowerSlash) (hok : HistOK env h) (hs : run env root h = some s)
    (ho : OneEach env (latest h)) (u : MemberUse) (cur : Bytes) (a : Query.Access) (n ni : Nat) (name t : Bytes) (st : St)
    (hst : Reachable (worldOf env s) st) :
    ∀ f ∈ (callLoop (u.reduce cur a) (propLookups (worldOf env s) n ni name t) st).getD [],
    ∃ x, Live env (latest h) x ∧ kindOf x = some .props ∧ memberOf s x.stored = f.member ∧
      (FromClass env (latest h) t (scopeOf x) ∧ Fits env name x ∧
       ((u ≠ .prop ∧ u ≠ .method) → Reached a.scopeName x)) := by
  intro f hf
  have hw := distinct he hsl hok hs ho
  cases hl : callLoop (u.reduce cur a) (propLookups (worldOf env s) n ni name t) st with
  | none => rw [hl] at hf; cases hf
  | some fs =>
    rw [hl] at hf
    obtain ⟨l, hm, st', r, h1, h2, h3⟩ := callLoop_mem (P := Reachable (worldOf env s)) (u.reduce cur a) _ (by
      intro l hl st r hP hr
      obtain ⟨c, hc, rfl⟩ := List.mem_map.mp hl
      exact .plain hP (by decide) ((mem_classesNamed _ _ _).mp hc).1 hr) st hst fs hl f hf
    obtain ⟨g, hg, e, -, -, hst2⟩ := mem_reduce h3
    obtain ⟨c, hc, rfl⟩ := List.mem_map.mp hm
    obtain ⟨x, k1, k2, k3, k4, k5⟩ := fromCls_live he hsl hok hs (by decide) hc
      ((getClassPlain_ok _ hw .props n ni c ((mem_classesNamed _ _ _).mp hc).1 name none st' (h1.cacheOk hw) r h2).2 g hg)
    refine ⟨x, k1, k2, k3.trans e.symm, k4, k5, fun hu => ?_⟩
    exact (static_reached (hst2 hu)).imp_right fun h => (memberOf_static k2 s).mp (by rw [k3]; exact h)

theorem mem_globals (he : EnvOK env) (hok : HistOK env h) (hs : run env root h = some s) (n : Bytes) (y : GlobalVariable) :
    y ∈ (s.getGlobalVariables n).getD [] ↔ Live env (latest h) (.gloVar y) ∧ y.name = n := by
  have := mem_lookup kGlo he hok hs (n ++ [sep]) (fun a => a.name = n) (fun a ha => by
    have hno := live_nosep he hok ha
    have hi : typesEmpty a.types = false := by obtain ⟨_, _, _, _, _, _, h, _⟩ := ha; exact h
    rw [show (kGlo.con a).key env = a.name ++ sep :: a.location.uri by simp [kGlo, Sym.key, hi]]
    exact one_prefix (hno.1 _ (by simp [kGlo, Sym.names])) hno.2) y
  refine this.trans ⟨?_, fun h => ⟨y, h.1, h.2, rfl⟩⟩
  rintro ⟨a, h1, h2, rfl⟩
  exact ⟨h1, h2⟩

/-- What calls of functions find. -/
theorem functions_in (he : EnvOK env) (hok : HistOK env h) (hs : run env root h = some s) (last : Imports.Table) (n ni : Nat)
    (st) (name : Bytes) (t : Types.Ty) : (∃ u ∈ (resolvedIn env s last n ni st).functions name, t ∈ u) ↔
      ∃ f, Live env (latest h) (.fn f) ∧ Calls env (latest h) last name f.name.fqn ∧ Gives (.fn f) t := by
  simp only [resolvedIn, Calls]
  cases hty : Types.newTypeString name with
  | none => simp
  | some ty =>
    simp only [functions_exist he hok hs, Option.some.injEq, List.mem_map]
    constructor
    · rintro ⟨_, ⟨y, hy, rfl⟩, ht⟩
      obtain ⟨f, h1, h2, rfl⟩ := (mem_functions he hok hs _ y).mp hy
      exact ⟨f, h1, ⟨ty, rfl, h2.symm⟩, ht⟩
    · rintro ⟨f, h1, ⟨_, rfl, h2⟩, ht⟩
      exact ⟨_, ⟨kFn.st f, (mem_functions he hok hs _ _).mpr ⟨f, h1, h2.symm, rfl⟩, rfl⟩, ht⟩

theorem covers_of (he : EnvOK env) (hsl : env.LowerSlash) (hok : HistOK env h) (hs : run env root h = some s)
    (ho : OneEach env (latest h)) (last : Imports.Table) (n ni : Nat) (st)
    (hst : ∀ u a c name, Reachable (worldOf env s) (st u a c name)) (o : Infer.Outside)
    (hd : Declared env (latest h) last o) : Infer.Covers (resolvedIn env s last n ni st) o where
  globals name u hu t ht := by
    obtain ⟨g, hg, rfl⟩ := List.mem_map.mp hu
    obtain ⟨h1, h2⟩ := (mem_globals he hok hs _ _).mp hg
    exact (hd.globals _ _).mpr ⟨g, h1, h2, ht⟩
  functions name u hu t ht :=
    (hd.functions _ _).mpr ((functions_in he hok hs last n ni st name t).mp ⟨u, hu, ht⟩)
  props a c name u hu t ht := by
    obtain ⟨x, h1, h2, ⟨h3, h4, -⟩, h5⟩ := member_types he hok hs
      (props_live he hsl hok hs ho .prop a.here (accessOf a) n ni name c _ (hst _ _ _ _)) u hu t ht
    cases x with
    | pro p => exact (hd.props _ _ _ _ _).mpr ⟨p, h1, h3, h4, h5⟩
    | _ => cases h2
  methods a c name u hu t ht := by
    obtain ⟨x, h1, h2, ⟨h3, h4, -⟩, h5⟩ := member_types he hok hs
      (calls_live he hsl hok hs ho .method a.here (accessOf a) n ni name c _ (hst _ _ _ _)) u hu t ht
    cases x with
    | met p => exact (hd.methods _ _ _ _ _).mpr ⟨p, h1, h3, h4, h5⟩
    | _ => cases h2
  staticProps a c name u hu t ht := by
    obtain ⟨x, h1, h2, ⟨h3, h4, h6⟩, h5⟩ := member_types he hok hs
      (props_live he hsl hok hs ho .staticProp a.here (accessOf a) n ni name c _ (hst _ _ _ _)) u hu t ht
    cases x with
    | pro p => exact (hd.staticProps _ _ _ _ _).mpr ⟨p, h1, h3, h4, h6 (by decide), h5⟩
    | _ => cases h2
  staticMethods a c name u hu t ht := by
    obtain ⟨x, h1, h2, ⟨h3, h4, h6⟩, h5⟩ := member_types he hok hs
      (calls_live he hsl hok hs ho .staticMethod a.here (accessOf a) n ni name c _ (hst _ _ _ _)) u hu t ht
    cases x with
    | met p => exact (hd.staticMethods _ _ _ _ _).mpr ⟨p, h1, h3, h4, h6 (by decide), h5⟩
    | _ => cases h2

/-! ### There are only so many types -/

/-- All types that are given in the index. -/
def allTypes (s : Store) : List Types.Ty :=
  ((scanAll s cGloVar readGlobalVariable).flatMap fun g => g.types.map Show.ofType) ++
  ((scanAll s cFun readFunction).flatMap fun g => g.returnTypes.map Show.ofType) ++
  ((scanAll s cMet readMethod).flatMap fun g => g.returnTypes.map Show.ofType) ++
  ((scanAll s cPro readProperty).flatMap fun g => g.types.map Show.ofType)

theorem mem_allTypes (he : EnvOK env) (hok : HistOK env h) (hs : run env root h = some s) {x : Sym}
    (hx : Live env (latest h) x) {t : Types.Ty} (ht : Gives x t) : t ∈ allTypes s := by
  simp only [allTypes, List.mem_append, List.mem_flatMap]
  cases x with
  | gloVar g => exact .inl (.inl (.inl ⟨g, (mem_scanAll kGlo he hok hs g).mpr ⟨g, hx, rfl⟩, ht⟩))
  | fn g => exact .inl (.inl (.inr ⟨_, (mem_scanAll kFn he hok hs _).mpr ⟨g, hx, rfl⟩, ht⟩))
  | met g => exact .inl (.inr ⟨_, (mem_scanAll kMet he hok hs _).mpr ⟨g, hx, rfl⟩, ht⟩)
  | pro g => exact .inr ⟨_, (mem_scanAll kPro he hok hs _).mpr ⟨g, hx, rfl⟩, ht⟩
  | _ => exact ht.elim

open Classical in
theorem declared_exists (he : EnvOK env) (hok : HistOK env h) (hs : run env root h = some s) (last : Imports.Table) :
    ∃ o, Declared env (latest h) last o := by
  have key : ∀ P : Types.Ty → Prop, (∀ t, P t → ∃ x, Live env (latest h) x ∧ Gives x t) →
      ∀ t, t ∈ (allTypes s).filter (fun t => decide (P t)) ↔ P t := by
    intro P hP t
    rw [List.mem_filter, decide_eq_true_eq]
    refine ⟨And.right, fun h => ⟨?_, h⟩⟩
    obtain ⟨x, h1, h2⟩ := hP t h
    exact mem_allTypes he hok hs h1 h2
  refine ⟨⟨_, _, _, _, _, _⟩, fun n => key _ ?_, fun n => key _ ?_, fun _ _ c n => key _ ?_, fun _ _ c n => key _ ?_,
    fun _ b c n => key _ ?_, fun _ b c n => key _ ?_⟩
  · rintro t ⟨g, h1, -, h2⟩; exact ⟨_, h1, h2⟩
  · rintro t ⟨g, h1, -, h2⟩; exact ⟨_, h1, h2⟩
  · rintro t ⟨g, h1, -, -, h2⟩; exact ⟨_, h1, h2⟩
  · rintro t ⟨g, h1, -, -, h2⟩; exact ⟨_, h1, h2⟩
  · rintro t ⟨g, h1, -, -, -, h2⟩; exact ⟨_, h1, h2⟩
  · rintro t ⟨g, h1, -, -, -, h2⟩; exact ⟨_, h1, h2⟩

/-- C133: the types shown for the expressions of a file are those that the file itself or declarations of the current
versions of the files give: evaluating the program on types, where a variable keeps all types it was ever given and calls
and accesses have exactly the types that the current files declare (`o`), yields each of them at that place. Whatever the
history of the index, and whatever was asked before. -/
theorem C133_nothing_made_up (he : EnvOK env) (hsl : env.LowerSlash) (hok : HistOK env h) (hs : run env root h = some s)
    (ho : OneEach env (latest h)) (last : Imports.Table) (n ni : Nat) (st)
    (hst : ∀ u a c name, Reachable (worldOf env s) (st u a c name)) (cls : Types.Union) (p : Infer.Src) (a b : Pos)
    (hf : Infer.Fits p a b) :
    ∃ o, Declared env (latest h) last o ∧
      List.Forall₂ (fun x y => x.1 = y.1 ∧ ∀ t ∈ x.2.typesIn (resolvedIn env s last n ni st), Infer.kind t ∈ y.2)
        (Infer.analyse cls p) (Infer.typesOf o (Infer.kinds cls) true p) := by
  obtain ⟨o, hd⟩ := declared_exists he hok hs last
  exact ⟨o, hd, Infer.C74_nothing_made_up cls _ o (covers_of he hsl hok hs ho last n ni st hst o hd) p a b hf⟩

/-! ### Nothing is missed -/

theorem inherited_of {x : Sym} {k : Query.Kind} (hk : kindOf x = some k) (s : Store) {cur : Bytes} {a : Query.Access}
    (h : ByArrow cur a.scopeName (scopeOf x) x) (rel) : isInherited cur a rel (memberOf s x.stored) = true := by
  unfold isInherited
  split
  · rfl
  · rename_i hn
    rcases h with h | ⟨h1, h2⟩
    · simp [(memberOf_public hk s).mpr h]
    · exfalso
      refine hn ⟨h1, ?_⟩
      rw [memberOf_scope hk, ne_eq, memberOf_private hk]
      exact h2

theorem inheritedStatic_of {x : Sym} {k : Query.Kind} (hk : kindOf x = some k) (s : Store) {cur : Bytes} {a : Query.Access}
    (h : ByScope cur a.scopeName (scopeOf x) x) (rel) : isInheritedStatic cur a rel (memberOf s x.stored) = true := by
  obtain ⟨h1, h2, h3⟩ := h
  unfold isInheritedStatic
  split
  · rename_i hp
    have := h1 (by simpa [isNameParent] using hp)
    simp [memberOf_scope hk, memberOf_private hk, this.1, this.2]
  · split
    · rename_i hp
      have := h2 (by simp only [isNameRelative, Bool.or_eq_true, decide_eq_true_eq] at hp; simp; tauto)
      simpa [memberOf_scope hk, memberOf_private hk] using this
    · rename_i hp hr
      have := h3 (by
        simp only [isNameRelative, Bool.or_eq_true, decide_eq_true_eq] at hr
        simp only [isNameParent, decide_eq_true_eq] at hp
        simp; tauto)
      simp [(memberOf_static hk s).mpr this.1, (memberOf_public hk s).mpr this.2]

/-- On an object of the class around and of no other class everything may be used that this class declares. -/
theorem inherited_object {cur : Bytes} {a : Query.Access} (h : ∃ ts, a.types = cur :: ts) (rel) (m : Member) :
    isInherited cur a rel m = true := by
  obtain ⟨ts, h⟩ := h
  unfold isInherited
  rw [h]
  simp [scopeLoop]

/-- A member that the class declares itself, only once under that name, and that may be used is found. -/
theorem own_found (he : EnvOK env) (hsl : env.LowerSlash) (hok : HistOK env h) (hs : run env root h = some s)
    (u : MemberUse) (hu : u.kind ≠ .consts) (cur : Bytes) (a : Query.Access) (n ni : Nat) (name t : Bytes)
    {x : Sym} (hx : Live env (latest h) x) (hk : kindOf x = some u.kind)
    (hcl : ∃ d, Live env (latest h) (.cla d) ∧ SameClassName env d.name.fqn t ∧ scopeOf x = d.name.fqn)
    (hin : memberOf s x.stored ∈ (worldOf env s).members u.kind (scopeOf x) name)
    (hone : ∀ m ∈ (worldOf env s).members u.kind (scopeOf x) name, m = memberOf s x.stored)
    (hin1 : (u = .prop ∨ u = .method) → ∀ rel, isInherited cur a rel (memberOf s x.stored) = true)
    (hin2 : (u ≠ .prop ∧ u ≠ .method) → ∀ rel, isInheritedStatic cur a rel (memberOf s x.stored) = true)
    (ls : List Lookup)
    (hls : ∀ c ∈ (worldOf env s).classesNamed t, ∃ l ∈ ls, ∀ st r, OwnFirst (worldOf env s) st → l none st = some r →
      (worldOf env s).found u.kind c.name name <+: r.1.members)
    (hP : ∀ l ∈ ls, ∀ st r, OwnFirst (worldOf env s) st → l none st = some r → OwnFirst (worldOf env s) r.2)
    (st : St) (hos : OwnFirst (worldOf env s) st) (fs : List Found) (hfs : callLoop (u.reduce cur a) ls st = some fs)
    {v : Types.Union} (hv : typesOfMember x.stored = some v) : v ∈ memberTypes s fs := by
  obtain ⟨d, hd, hdn, hds⟩ := hcl
  have hc : clsOf s d ∈ (worldOf env s).classesNamed t :=
    (mem_classesNamed _ _ _).mpr ⟨(mem_classes he hok hs _).mpr ⟨d, hd, rfl⟩, (key_iff hsl _ _).mpr hdn⟩
  obtain ⟨l, hl, hown⟩ := hls _ hc
  obtain ⟨st', r, h1, h2, h3⟩ := callLoop_has (P := OwnFirst (worldOf env s)) _ ls hP st hos fs hfs l hl
  obtain ⟨rest, hr⟩ := hown st' r h1 h2
  have hname : (clsOf s d).name = scopeOf x := hds.symm
  rw [hname] at hr
  have hhead : ∃ rest', (worldOf env s).members u.kind (scopeOf x) name = memberOf s x.stored :: rest' := by
    cases hm : (worldOf env s).members u.kind (scopeOf x) name with
    | nil => rw [hm] at hin; cases hin
    | cons m ms => exact ⟨ms, by rw [hone m (by rw [hm]; simp)]⟩
  obtain ⟨rest', hm⟩ := hhead
  rw [World.found, hm] at hr
  obtain ⟨g, hg, hgm⟩ := reduce_head u cur a r.1 _ _ hr.symm (fun h => hin1 h _) (fun h => hin2 h _)
  refine List.mem_filterMap.mpr ⟨g, h3 g hg, ?_⟩
  rw [hgm, memberOf_decl hk, get_num_live he hok hs hx (kindOf_nog hk), Option.bind_some, hv]

theorem props_has (he : EnvOK env) (hsl : env.LowerSlash) (hok : HistOK env h) (hs : run env root h = some s)
    (u : MemberUse) (hu : u.kind = .props) (cur : Bytes) (a : Query.Access) (n ni : Nat) (name t : Bytes)
    {p : Property} (hp : OwnProperty env (latest h) t name p)
    (hin1 : (u = .prop ∨ u = .method) → ∀ rel, isInherited cur a rel (memberOf s (Sym.stored (.pro p))) = true)
    (hin2 : (u ≠ .prop ∧ u ≠ .method) → ∀ rel, isInheritedStatic cur a rel (memberOf s (Sym.stored (.pro p))) = true)
    (st : St) (hos : OwnFirst (worldOf env s) st) (fs : List Found)
    (hfs : callLoop (u.reduce cur a) (propLookups (worldOf env s) n ni name t) st = some fs)
    (ty : Types.Ty) (hty : Gives (.pro p) ty) : ∃ v ∈ memberTypes s fs, ty ∈ v := by
  obtain ⟨hn, hx, hpn, hcl, hone⟩ := hp
  refine ⟨_, own_found he hsl hok hs u (by rw [hu]; decide) cur a n ni name t hx (by rw [hu]; rfl) hcl ?_ ?_ hin1 hin2
    (propLookups (worldOf env s) n ni name t) ?_ ?_ st hos fs hfs rfl, hty⟩
  · rw [hu]; exact (mem_props he hok hs hn _).mpr ⟨p, hx, ⟨rfl, hpn⟩, rfl⟩
  · intro m hm
    rw [hu] at hm
    obtain ⟨q, h1, ⟨h2, h3⟩, rfl⟩ := (mem_props he hok hs hn _).mp hm
    rw [hone q h1 h2 h3]
  · intro c hc
    exact ⟨_, List.mem_map_of_mem hc, fun st r h1 h2 => by rw [hu]; exact (getClassPlain_own h1 h2).1⟩
  · intro l hl st r h1 h2
    obtain ⟨c, hc, rfl⟩ := List.mem_map.mp hl
    exact (getClassPlain_own h1 h2).2

theorem methods_has (he : EnvOK env) (hsl : env.LowerSlash) (hok : HistOK env h) (hs : run env root h = some s)
    (u : MemberUse) (hu : u.kind = .methods) (cur : Bytes) (a : Query.Access) (n ni : Nat) (name t : Bytes)
    {p : Method} (hp : OwnMethod env (latest h) t name p)
    (hin1 : (u = .prop ∨ u = .method) → ∀ rel, isInherited cur a rel (memberOf s (Sym.stored (.met p))) = true)
    (hin2 : (u ≠ .prop ∧ u ≠ .method) → ∀ rel, isInheritedStatic cur a rel (memberOf s (Sym.stored (.met p))) = true)
    (st : St) (hos : OwnFirst (worldOf env s) st) (fs : List Found)
    (hfs : callLoop (u.reduce cur a) (callLookups (worldOf env s) n ni name t) st = some fs)
    (ty : Types.Ty) (hty : Gives (.met p) ty) : ∃ v ∈ memberTypes s fs, ty ∈ v := by
  obtain ⟨hn, hx, hpn, hcl, hone⟩ := hp
  refine ⟨_, own_found he hsl hok hs u (by rw [hu]; decide) cur a n ni name t hx (by rw [hu]; rfl) hcl ?_ ?_ hin1 hin2
    (callLookups (worldOf env s) n ni name t) ?_ ?_ st hos fs hfs rfl, hty⟩
  · rw [hu]; exact (mem_methods he hok hs hn _).mpr ⟨p, hx, ⟨rfl, hpn⟩, rfl⟩
  · intro m hm
    rw [hu] at hm
    obtain ⟨q, h1, ⟨h2, h3⟩, rfl⟩ := (mem_methods he hok hs hn _).mp hm
    rw [hone q h1 h2 h3]; rfl
  · intro c hc
    exact ⟨_, List.mem_append_left _ (List.mem_map_of_mem hc), fun st r h1 h2 => by rw [hu]; exact (getClassMethods_own h1 h2).1⟩
  · intro l hl st r h1 h2
    rcases List.mem_append.mp hl with hl | hl
    · obtain ⟨c, hc, rfl⟩ := List.mem_map.mp hl
      exact (getClassMethods_own h1 h2).2
    · obtain ⟨i, hi, rfl⟩ := List.mem_map.mp hl
      exact h1.same (sameCls_getInterface _ _ _ _ _ _ _ _ h2)

/-- With enough rounds the searches for members end. -/
theorem searches_end (he : EnvOK env) (hsl : env.LowerSlash) (hok : HistOK env h) (hs : run env root h = some s)
    (hac : Acyclic env (latest h)) : ∃ N, ∀ n ni, N ≤ n → N ≤ ni →
      (∀ (red : Inherited → List Found) name t st,
        ∃ fs, callLoop red (propLookups (worldOf env s) n ni name t) st = some fs) ∧
      (∀ (red : Inherited → List Found) name t st,
        ∃ fs, callLoop red (callLookups (worldOf env s) n ni name t) st = some fs) := by
  obtain ⟨N, hN⟩ := lookups_end (worldOf env s) (noCycle he hsl hok hs hac)
  refine ⟨N, fun n ni hn hni => ⟨?_, ?_⟩⟩
  · intro red name t st
    obtain ⟨r, hr⟩ := callLoop_ends (N := N) red
      (((worldOf env s).classesNamed t).map fun c => fun n ni => getClassPlain (worldOf env s) .props n ni c name) (by
        intro l hl
        obtain ⟨c, hc, rfl⟩ := List.mem_map.mp hl
        exact (hN name).2.1 c ((mem_classesNamed _ _ _).mp hc).1 .props) st
    refine ⟨r, ?_⟩
    have := hr n ni hn hni
    rwa [List.map_map] at this
  · intro red name t st
    obtain ⟨r, hr⟩ := callLoop_ends (N := N) red
      ((((worldOf env s).classesNamed t).map fun c => fun n ni => getClassMethods (worldOf env s) n ni c name) ++
       (((worldOf env s).interfacesNamed t).map fun c => fun _ ni => getInterface (worldOf env s) .methods ni c name)) (by
        intro l hl
        rcases List.mem_append.mp hl with hl | hl
        · obtain ⟨c, hc, rfl⟩ := List.mem_map.mp hl
          exact (hN name).1 c ((mem_classesNamed _ _ _).mp hc).1
        · obtain ⟨c, hc, rfl⟩ := List.mem_map.mp hl
          exact (hN name).2.2.1 c (of_interfacesNamed hc).1 .methods) st
    refine ⟨r, ?_⟩
    have := hr n ni hn hni
    rwa [List.map_append, List.map_map, List.map_map] at this

theorem gives_of (he : EnvOK env) (hsl : env.LowerSlash) (hok : HistOK env h) (hs : run env root h = some s)
    (hac : Acyclic env (latest h)) (last : Imports.Table) (st)
    (hst : ∀ u a c name, Resolving (worldOf env s) (st u a c name)) (o : Infer.Outside)
    (hd : Stated env (latest h) last o) :
    ∃ N, ∀ n ni, N ≤ n → N ≤ ni → Infer.Gives (resolvedIn env s last n ni st) o := by
  obtain ⟨N, hN⟩ := searches_end he hsl hok hs hac
  refine ⟨N, fun n ni hn hni => ?_⟩
  obtain ⟨pend, cend⟩ := hN n ni hn hni
  constructor
  · intro name t ht
    obtain ⟨g, h1, h2, h3⟩ := hd.globals _ _ ht
    exact ⟨_, List.mem_map_of_mem ((mem_globals he hok hs _ _).mpr ⟨h1, h2⟩), h3⟩
  · intro name t ht
    exact (functions_in he hok hs last n ni st name t).mpr (hd.functions _ _ ht)
  · intro a c name t ht
    obtain ⟨p, h1, hb, h2⟩ := hd.props _ _ _ _ _ ht
    obtain ⟨fs, hfs⟩ := pend (MemberUse.reduce .prop a.here (accessOf a)) name c (st .prop a c name)
    simp only [resolvedIn, hfs, Option.getD_some]
    exact props_has he hsl hok hs .prop rfl a.here (accessOf a) n ni name c h1 (fun _ => inherited_of (k := .props) rfl s hb)
      (fun h => absurd rfl h.1) _
      (hst _ _ _ _).own fs hfs t h2
  · intro a c name t ht
    obtain ⟨p, h1, hb, h2⟩ := hd.methods _ _ _ _ _ ht
    obtain ⟨fs, hfs⟩ := cend (MemberUse.reduce .method a.here (accessOf a)) name c (st .method a c name)
    simp only [resolvedIn, hfs, Option.getD_some]
    exact methods_has he hsl hok hs .method rfl a.here (accessOf a) n ni name c h1 (fun _ => inherited_of (k := .methods) rfl s hb)
      (fun h => absurd rfl h.2) _
      (hst _ _ _ _).own fs hfs t h2
  · intro a c name t ht
    obtain ⟨p, h1, hb, h2⟩ := hd.staticProps _ _ _ _ _ ht
    obtain ⟨fs, hfs⟩ := pend (MemberUse.reduce .staticProp a.here (accessOf a)) name c (st .staticProp a c name)
    simp only [resolvedIn, hfs, Option.getD_some]
    exact props_has he hsl hok hs .staticProp rfl a.here (accessOf a) n ni name c h1 (fun h => absurd h (by decide))
      (fun _ => inheritedStatic_of (k := .props) rfl s hb) _
      (hst _ _ _ _).own fs hfs t h2
  · intro a c name t ht
    obtain ⟨p, h1, hb, h2⟩ := hd.staticMethods _ _ _ _ _ ht
    obtain ⟨fs, hfs⟩ := cend (MemberUse.reduce .staticMethod a.here (accessOf a)) name c (st .staticMethod a c name)
    simp only [resolvedIn, hfs, Option.getD_some]
    exact methods_has he hsl hok hs .staticMethod rfl a.here (accessOf a) n ni name c h1 (fun h => absurd h (by decide))
      (fun _ => inheritedStatic_of (k := .methods) rfl s hb) _
      (hst _ _ _ _).own fs hfs t h2

/-- C133: and no type is missed that evaluating the program on types yields when calls and accesses have the types that the
current files declare for functions, global variables and the members that the classes declare themselves and that may be
used there (`lo`).
For programs that do not use the value of an assignment, without expressions that may have the same class at two array
depths, and without cycles of classes; with enough rounds for the searches, which then end. -/
theorem C133_known (he : EnvOK env) (hsl : env.LowerSlash) (hok : HistOK env h) (hs : run env root h = some s)
    (ho : OneEach env (latest h)) (hac : Acyclic env (latest h)) (last : Imports.Table) (st)
    (hst : ∀ u a c name, Resolving (worldOf env s) (st u a c name)) (lo : Infer.Outside)
    (hlo : Stated env (latest h) last lo) (cls : Types.Union) (p : Infer.Src) (a b : Pos) (hf : Infer.Fits p a b)
    (hp : Infer.Plain p)
    (hcl : ∀ o, Declared env (latest h) last o → ∀ q ∈ Infer.typesOf o (Infer.kinds cls) true p, Infer.Clean q.2) :
    ∃ N, ∀ n ni, N ≤ n → N ≤ ni →
      List.Forall₂ (fun x y => x.1 = y.1 ∧ ∀ k ∈ y.2, ∃ t ∈ x.2.typesIn (resolvedIn env s last n ni st), Infer.kind t = k)
        (Infer.analyse cls p) (Infer.typesOf lo (Infer.kinds cls) false p) := by
  obtain ⟨o, hd⟩ := declared_exists he hok hs last
  obtain ⟨N, hN⟩ := gives_of he hsl hok hs hac last st hst lo hlo
  exact ⟨N, fun n ni hn hni => Infer.C74_known_partial cls _ o lo
    (covers_of he hsl hok hs ho last n ni st (fun _ _ _ _ => (hst _ _ _ _).reachable) o hd) (hN n ni hn hni) p a b hf hp
    (hcl o hd)⟩

/-- C133: in the code of a class, on an object that is first of all one of that class, a property and a method that the
class declares give their types, be they public or not. -/
theorem C133_object (he : EnvOK env) (hsl : env.LowerSlash) (hok : HistOK env h) (hs : run env root h = some s)
    (hac : Acyclic env (latest h)) (last : Imports.Table) (st)
    (hst : ∀ u a c name, Resolving (worldOf env s) (st u a c name)) :
    ∃ N, ∀ n ni, N ≤ n → N ≤ ni → ∀ (a : Infer.Access) (o : Types.Ty) (os : Types.Union), a.scopeTypes = o :: os → o.fqn = a.here →
      (∀ c name p t, OwnProperty env (latest h) c name p → Gives (.pro p) t →
        ∃ v ∈ (resolvedIn env s last n ni st).props a c name, t ∈ v) ∧
      (∀ c name m t, OwnMethod env (latest h) c name m → Gives (.met m) t →
        ∃ v ∈ (resolvedIn env s last n ni st).methods a c name, t ∈ v) := by
  obtain ⟨N, hN⟩ := searches_end he hsl hok hs hac
  refine ⟨N, fun n ni hn hni a o os ha ho => ?_⟩
  obtain ⟨pend, cend⟩ := hN n ni hn hni
  have hobj : ∃ ts, (accessOf a).types = a.here :: ts := ⟨os.map (·.fqn), by simp [accessOf, ha, ho]⟩
  constructor
  · intro c name p t h1 h2
    obtain ⟨fs, hfs⟩ := pend (MemberUse.reduce .prop a.here (accessOf a)) name c (st .prop a c name)
    simp only [resolvedIn, hfs, Option.getD_some]
    exact props_has he hsl hok hs .prop rfl a.here (accessOf a) n ni name c h1 (fun _ rel => inherited_object hobj rel _)
      (fun h => absurd rfl h.1) _ (hst _ _ _ _).own fs hfs t h2
  · intro c name p t h1 h2
    obtain ⟨fs, hfs⟩ := cend (MemberUse.reduce .method a.here (accessOf a)) name c (st .method a c name)
    simp only [resolvedIn, hfs, Option.getD_some]
    exact methods_has he hsl hok hs .method rfl a.here (accessOf a) n ni name c h1 (fun _ rel => inherited_object hobj rel _)
      (fun h => absurd rfl h.2) _ (hst _ _ _ _).own fs hfs t h2

/-! ### An index, for the examples -/

namespace Demo

open Store.Demo (uA uB)

/-- a method of `Base` that returns a `Base` -/
def next : Method := ⟨Store.Demo.loc uB 4, Store.Demo.loc uB 4, b!"next", [], [Store.Demo.ty b!"Base"], [],
  Store.Demo.ty b!"Base", 0, false, 0, none⟩

/-- a function that returns a `Base` -/
def find : Function := ⟨Store.Demo.loc uB 7, Store.Demo.loc uB 7, Store.Demo.ty b!"find", [], [Store.Demo.ty b!"Base"], [], none⟩

/-- `b.php`: the class `Base`, its method, the function, and a global variable -/
def b5 : Doc where
  uri := uB
  hash := b!"5"
  symbols := [.cla top, .met next, .fn find, Store.Demo.glo uB b!"$g" [Store.Demo.ty b!"Base"]]
  namespaces := []
  refs := []

/-- `a.php` is deleted after it was indexed -/
def typesHist : List HOp := [.upgrade b!"v0.0.16", .index Store.Demo.a1, .restart, .index b5, .delete uA]

theorem b5_ok : DocOK Store.Demo.env b5 where
  uri := Store.Demo.uB_ok
  len := by decide
  syms := by
    have : ∀ x ∈ b5.symbols, x.WF := by
      simp [b5, top, next, find, Store.Demo.glo, Sym.WF, Class.WF, Method.WF, Function.WF, GlobalVariable.WF, Location.WF,
        Store.Demo.loc, uB, Str, Store.Demo.ty, TypeString.WF, Types.WF, ListWF, DeprecatedWF]
    intro x hx
    exact Store.Demo.sym_ok (this x hx) ((by decide +kernel : ∀ x ∈ b5.symbols, ∀ n ∈ x.names, sep ∉ n) x hx)
      ((by decide +kernel : ∀ x ∈ b5.symbols, x.location.uri = uB) x hx)
      ((by decide +kernel : ∀ x ∈ b5.symbols, (x.key Store.Demo.env).length < 1000) x hx)
  refsLen := by decide
  refs := by simp [b5]

theorem typesHist_ok : HistOK Store.Demo.env typesHist where
  docs := by
    rw [show docs typesHist = [Store.Demo.a1, b5] from rfl]
    simp [Store.Demo.a1_ok, b5_ok]
  consts := by
    intro d1 h1 d2 h2 c1 c2 m1 m2 _ _
    rw [show docs typesHist = [Store.Demo.a1, b5] from rfl] at h1 h2
    simp only [List.mem_cons, List.not_mem_nil, or_false] at h1 h2
    rcases h1 with rfl | rfl <;> rcases h2 with rfl | rfl <;>
      first
        | rfl
        | (simp [Store.Demo.a1, b5, Store.Demo.cla, Store.Demo.met, Store.Demo.pro, Store.Demo.fn, Store.Demo.glo,
            Store.Demo.claCon] at m1 m2; done)
        | (simp [Store.Demo.a1, b5, Store.Demo.cla, Store.Demo.met, Store.Demo.pro, Store.Demo.fn, Store.Demo.glo,
            Store.Demo.claCon] at m1 m2; subst m1; subst m2; simp_all)
  crashes := by simp [Store.Keeps, typesHist]

theorem types_mem {x : Sym} (hx : Live Store.Demo.env (latest typesHist) x) : x ∈ b5.symbols := by
  obtain ⟨u, d, pre, post, hu, hd, -⟩ := hx
  have : d = b5 := by
    simp only [latest, typesHist, List.foldl_cons, List.foldl_nil, latestStep] at hu
    split at hu
    · cases hu
    · split at hu
      · exact (Option.some.inj hu).symm
      · rename_i h1 h2
        rw [if_neg (show ¬ u = Store.Demo.a1.uri from h1)] at hu
        cases hu
  subst this
  rw [hd]; simp

theorem types_live {x : Sym} (hx : x ∈ b5.symbols) : Live Store.Demo.env (latest typesHist) x := by
  have e : latest typesHist uB = some b5 := by decide +kernel
  have no : ∀ y ∈ b5.symbols, y.Indexed := by
    simp [b5, Store.Demo.glo, Sym.Indexed, typesEmpty, Store.Demo.ty]
  simp only [b5, List.mem_cons, List.not_mem_nil, or_false] at hx
  rcases hx with rfl | rfl | rfl | rfl
  · exact ⟨uB, b5, [], _, e, rfl, no _ (by simp [b5]), by simp [SameDecl, Sym.kind, Store.Demo.glo]⟩
  · exact ⟨uB, b5, [_], _, e, rfl, no _ (by simp [b5]), by simp [SameDecl, Sym.kind, Store.Demo.glo]⟩
  · exact ⟨uB, b5, [_, _], _, e, rfl, no _ (by simp [b5]), by simp [SameDecl, Sym.kind, Store.Demo.glo]⟩
  · exact ⟨uB, b5, [_, _, _], _, e, rfl, no _ (by simp [b5]), by simp⟩

theorem types_cla {c : Class} (hc : Live Store.Demo.env (latest typesHist) (.cla c)) : c = top := by
  have := types_mem hc
  simpa [b5, Store.Demo.glo] using this

theorem types_each : OneEach Store.Demo.env (latest typesHist) where
  classes c d hc hd _ := by rw [types_cla hc, types_cla hd]
  interfaces c _ hc := by
    have := types_mem hc
    simp [b5, Store.Demo.glo] at this

theorem types_acyclic : Acyclic Store.Demo.env (latest typesHist) := by
  intro c hc h
  cases types_cla hc
  rcases Relation.TransGen.head'_iff.mp h with ⟨d, hd, -⟩
  exact absurd rfl hd.1

/-- The type that the declarations of `b.php` give. -/
def tyBase : Types.Ty := ⟨b!"\\Base", b!"Base", 0⟩

theorem types_gives {x : Sym} (hx : Live Store.Demo.env (latest typesHist) x) {t : Types.Ty} (ht : Gives x t) : t = tyBase := by
  have := types_mem hx
  simp only [b5, List.mem_cons, List.not_mem_nil, or_false] at this
  rcases this with rfl | rfl | rfl | rfl
  · exact ht.elim
  all_goals exact List.mem_singleton.mp ht

/-- What the example knows. -/
def typesIndex : Infer.Outside where
  globals n := if n = b!"$g" then [tyBase] else []
  functions n := if n = b!"find" then [tyBase] else []
  props _ _ _ _ := []
  methods _ _ c n := if c = b!"\\Base" ∧ n = b!"next" then [tyBase] else []
  staticProps _ _ _ _ := []
  staticMethods _ _ _ _ := []

theorem types_stated : Stated Store.Demo.env (latest typesHist) (Imports.newTable ⟨0, 0⟩) typesIndex where
  globals n t ht := by
    simp only [typesIndex] at ht
    split at ht
    · rename_i e
      subst e
      rw [List.mem_singleton.mp ht]
      exact ⟨_, types_live (x := Store.Demo.glo uB b!"$g" [Store.Demo.ty b!"Base"]) (by simp [b5]), rfl, List.mem_singleton.mpr rfl⟩
    · cases ht
  functions n t ht := by
    simp only [typesIndex] at ht
    split at ht
    · rename_i e
      subst e
      rw [List.mem_singleton.mp ht]
      refine ⟨find, types_live (by simp [b5]), ⟨⟨b!"find", b!"find", 0⟩, by decide +kernel, ?_⟩, List.mem_singleton.mpr rfl⟩
      have gen : ∀ b : Bool, (if b then b!"\\find" else b!"\\find") = b!"\\find" := by decide +kernel
      exact gen _
    · cases ht
  props _ _ _ _ _ ht := by cases ht
  methods a b c n t ht := by
    simp only [typesIndex] at ht
    split at ht
    · rename_i e
      obtain ⟨rfl, rfl⟩ := e
      rw [List.mem_singleton.mp ht]
      refine ⟨next, ⟨by decide, types_live (by simp [b5]), rfl,
        ⟨top, types_live (by simp [b5]), (classFQNLower_eq_iff Store.Demo.lower_slash _ _).mp rfl, rfl⟩, ?_⟩, .inl (by simp [Public, Protected, Private, next]), List.mem_singleton.mpr rfl⟩
      intro q hq _ _
      have := types_mem hq
      simpa [b5, Store.Demo.glo] using this
    · cases ht
  staticProps _ _ _ _ _ ht := by cases ht
  staticMethods _ _ _ _ _ ht := by cases ht

/-- `$x = find(); $x->next(); $g` -/
def typesSrc : Infer.Src :=
  .both (.assign b!"$x" (Infer.cols 0 2) [] (.call (Infer.cols 5 11) b!"find" .skip .skip) ⟨0, 11⟩)
    (.both (.method (Infer.cols 13 23) [] (.var b!"$x" (Infer.cols 13 15) []) b!"next" .skip) (.var b!"$g" (Infer.cols 25 27) []))

end Demo

/-- Non-vacuity: the conditions hold of a history and a program, and what the program says with the declarations of the
current files is that `$x`, what `next` returns and `$g` are objects of `Base`. -/
example : HistOK Store.Demo.env Demo.typesHist ∧ OneEach Store.Demo.env (latest Demo.typesHist) ∧
    Acyclic Store.Demo.env (latest Demo.typesHist) ∧
    Stated Store.Demo.env (latest Demo.typesHist) (Imports.newTable ⟨0, 0⟩) Demo.typesIndex ∧
    Infer.Fits Demo.typesSrc ⟨0, 0⟩ ⟨0, 27⟩ ∧ Infer.Plain Demo.typesSrc ∧
    (∀ o, Declared Store.Demo.env (latest Demo.typesHist) (Imports.newTable ⟨0, 0⟩) o →
      ∀ q ∈ Infer.typesOf o (Infer.kinds []) true Demo.typesSrc, Infer.Clean q.2) ∧
    (Infer.typesOf Demo.typesIndex (Infer.kinds []) false Demo.typesSrc).map (fun x => (x.1.start.character, x.2)) =
      [(5, [(b!"\\Base", 0)]), (0, [(b!"\\Base", 0)]), (13, [(b!"\\Base", 0)]), (13, [(b!"\\Base", 0)]), (25, [(b!"\\Base", 0)])] ∧
    ∃ s, run Store.Demo.env Store.Demo.root Demo.typesHist = some s ∧
      (Infer.analyse [] Demo.typesSrc).map (fun x => (x.1.start.character, Infer.kinds (x.2.typesIn
        (resolvedIn Store.Demo.env s (Imports.newTable ⟨0, 0⟩) 9 9 fun _ _ _ _ => St.new)))) =
      [(5, [(b!"\\Base", 0)]), (0, [(b!"\\Base", 0)]), (13, [(b!"\\Base", 0)]), (13, [(b!"\\Base", 0)]), (25, [(b!"\\Base", 0)])] := by
  refine ⟨Demo.typesHist_ok, Demo.types_each, Demo.types_acyclic, Demo.types_stated, ?_, ?_, ?_, by decide +kernel,
    Store.Demo.observe _ _ (by decide +kernel)⟩
  · refine ⟨⟨0, 11⟩, ⟨by place, by place, ⟨⟨0, 8⟩, by place, by place⟩, by place⟩, ⟨0, 24⟩, ⟨⟨0, 15⟩, by place, by place⟩, by place⟩
  · simp [Demo.typesSrc, Infer.Plain, Infer.Src.isAssignment]
  · intro o ho q hq
    have hf : ∀ n, ∀ t ∈ o.functions n, t = Demo.tyBase := fun n t ht => by
      obtain ⟨f, h1, -, h2⟩ := (ho.functions n t).mp ht; exact Demo.types_gives h1 h2
    have hg : ∀ n, ∀ t ∈ o.globals n, t = Demo.tyBase := fun n t ht => by
      obtain ⟨f, h1, -, h2⟩ := (ho.globals n t).mp ht; exact Demo.types_gives h1 h2
    have hm : ∀ a b c n, ∀ t ∈ o.methods a b c n, t = Demo.tyBase := fun a b c n t ht => by
      obtain ⟨f, h1, -, -, h2⟩ := (ho.methods a b c n t).mp ht; exact Demo.types_gives h1 h2
    have key : ∀ k ∈ q.2, k = Infer.kind Demo.tyBase := by
      intro k hk
      have ret : ∀ (on : List Infer.Kind) a b c n, ∀ k ∈ Infer.returned on (o.methods a b c n), k = Infer.kind Demo.tyBase := by
        intro on a b c n k hk
        obtain ⟨t, ht, hk⟩ := List.mem_flatMap.mp hk
        rw [hm _ _ _ _ t ht] at hk
        exact List.mem_singleton.mp hk
      have fn : ∀ n, ∀ k ∈ (o.functions n).map Infer.kind, k = Infer.kind Demo.tyBase := by
        intro n k hk
        obtain ⟨t, ht, rfl⟩ := List.mem_map.mp hk
        rw [hf n t ht]
      have gl : ∀ n, ∀ k ∈ (o.globals n).map Infer.kind, k = Infer.kind Demo.tyBase := by
        intro n k hk
        obtain ⟨t, ht, rfl⟩ := List.mem_map.mp hk
        rw [hg n t ht]
      have e1 : (b!"$x" = b!"$this") = False := by simp
      have e2 : (b!"$g" = b!"$this") = False := by simp
      have e3 : (b!"$g" = b!"$x") = False := by simp
      simp only [Infer.typesOf, Demo.typesSrc, Infer.eval, Infer.look, Infer.fromGlobal, Infer.Env.put, Infer.kinds, e1, e2, e3,
        if_true, if_false, List.map_nil, List.append_nil, List.nil_append, List.mem_append, List.mem_cons, List.not_mem_nil,
        or_false] at hq
      rcases hq with (rfl | rfl) | (rfl | rfl) | rfl
      · exact fn _ k hk
      · exact (List.mem_append.mp hk).elim (fn _ k) (gl _ k)
      · exact (List.mem_append.mp hk).elim (fn _ k) (gl _ k)
      · obtain ⟨j, -, hk⟩ := List.mem_flatMap.mp hk
        exact ret _ _ _ _ _ k hk
      · exact gl _ k hk
    intro a ha b hb _
    rw [key a ha, key b hb]

namespace Demo

open Store.Demo (uB)

/-- a private property of `Base`, which is a `Base` -/
def prev : Property := ⟨Store.Demo.loc uB 4, Store.Demo.loc uB 4, [], none, b!"$prev", Store.Demo.ty b!"Base", 2, false,
  [Store.Demo.ty b!"Base"]⟩

def b6 : Doc where
  uri := uB
  hash := b!"6"
  symbols := [.cla top, .pro prev]
  namespaces := []
  refs := []

def privateHist : List HOp := [.upgrade b!"v0.0.16", .index b6]

theorem private_mem {x : Sym} (hx : Live Store.Demo.env (latest privateHist) x) : x ∈ b6.symbols := by
  obtain ⟨u, d, pre, post, hu, hd, -⟩ := hx
  simp only [latest, privateHist, List.foldl_cons, List.foldl_nil, latestStep] at hu
  split at hu
  · cases hu; rw [hd]; simp
  · cases hu

theorem private_live : Live Store.Demo.env (latest privateHist) (.cla top) ∧ Live Store.Demo.env (latest privateHist) (.pro prev) := by
  have e : latest privateHist uB = some b6 := by decide +kernel
  exact ⟨⟨uB, b6, [], _, e, rfl, by simp [Sym.Indexed], by simp [SameDecl, Sym.kind]⟩,
    ⟨uB, b6, [_], _, e, rfl, by simp [Sym.Indexed, typesEmpty, prev, Store.Demo.ty], by simp⟩⟩

end Demo

/-- C133_object, `ByArrow`: a private property of `Base` may be used with `$this` in `Base`, and on other objects of that class.
It gives its type there, and nothing in other classes. -/
example : OwnProperty Store.Demo.env (latest Demo.privateHist) b!"\\Base" b!"$prev" Demo.prev ∧
    ByArrow b!"\\Base" b!"$this" Demo.prev.scope.fqn (.pro Demo.prev) ∧ Private (.pro Demo.prev) ∧
    Gives (.pro Demo.prev) Demo.tyBase ∧
    ∃ s, run Store.Demo.env Store.Demo.root Demo.privateHist = some s ∧
      [b!"\\Base", b!"\\Other"].map (fun here => (resolvedIn Store.Demo.env s (Imports.newTable ⟨0, 0⟩) 9 9 fun _ _ _ _ => St.new).props
        ⟨here, b!"$x", [Demo.tyBase]⟩ b!"\\Base" b!"$prev") = [[[Demo.tyBase]], []] := by
  refine ⟨⟨by decide, Demo.private_live.2, rfl, ⟨Demo.top, Demo.private_live.1,
    (classFQNLower_eq_iff Store.Demo.lower_slash _ _).mp rfl, rfl⟩, ?_⟩, .inr ⟨rfl, .inl rfl⟩, rfl, List.mem_singleton.mpr rfl,
    Store.Demo.observe _ _ (by decide +kernel)⟩
  intro q hq _ _
  have := Demo.private_mem hq
  simpa [Demo.b6] using this

end Verif.Whole
