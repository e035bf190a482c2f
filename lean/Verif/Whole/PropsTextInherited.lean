import Verif.Whole.PropsTextStatic
import Verif.Query.Lineage
import Verif.Whole.PropsMembers

/-! C150: the types of inherited members, from the text of the declarations. -/

namespace Verif.Whole

open Verif.Encoding Verif.Storage Verif.Store Verif.Query
open Verif.Analyser (Node PType TokType Tok)
open Verif.Decl (OnlyPhrase OnlyToken DocApplies VarDocumented AssignedType PropEvent)

variable {env : Env} {root : Bytes} {h : List HOp} {s : Store}

/-! ### Specification -/

/-- No class is called like an interface. -/
def ClassesApart (env : Env) (L : Bytes → Option Doc) : Prop :=
  ∀ d, Live env L (.cla d) → ∀ i, Live env L (.int i) → ¬ SameClassName env d.name.fqn i.name.fqn

/-- `p` is the property `n` of the class `c`: this class or one that it extends, directly or not, declares it, and nothing
from which the class has members declares another one of that name. -/
structure SomeProperty (env : Env) (L : Bytes → Option Doc) (c n : Bytes) (p : Property) : Prop where
  named : n ≠ []
  live : Live env L (.pro p)
  name : p.name = n
  above : ∃ d e, Live env L (.cla d) ∧ SameClassName env d.name.fqn c ∧ Above env L d e ∧ p.scope.fqn = e.name.fqn
  only : ∀ q, Live env L (.pro q) → FromClass env L c q.scope.fqn → q.name = n → q = p

/-- `m` is the method `n` of the class `c`: this class, one that it extends, directly or not, or a trait that one of them uses
declares it, and nothing from which the class has members declares another one of that name, in whatever case. -/
structure SomeMethod (env : Env) (L : Bytes → Option Doc) (c n : Bytes) (m : Method) : Prop where
  named : n ≠ []
  live : Live env L (.met m)
  name : env.lower m.name = env.lower n
  above : ∃ d e, Live env L (.cla d) ∧ SameClassName env d.name.fqn c ∧ Above env L d e ∧ Own env L e (.met m)
  only : ∀ q, Live env L (.met q) → (FromClass env L c q.scope.fqn ∨ FromInterface env L c q.scope.fqn) →
    env.lower q.name = env.lower n → q = m

/-! ### What the index answers -/

/-- A member is found if the search of the class comes upon it and upon nothing else. -/
theorem sole_found (he : EnvOK env) (hok : HistOK env h) (hs : run env root h = some s) (u : MemberUse) (cur : Bytes)
    (a : Query.Access) {x : Sym} (hx : Live env (latest h) x) (hk : kindOf x = some u.kind) (m : Inherited) (hne : m.members ≠ [])
    (hall : ∀ f ∈ m.members, f.member = memberOf s x.stored)
    (hin1 : (u = .prop ∨ u = .method) → ∀ rel, isInherited cur a rel (memberOf s x.stored) = true)
    (hin2 : (u ≠ .prop ∧ u ≠ .method) → ∀ rel, isInheritedStatic cur a rel (memberOf s x.stored) = true)
    {fs : List Found} (hfs : ∀ f ∈ u.reduce cur a m, f ∈ fs) {v : Types.Union} (hv : typesOfMember x.stored = some v) :
    v ∈ memberTypes s fs := by
  cases hm : m.members with
  | nil => exact absurd hm hne
  | cons f rest =>
    have hf : f.member = memberOf s x.stored := hall f (by rw [hm]; simp)
    obtain ⟨g, hg, hgm⟩ := reduce_head u cur a m f rest hm (fun h => by rw [hf]; exact hin1 h _) (fun h => by rw [hf]; exact hin2 h _)
    refine List.mem_filterMap.mpr ⟨g, hfs g hg, ?_⟩
    rw [hgm, hf, memberOf_decl hk, get_num_live he hok hs hx (kindOf_nog hk), Option.bind_some, hv]

theorem some_property_found (he : EnvOK env) (hsl : env.LowerSlash) (hok : HistOK env h) (hs : run env root h = some s)
    (ho : OneEach env (latest h)) (hap : ClassesApart env (latest h)) (u : MemberUse) (hu : u.kind = .props) (cur : Bytes)
    (a : Query.Access) (n ni : Nat) (name t : Bytes) {p : Property} (hp : SomeProperty env (latest h) t name p)
    (hin1 : (u = .prop ∨ u = .method) → ∀ rel, isInherited cur a rel (memberOf s (Sym.stored (.pro p))) = true)
    (hin2 : (u ≠ .prop ∧ u ≠ .method) → ∀ rel, isInheritedStatic cur a rel (memberOf s (Sym.stored (.pro p))) = true)
    (st : St) (hst : Resolving (worldOf env s) st) (fs : List Found)
    (hfs : callLoop (u.reduce cur a) (propLookups (worldOf env s) n ni name t) st = some fs)
    (ty : Types.Ty) (hty : Gives (.pro p) ty) : ∃ v ∈ memberTypes s fs, ty ∈ v := by
  have hw := distinct he hsl hok hs ho
  have ha := apart_of he hsl hok hs hap
  obtain ⟨d, e, hd, hdn, hab, hsc⟩ := hp.above
  have hc : clsOf s d ∈ (worldOf env s).classesNamed t :=
    (mem_classesNamed _ _ _).mpr ⟨(mem_classes he hok hs _).mpr ⟨d, hd, rfl⟩, (key_iff hsl _ _).mpr hdn⟩
  obtain ⟨st', r, h1, h2, h3⟩ := callLoop_has (P := Resolving (worldOf env s)) _ _ (by
    intro l hl st r hP hr
    obtain ⟨c, hc, rfl⟩ := List.mem_map.mp hl
    exact .plain hP (by decide) ((mem_classesNamed _ _ _).mp hc).1 hr) st hst fs hfs _ (List.mem_map_of_mem hc)
  have hmem : memberOf s (Sym.stored (.pro p)) ∈ (worldOf env s).members .props (clsOf s e).name name :=
    (mem_props he hok hs hp.named _).mpr ⟨p, hp.live, ⟨hsc, hp.name⟩, rfl⟩
  have hin := (getClassPlain_all hw ha ((mem_classesNamed _ _ _).mp hc).1 (h1.plain_inv hw ha (by decide)) h2).2 _
    (ancestor_of he hsl hok hs hab) _ (List.mem_map_of_mem hmem)
  refine ⟨_, sole_found he hok hs u cur a hp.live (by rw [hu]; rfl) r.1 (List.ne_nil_of_mem hin) ?_ hin1 hin2 h3 rfl, hty⟩
  intro f hf
  obtain ⟨x, k1, k2, k3, k4, k5⟩ := fromCls_live he hsl hok hs (by decide) hc
    ((getClassPlain_ok _ hw .props n ni _ ((mem_classesNamed _ _ _).mp hc).1 name none st' (h1.reachable.cacheOk hw) r h2).2 f hf)
  cases x with
  | pro q => rw [← k3, hp.only q k1 k4 (k5 hp.named)]
  | _ => cases k2

/-- The types of an inherited property are exactly those that are stored for it, after `->` and after `::`. -/
theorem some_property_types (he : EnvOK env) (hsl : env.LowerSlash) (hok : HistOK env h) (hs : run env root h = some s)
    (ho : OneEach env (latest h)) (hac : Acyclic env (latest h)) (hap : ClassesApart env (latest h)) (last : Imports.Table) (st)
    (hst : ∀ u a c name, Resolving (worldOf env s) (st u a c name)) (p : Property) :
    ∃ N, ∀ n ni, N ≤ n → N ≤ ni → ∀ (a : Infer.Access) (c name q : Bytes), SomeProperty env (latest h) c name p →
      (MayUse a p.scope.fqn (.pro p) →
        (NameFound ((resolvedIn env s last n ni st).props a c name) q ↔ q ∈ (p.types.map Show.ofType).map Types.Ty.fqn)) ∧
      (ByScope a.here a.scopeName p.scope.fqn (.pro p) →
        (NameFound ((resolvedIn env s last n ni st).staticProps a c name) q ↔
          q ∈ (p.types.map Show.ofType).map Types.Ty.fqn)) := by
  obtain ⟨o, hd⟩ := declared_exists he hok hs last
  obtain ⟨N, hN⟩ := searches_end he hsl hok hs hac
  refine ⟨N, fun n ni hn hni a c name q hp => ?_⟩
  obtain ⟨pend, -⟩ := hN n ni hn hni
  have hcov := covers_of he hsl hok hs ho last n ni st (fun _ _ _ _ => (hst _ _ _ _).reachable) o hd
  refine ⟨fun hu => ⟨?_, fun hq => ?_⟩, fun hu => ⟨?_, fun hq => ?_⟩⟩
  · rintro ⟨u, hu, hq⟩
    obtain ⟨t, ht, rfl⟩ := List.mem_map.mp hq
    obtain ⟨p', k1, k2, k3, k4⟩ := (hd.props _ _ _ _ _).mp (hcov.props a c name u hu t ht)
    rw [hp.only p' k1 k2 (k3 hp.named)] at k4
    exact List.mem_map_of_mem k4
  · obtain ⟨t, ht, rfl⟩ := List.mem_map.mp hq
    obtain ⟨fs, hfs⟩ := pend (MemberUse.reduce .prop a.here (accessOf a)) name c (st .prop a c name)
    obtain ⟨v, hv, hvt⟩ := some_property_found he hsl hok hs ho hap .prop rfl a.here (accessOf a) n ni name c hp
      (fun _ rel => by
        rcases hu with ⟨x, xs, e1, e2⟩ | hu
        · exact inherited_object ⟨xs.map (·.fqn), by simp [accessOf, e1, e2]⟩ rel _
        · exact inherited_of (k := .props) rfl s hu rel)
      (fun h => absurd rfl h.1) _ (hst _ _ _ _) fs hfs t ht
    exact ⟨v, by simp only [resolvedIn, hfs, Option.getD_some]; exact hv, List.mem_map_of_mem hvt⟩
  · rintro ⟨u, hu, hq⟩
    obtain ⟨t, ht, rfl⟩ := List.mem_map.mp hq
    obtain ⟨p', k1, k2, k3, -, k4⟩ := (hd.staticProps _ _ _ _ _).mp (hcov.staticProps a c name u hu t ht)
    rw [hp.only p' k1 k2 (k3 hp.named)] at k4
    exact List.mem_map_of_mem k4
  · obtain ⟨t, ht, rfl⟩ := List.mem_map.mp hq
    obtain ⟨fs, hfs⟩ := pend (MemberUse.reduce .staticProp a.here (accessOf a)) name c (st .staticProp a c name)
    obtain ⟨v, hv, hvt⟩ := some_property_found he hsl hok hs ho hap .staticProp rfl a.here (accessOf a) n ni name c hp
      (fun h => by rcases h with h | h <;> cases h)
      (fun _ rel => inheritedStatic_of (k := .props) rfl s hu rel) _ (hst _ _ _ _) fs hfs t ht
    exact ⟨v, by simp only [resolvedIn, hfs, Option.getD_some]; exact hv, List.mem_map_of_mem hvt⟩

theorem some_method_found (he : EnvOK env) (hsl : env.LowerSlash) (hok : HistOK env h) (hs : run env root h = some s)
    (ho : OneEach env (latest h)) (hap : ClassesApart env (latest h)) (u : MemberUse) (hu : u.kind = .methods) (cur : Bytes)
    (a : Query.Access) (n ni : Nat) (name t : Bytes) {p : Method} (hp : SomeMethod env (latest h) t name p)
    (hin1 : (u = .prop ∨ u = .method) → ∀ rel, isInherited cur a rel (memberOf s (Sym.stored (.met p))) = true)
    (hin2 : (u ≠ .prop ∧ u ≠ .method) → ∀ rel, isInheritedStatic cur a rel (memberOf s (Sym.stored (.met p))) = true)
    (fs : List Found)
    (hfs : callLoop (u.reduce cur a) (callLookups (worldOf env s) n ni name t) St.new = some fs)
    (ty : Types.Ty) (hty : Gives (.met p) ty) : ∃ v ∈ memberTypes s fs, ty ∈ v := by
  have hw := distinct he hsl hok hs ho
  have ha := apart_of he hsl hok hs hap
  obtain ⟨d, e, hd, hdn, hab, hown⟩ := hp.above
  have hc : clsOf s d ∈ (worldOf env s).classesNamed t :=
    (mem_classesNamed _ _ _).mpr ⟨(mem_classes he hok hs _).mpr ⟨d, hd, rfl⟩, (key_iff hsl _ _).mpr hdn⟩
  have hone : (worldOf env s).classesNamed t = [clsOf s d] := by
    rcases classesNamed_cases (worldOf env s) hw t with h0 | ⟨x, h0⟩
    · rw [h0] at hc; cases hc
    · rw [h0] at hc ⊢
      rw [List.mem_singleton.mp hc]
  have hcl := ((mem_classesNamed _ _ _).mp hc).1
  simp only [callLookups, hone, List.map_cons, List.map_nil, List.singleton_append, callLoop] at hfs
  split at hfs
  · cases hfs
  · rename_i r st' hr
    obtain ⟨gs, -, rfl⟩ := Option.map_eq_some_iff.mp hfs
    obtain ⟨l, I, hl, hm, -⟩ := C30_order _ hw ha _ hcl name n ni _ hr
    have hel : clsOf s e ∈ l := (lineage_ancestor hw hl _).mpr (ancestor_of he hsl hok hs hab)
    have hmem : ∀ scope, p.scope.fqn = scope → memberOf s (Sym.stored (.met p)) ∈ (worldOf env s).members .methods scope name :=
      fun scope hsc => (mem_methods he hok hs hp.named _).mpr ⟨p, hp.live, ⟨hsc, hp.name⟩, rfl⟩
    have hne : r.members ≠ [] := by
      simp only at hm
      rw [hm]
      rcases hown with hsc | ⟨-, tr, h1, ⟨x, hx, hxn⟩, h3, h4⟩
      · exact List.ne_nil_of_mem (List.mem_append_left _ (List.mem_flatMap.mpr ⟨_, hel, List.mem_append_left _
          (List.mem_map_of_mem (hmem (clsOf s e).name hsc))⟩))
      · exact List.ne_nil_of_mem (List.mem_append_left _ (List.mem_flatMap.mpr ⟨_, hel, List.mem_append_right _
          (List.mem_flatMap.mpr ⟨trtOf s tr, (mem_used _ _ _).mpr ⟨List.mem_map.mpr ⟨x, hx, hxn⟩, h3, (mem_traits he hok hs _).mpr ⟨tr, h1, rfl⟩⟩,
            List.mem_map_of_mem (hmem _ h4)⟩)⟩))
    refine ⟨_, sole_found he hok hs u cur a hp.live (by rw [hu]; rfl) r hne ?_ hin1 hin2
      (fun f hf => List.mem_append_left _ hf) rfl, hty⟩
    intro f hf
    obtain ⟨x, k1, k2, k3, k4, k5⟩ := fromCls_live he hsl hok hs (by decide) hc
      ((getClassMethods_ok _ hw n ni _ hcl name none St.new (Reachable.new.cacheOk hw) _ hr).2 f hf)
    cases x with
    | met q => rw [← k3, hp.only q k1 (.inl k4) (k5 hp.named)]
    | _ => cases k2

/-- The types of a call of an inherited method are exactly those that are stored for it, if nothing was asked before. -/
theorem some_method_types (he : EnvOK env) (hsl : env.LowerSlash) (hok : HistOK env h) (hs : run env root h = some s)
    (ho : OneEach env (latest h)) (hac : Acyclic env (latest h)) (hap : ClassesApart env (latest h)) (last : Imports.Table)
    (m : Method) :
    ∃ N, ∀ n ni, N ≤ n → N ≤ ni → ∀ (a : Infer.Access) (c name q : Bytes), SomeMethod env (latest h) c name m →
      (MayUse a m.scope.fqn (.met m) →
        (NameFound ((resolvedIn env s last n ni fun _ _ _ _ => St.new).methods a c name) q ↔
          q ∈ (m.returnTypes.map Show.ofType).map Types.Ty.fqn)) ∧
      (ByScope a.here a.scopeName m.scope.fqn (.met m) →
        (NameFound ((resolvedIn env s last n ni fun _ _ _ _ => St.new).staticMethods a c name) q ↔
          q ∈ (m.returnTypes.map Show.ofType).map Types.Ty.fqn)) := by
  obtain ⟨o, hd⟩ := declared_exists he hok hs last
  obtain ⟨N, hN⟩ := searches_end he hsl hok hs hac
  refine ⟨N, fun n ni hn hni a c name q hp => ?_⟩
  obtain ⟨-, pend⟩ := hN n ni hn hni
  have hcov := covers_of he hsl hok hs ho last n ni (fun _ _ _ _ => St.new) (fun _ _ _ _ => .new) o hd
  refine ⟨fun hu => ⟨?_, fun hq => ?_⟩, fun hu => ⟨?_, fun hq => ?_⟩⟩
  · rintro ⟨u, hu, hq⟩
    obtain ⟨t, ht, rfl⟩ := List.mem_map.mp hq
    obtain ⟨p', k1, k2, k3, k4⟩ := (hd.methods _ _ _ _ _).mp (hcov.methods a c name u hu t ht)
    rw [hp.only p' k1 k2 (k3 hp.named)] at k4
    exact List.mem_map_of_mem k4
  · obtain ⟨t, ht, rfl⟩ := List.mem_map.mp hq
    obtain ⟨fs, hfs⟩ := pend (MemberUse.reduce .method a.here (accessOf a)) name c St.new
    obtain ⟨v, hv, hvt⟩ := some_method_found he hsl hok hs ho hap .method rfl a.here (accessOf a) n ni name c hp
      (fun _ rel => by
        rcases hu with ⟨x, xs, e1, e2⟩ | hu
        · exact inherited_object ⟨xs.map (·.fqn), by simp [accessOf, e1, e2]⟩ rel _
        · exact inherited_of (k := .methods) rfl s hu rel)
      (fun h => absurd rfl h.2) fs hfs t ht
    exact ⟨v, by simp only [resolvedIn, hfs, Option.getD_some]; exact hv, List.mem_map_of_mem hvt⟩
  · rintro ⟨u, hu, hq⟩
    obtain ⟨t, ht, rfl⟩ := List.mem_map.mp hq
    obtain ⟨p', k1, k2, k3, -, k4⟩ := (hd.staticMethods _ _ _ _ _).mp (hcov.staticMethods a c name u hu t ht)
    rw [hp.only p' k1 k2 (k3 hp.named)] at k4
    exact List.mem_map_of_mem k4
  · obtain ⟨t, ht, rfl⟩ := List.mem_map.mp hq
    obtain ⟨fs, hfs⟩ := pend (MemberUse.reduce .staticMethod a.here (accessOf a)) name c St.new
    obtain ⟨v, hv, hvt⟩ := some_method_found he hsl hok hs ho hap .staticMethod rfl a.here (accessOf a) n ni name c hp
      (fun h => by rcases h with h | h <;> cases h)
      (fun _ rel => inheritedStatic_of (k := .methods) rfl s hu rel) fs hfs t ht
    exact ⟨v, by simp only [resolvedIn, hfs, Option.getD_some]; exact hv, List.mem_map_of_mem hvt⟩

/-! ### From the text -/

/-- C150: after any history, and whatever was asked before, an access of a property that the class inherits (or declares) has
exactly the types that the text of the declaring class gives it: those that the first `@var` tag of its doc comment names and
those of what the constructor behind it assigns to `$this->name`. So it is after `->` and after `::`. -/
theorem C150_property (he : EnvOK env) (hsl : env.LowerSlash) (hok : HistOK env h) (hs : run env root h = some s)
    (ho : OneEach env (latest h)) (hac : Acyclic env (latest h)) (hap : ClassesApart env (latest h)) (last : Imports.Table) (st)
    (hst : ∀ u a c name, Resolving (worldOf env s) (st u a c name)) (p : Property)
    (pre b1 b2 post : List PropEvent) (denv : Decl.Env) (m : Decl.Modifiers) (es : List Node) (var : Tok)
    (hname : OnlyToken .variableName es var)
    (hdoc : DocApplies denv (.phr .propertyElement es) none ∨ ∃ d, DocApplies denv (.phr .propertyElement es) (some d))
    (hin : ∀ e ∈ b1 ++ b2, e.isInside) (hw : Decl.NamesWritten b2) (hpost : Decl.NoMoreAssigned post)
    (hfirst : ∀ x ∈ Decl.declaredIn b1, x.name ≠ denv.ctx.tokText var)
    (hrec : ∀ ps r, (Decl.propertiesOf (pre ++ .enter :: (b1 ++ .declare denv m (.phr .propertyElement es) :: b2 ++
      .leave :: post)))[Decl.entered pre]? = some ps → ps[(Decl.declaredIn b1).length]? = some r → SameTypes p.types r.types) :
    ∃ N, ∀ n ni, N ≤ n → N ≤ ni → ∀ (a : Infer.Access) (c q : Bytes), SomeProperty env (latest h) c (denv.ctx.tokText var) p →
      (MayUse a p.scope.fqn (.pro p) →
        (NameFound ((resolvedIn env s last n ni st).props a c (denv.ctx.tokText var)) q ↔
          VarDocumented denv (.phr .propertyElement es) q ∨ AssignedType b2 (denv.ctx.tokText var) q)) ∧
      (ByScope a.here a.scopeName p.scope.fqn (.pro p) →
        (NameFound ((resolvedIn env s last n ni st).staticProps a c (denv.ctx.tokText var)) q ↔
          VarDocumented denv (.phr .propertyElement es) q ∨ AssignedType b2 (denv.ctx.tokText var) q)) := by
  obtain ⟨N, hN⟩ := some_property_types he hsl hok hs ho hac hap last st hst p
  obtain ⟨ps, r, h1, h2, -, -, h3⟩ := Decl.C144_property pre b1 b2 post denv m es var hname hdoc hin hw hpost hfirst
  refine ⟨N, fun n ni hn hni a c q hp => ?_⟩
  obtain ⟨k1, k2⟩ := hN n ni hn hni a c _ q hp
  rw [hrec ps r h1 h2] at k1 k2
  exact ⟨fun hu => (k1 hu).trans (h3 q), fun hu => (k2 hu).trans (h3 q)⟩

/-- C150: after any history, the first question of a request about a call of a method that the class inherits, gets from a trait
or declares gives exactly the types that the `@return` tags of the doc comment of the declaration name. So it is after `->` and
after `::`. -/
theorem C150_method_partial (he : EnvOK env) (hsl : env.LowerSlash) (hok : HistOK env h) (hs : run env root h = some s)
    (ho : OneEach env (latest h)) (hac : Acyclic env (latest h)) (hap : ClassesApart env (latest h)) (last : Imports.Table)
    (m : Method) (denv : Decl.Env) (ks head : List Node) (doc : Option Node)
    (hh : OnlyPhrase .methodDeclarationHeader ks (.phr .methodDeclarationHeader head))
    (hdoc : DocApplies denv (.phr .methodDeclaration ks) doc)
    (hrec : SameTypes m.returnTypes (Decl.newMethod denv (.phr .methodDeclaration ks)).returns) :
    ∃ N, ∀ n ni, N ≤ n → N ≤ ni → ∀ (a : Infer.Access) (c name q : Bytes), SomeMethod env (latest h) c name m →
      (MayUse a m.scope.fqn (.met m) →
        (NameFound ((resolvedIn env s last n ni fun _ _ _ _ => St.new).methods a c name) q ↔ ReturnDocumented denv doc q)) ∧
      (ByScope a.here a.scopeName m.scope.fqn (.met m) →
        (NameFound ((resolvedIn env s last n ni fun _ _ _ _ => St.new).staticMethods a c name) q ↔
          ReturnDocumented denv doc q)) := by
  obtain ⟨N, hN⟩ := some_method_types he hsl hok hs ho hac hap last m
  refine ⟨N, fun n ni hn hni a c name q hp => ?_⟩
  obtain ⟨k1, k2⟩ := hN n ni hn hni a c _ q hp
  rw [hrec] at k1 k2
  have k3 := method_returns denv ks head doc hh hdoc q
  exact ⟨fun hu => (k1 hu).trans k3, fun hu => (k2 hu).trans k3⟩

/-! ### An example -/

namespace Demo

open Store.Demo (uA uB)

/-- `interface I`, `class A implements I`, `class B extends A implements I` in the namespace `App` -/
def inhI : Interface := ⟨Store.Demo.loc uB 0, Store.Demo.loc uB 0, [], none, Store.Demo.ty b!"App\\I", []⟩
def inhA : Class := ⟨Store.Demo.loc uB 1, Store.Demo.loc uB 1, 0, [], Store.Demo.ty b!"App\\A", ⟨[], [], 0⟩,
  [Store.Demo.ty b!"App\\I"], [], none⟩
def inhB : Class := ⟨Store.Demo.loc uB 5, Store.Demo.loc uB 5, 0, [], Store.Demo.ty b!"App\\B", Store.Demo.ty b!"App\\A",
  [Store.Demo.ty b!"App\\I"], [], none⟩
/-- `protected $a` of `A`, which the constructor makes a `Lib\Foo` -/
def inhProp : Property := ⟨Store.Demo.loc uB 2, Store.Demo.loc uB 2, [], none, b!"$a", Store.Demo.ty b!"App\\A", 1, false,
  [⟨b!"\\Lib\\Foo", b!"Foo", 0⟩]⟩

def inhDoc : Doc where
  uri := uB
  hash := b!"9"
  symbols := [.int inhI, .cla inhA, .pro inhProp, .met saidMeth, .cla inhB]
  namespaces := []
  refs := []

def inhHist : List HOp := [.upgrade b!"v0.0.16", .index Store.Demo.a1, .restart, .index inhDoc, .delete uA]

theorem inhDoc_ok : DocOK Store.Demo.env inhDoc where
  uri := Store.Demo.uB_ok
  len := by decide
  syms := by
    have : ∀ x ∈ inhDoc.symbols, x.WF := by
      simp [inhDoc, inhA, inhB, inhI, inhProp, saidMeth, Sym.WF, Class.WF, Interface.WF, Method.WF, Property.WF, Location.WF,
        Store.Demo.loc, uB, Str, Store.Demo.ty, TypeString.WF, Types.WF, ListWF, DeprecatedWF]
    intro x hx
    exact Store.Demo.sym_ok (this x hx) ((by decide +kernel : ∀ x ∈ inhDoc.symbols, ∀ n ∈ x.names, sep ∉ n) x hx)
      ((by decide +kernel : ∀ x ∈ inhDoc.symbols, x.location.uri = uB) x hx)
      ((by decide +kernel : ∀ x ∈ inhDoc.symbols, (x.key Store.Demo.env).length < 1000) x hx)
  refsLen := by decide
  refs := by simp [inhDoc]

theorem inhHist_ok : HistOK Store.Demo.env inhHist where
  docs := by
    rw [show docs inhHist = [Store.Demo.a1, inhDoc] from rfl]
    simp [Store.Demo.a1_ok, inhDoc_ok]
  consts := by
    intro d1 h1 d2 h2 c1 c2 m1 m2 _ _
    rw [show docs inhHist = [Store.Demo.a1, inhDoc] from rfl] at h1 h2
    simp only [List.mem_cons, List.not_mem_nil, or_false] at h1 h2
    rcases h1 with rfl | rfl <;> rcases h2 with rfl | rfl <;>
      first
        | rfl
        | (simp [Store.Demo.a1, inhDoc, Store.Demo.cla, Store.Demo.met, Store.Demo.pro, Store.Demo.fn, Store.Demo.glo,
            Store.Demo.claCon] at m1 m2)
  crashes := by simp [Store.Keeps, inhHist]

theorem inh_mem {x : Sym} (hx : Live Store.Demo.env (latest inhHist) x) : x ∈ inhDoc.symbols := by
  obtain ⟨u, d, pre, post, hu, hd, -⟩ := hx
  have : d = inhDoc := by
    simp only [latest, inhHist, List.foldl_cons, List.foldl_nil, latestStep] at hu
    split at hu
    · cases hu
    · split at hu
      · exact (Option.some.inj hu).symm
      · rename_i h1 h2
        rw [if_neg (show ¬ u = Store.Demo.a1.uri from h1)] at hu
        cases hu
  subst this
  rw [hd]; simp

theorem inh_live {x : Sym} (hx : x ∈ inhDoc.symbols) : Live Store.Demo.env (latest inhHist) x := by
  have e : latest inhHist uB = some inhDoc := by decide +kernel
  have no : ∀ y ∈ inhDoc.symbols, y.Indexed := by
    simp [inhDoc, Sym.Indexed]
  simp only [inhDoc, List.mem_cons, List.not_mem_nil, or_false] at hx
  rcases hx with rfl | rfl | rfl | rfl | rfl
  · exact ⟨uB, inhDoc, [], _, e, rfl, no _ (by simp [inhDoc]), by simp [SameDecl, Sym.kind]⟩
  · exact ⟨uB, inhDoc, [_], _, e, rfl, no _ (by simp [inhDoc]), by
      simp only [List.mem_cons, List.not_mem_nil, or_false, forall_eq_or_imp, forall_eq]
      refine ⟨by simp [SameDecl, Sym.kind], by simp [SameDecl, Sym.kind], ?_⟩
      rintro ⟨-, -, hp, -⟩
      exact absurd hp (by decide +kernel)⟩
  · exact ⟨uB, inhDoc, [_, _], _, e, rfl, no _ (by simp [inhDoc]), by simp [SameDecl, Sym.kind]⟩
  · exact ⟨uB, inhDoc, [_, _, _], _, e, rfl, no _ (by simp [inhDoc]), by simp [SameDecl, Sym.kind]⟩
  · exact ⟨uB, inhDoc, [_, _, _, _], _, e, rfl, no _ (by simp [inhDoc]), by simp⟩

theorem inh_cla {c : Class} (hc : Live Store.Demo.env (latest inhHist) (.cla c)) : c = inhA ∨ c = inhB := by
  simpa [inhDoc] using inh_mem hc

theorem inh_int {c : Interface} (hc : Live Store.Demo.env (latest inhHist) (.int c)) : c = inhI := by
  simpa [inhDoc] using inh_mem hc

theorem inh_pro {p : Property} (hp : Live Store.Demo.env (latest inhHist) (.pro p)) : p = inhProp := by
  simpa [inhDoc] using inh_mem hp

theorem inh_met {p : Method} (hp : Live Store.Demo.env (latest inhHist) (.met p)) : p = saidMeth := by
  simpa [inhDoc] using inh_mem hp

theorem inh_ne {a b : Bytes} (h : classFQNLower Store.Demo.env a ≠ classFQNLower Store.Demo.env b) :
    ¬ SameClassName Store.Demo.env a b := fun e => h ((classFQNLower_eq_iff Store.Demo.lower_slash _ _).mpr e)

theorem inh_each : OneEach Store.Demo.env (latest inhHist) where
  classes c d hc hd hn := by
    rcases inh_cla hc with rfl | rfl <;> rcases inh_cla hd with rfl | rfl
    · rfl
    · exact absurd hn (inh_ne (by decide +kernel))
    · exact absurd hn (inh_ne (by decide +kernel))
    · rfl
  interfaces c d hc hd _ := by rw [inh_int hc, inh_int hd]

theorem inh_acyclic : Acyclic Store.Demo.env (latest inhHist) := by
  have h0 : ∀ d, ¬ Extends Store.Demo.env (latest inhHist) inhA d := fun d hd => absurd rfl hd.1
  intro c hc h
  rcases inh_cla hc with rfl | rfl
  · rcases Relation.TransGen.head'_iff.mp h with ⟨d, hd, -⟩
    exact h0 d hd
  · rcases Relation.TransGen.head'_iff.mp h with ⟨d, hd, hdb⟩
    rcases inh_cla hd.2.1 with rfl | rfl
    · rcases Relation.ReflTransGen.cases_head hdb with e | ⟨x, hx, -⟩
      · exact absurd (congrArg (·.location.range) e) (by decide +kernel)
      · exact h0 x hx
    · exact inh_ne (by decide +kernel) hd.2.2

theorem inh_apart : ClassesApart Store.Demo.env (latest inhHist) := by
  intro d hd i hi
  rw [inh_int hi]
  rcases inh_cla hd with rfl | rfl
  · exact inh_ne (by decide +kernel)
  · exact inh_ne (by decide +kernel)

theorem inh_above : Above Store.Demo.env (latest inhHist) inhB inhA :=
  .parent .self (by decide) (inh_live (by simp [inhDoc])) ((classFQNLower_eq_iff Store.Demo.lower_slash _ _).mp rfl)

/-- The state of a request in which the method `m` of an `A` was asked for. -/
def askedBefore (s : Store) : St :=
  ((getClassMethods (worldOf Store.Demo.env s) 9 9 (clsOf s inhA) b!"m" none St.new).map (·.2)).getD St.new

end Demo

/-- Non-vacuity of C150_property: in `class B extends A`, `$this->a` is the `\Lib\Foo` that the constructor of `A` puts there
(the conditions about the text are those of the example of C149_property). -/
example : HistOK Store.Demo.env Demo.inhHist ∧ OneEach Store.Demo.env (latest Demo.inhHist) ∧
    Acyclic Store.Demo.env (latest Demo.inhHist) ∧ ClassesApart Store.Demo.env (latest Demo.inhHist) ∧
    SomeProperty Store.Demo.env (latest Demo.inhHist) b!"\\App\\B" b!"$a" Demo.inhProp ∧
    MayUse ⟨b!"\\App\\B", b!"$this", []⟩ Demo.inhProp.scope.fqn (.pro Demo.inhProp) ∧
    Demo.inhProp.types = Demo.saidProp.types ∧
    ∃ s, run Store.Demo.env Store.Demo.root Demo.inhHist = some s ∧
      ((resolvedIn Store.Demo.env s (Imports.newTable ⟨0, 0⟩) 9 9 fun _ _ _ _ => Demo.askedBefore s).props
        ⟨b!"\\App\\B", b!"$this", []⟩ b!"\\App\\B" b!"$a").map (·.map Types.Ty.fqn) = [[b!"\\Lib\\Foo"]] := by
  refine ⟨Demo.inhHist_ok, Demo.inh_each, Demo.inh_acyclic, Demo.inh_apart, ⟨by decide, Demo.inh_live (by simp [Demo.inhDoc]), rfl,
    ⟨Demo.inhB, Demo.inhA, Demo.inh_live (by simp [Demo.inhDoc]), (classFQNLower_eq_iff Store.Demo.lower_slash _ _).mp rfl,
      Demo.inh_above, rfl⟩, fun q hq _ _ => Demo.inh_pro hq⟩, .inr (.inr ⟨rfl, .inr (by simp [Private, Demo.inhProp])⟩), rfl,
    Store.Demo.observe _ _ (by decide +kernel)⟩

/-- Non-vacuity of C150_method_partial: `$b->m()` on a `B` is the `\App\Baz` that the doc comment of `m` in `A` names. And what
is missing: if in the same request `$a->m()` on an `A` was asked for before, then `$b->m()` has no type, because of what the
search remembers for the interface that both implement. -/
theorem C150_false_second_question :
    SomeMethod Store.Demo.env (latest Demo.inhHist) b!"\\App\\B" b!"m" Demo.saidMeth ∧
    MayUse ⟨[], b!"$b", []⟩ Demo.saidMeth.scope.fqn (.met Demo.saidMeth) ∧
    ∃ s, run Store.Demo.env Store.Demo.root Demo.inhHist = some s ∧
      ((resolvedIn Store.Demo.env s Decl.senv0.table 9 9 fun _ _ _ _ => St.new).methods ⟨[], b!"$b", []⟩ b!"\\App\\B" b!"m",
       (resolvedIn Store.Demo.env s Decl.senv0.table 9 9 fun _ _ _ _ => Demo.askedBefore s).methods ⟨[], b!"$b", []⟩
         b!"\\App\\B" b!"m") = ([[⟨b!"\\App\\Baz", b!"Baz", 0⟩]], []) := by
  refine ⟨⟨by decide, Demo.inh_live (by simp [Demo.inhDoc]), rfl,
    ⟨Demo.inhB, Demo.inhA, Demo.inh_live (by simp [Demo.inhDoc]), (classFQNLower_eq_iff Store.Demo.lower_slash _ _).mp rfl,
      Demo.inh_above, .inl rfl⟩, fun q hq _ _ => Demo.inh_met hq⟩, .inr (.inl (by simp [Public, Protected, Private, Demo.saidMeth])),
    Store.Demo.observe _ _ (by decide +kernel)⟩

end Verif.Whole
