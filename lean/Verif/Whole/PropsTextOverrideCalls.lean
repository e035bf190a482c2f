import Verif.Whole.PropsTextOverride
import Verif.Whole.PropsTextSignatures

/-! C155 for the signatures and the types of calls of methods that override others. -/

namespace Verif.Whole

open Verif.Encoding Verif.Storage Verif.Store Verif.Query

variable {env : Env} {root : Bytes} {h : List HOp} {s : Store}

/-- The lookups for calls of a method that may override others, whatever was asked before: the method, once for each type. -/
theorem nearest_calls (he : EnvOK env) (hsl : env.LowerSlash) (hok : HistOK env h) (hs : run env root h = some s)
    (ho : OneEach env (latest h)) (hac : Acyclic env (latest h)) (hap : ClassesApart env (latest h)) :
    ∃ N, ∀ name n ni, N ≤ n → N ≤ ni → ∀ (u : MemberUse), u = .method ∨ u = .staticMethod →
      ∀ (a : Access) (cur t : Bytes) (m : Method), NearestMethod env (latest h) t name m → NoInterfaces env (latest h) t →
      (u = .method → ∀ rel, isInherited cur a rel (memberOf s (Sym.stored (.met m))) = true) →
      (u = .staticMethod → ∀ rel, isInheritedStatic cur a rel (memberOf s (Sym.stored (.met m))) = true) →
      ∀ (ts : List Bytes), (∀ y ∈ ts, y = t) → ∀ (st : St), Resolving (worldOf env s) st →
      ∃ l, callLoop (u.reduce cur a) (ts.flatMap (callLookups (worldOf env s) n ni name)) st = some l ∧
        l.map (·.member) = ts.map fun _ => memberOf s (Sym.stored (.met m)) := by
  have hw := distinct he hsl hok hs ho
  obtain ⟨N, hN⟩ := lookups_end (worldOf env s) (noCycle he hsl hok hs hac)
  refine ⟨N, fun name n ni hn hni u hu a cur t m hm hb hin1 hin2 ts => ?_⟩
  obtain ⟨d, e, hd, hdn, hab, hown, hfirst⟩ := hm.above
  have hdw : clsOf s d ∈ (worldOf env s).classes := (mem_classes he hok hs _).mpr ⟨d, hd, rfl⟩
  have hcl : (worldOf env s).classesNamed t = [clsOf s d] := named_single hw hdw ((key_iff hsl _ _).mpr hdn)
  have hi : (worldOf env s).interfacesNamed t = [] := by
    unfold World.interfacesNamed
    rw [List.filter_eq_nil_iff]
    intro i hi hx
    exact apart_of he hsl hok hs hap _ hdw i hi (by rw [of_decide_eq_true hx]; exact (key_iff hsl _ _).mpr hdn)
  induction ts with
  | nil => exact fun _ st _ => ⟨[], rfl, rfl⟩
  | cons y ts ih =>
    intro hts st hst
    have hy : y = t := hts y (by simp)
    subst hy
    obtain ⟨r, -, hr⟩ := (hN name).1 _ hdw none st (by simp)
    have hr : getClassMethods (worldOf env s) n ni (clsOf s d) name none st = some r := hr n ni hn hni
    obtain ⟨l, h1, h2⟩ := ih (fun z hz => hts z (List.mem_cons_of_mem _ hz)) r.2 (.methods hst hdw hr)
    have hlook : callLookups (worldOf env s) n ni name y = [getClassMethods (worldOf env s) n ni (clsOf s d) name] := by
      rw [callLookups, hcl, hi]; rfl
    have hord := (getClassMethods_order hw hdw (hst.reachable.cacheOk hw) (hst.bare_inv hw).trt (hst.order_inv hw) hr).2
      (bare_of he hsl hok hs hb hd hdn)
    have hone : (u.reduce cur a r.1).map (·.member) = [memberOf s (Sym.stored (.met m))] := by
      have key : ∀ fs : List Found, (fs.map fun f => f.member.name).Nodup →
          (∀ f ∈ fs, f.member = memberOf s (Sym.stored (.met m)) ∧ f.scope = (memberOf s (Sym.stored (.met m))).scope) ∧ fs ≠ [] →
          fs.map (·.member) = [memberOf s (Sym.stored (.met m))] := by
        rintro fs hnd ⟨hall, hne⟩
        match fs, hnd, hall, hne with
        | [], _, _, hne => exact absurd rfl hne
        | [f], _, hall, _ => simp [(hall f (by simp)).1]
        | f :: g :: l, hnd, hall, _ =>
          simp [(hall f (by simp)).1, (hall g (by simp)).1] at hnd
      rcases hu with rfl | rfl
      · refine key _ (C32_access r.1 cur a).1 (nearest_reduced he hsl hok hs ho hac hm.named hm.live hm.name hd hab hown hfirst
          r.1.members hord (isInherited cur a r.1.rel) (hin1 rfl _) _ (fun f hf => ?_) (C32_access r.1 cur a).2.2)
        obtain ⟨pre, g, post, k1, k2, k3, -, k5⟩ := (C32_access r.1 cur a).2.1 f hf
        exact ⟨pre, g, post, k1, k2, k3, k5⟩
      · refine key _ (C32_static r.1 cur a).1 (nearest_reduced he hsl hok hs ho hac hm.named hm.live hm.name hd hab hown hfirst
          r.1.members hord (isInheritedStatic cur a r.1.rel) (hin2 rfl _) _ (fun f hf => ?_) (C32_static r.1 cur a).2.2)
        obtain ⟨pre, post, k1, -, k5⟩ := (C32_static r.1 cur a).2.1 f hf
        exact ⟨pre, f, post, k1, rfl, rfl, k5⟩
    refine ⟨u.reduce cur a r.1 ++ l, ?_, ?_⟩
    · rw [List.flatMap_cons, hlook, List.singleton_append, callLoop, hr]
      simp only [h1, Option.map_some]
    · rw [List.map_append, hone, h2]
      rfl

theorem signatures_each (he : EnvOK env) (hok : HistOK env h) (hs : run env root h = some s) {m : Method} (hm : Live env (latest h) (.met m))
    {ts : List Bytes} {l : List Found} (hl : l.map (·.member) = ts.map (fun _ => memberOf s (Sym.stored (.met m)))) :
    (l.filterMap fun f => (decls s)[f.member.decl]?).filterMap signatureOf =
      ts.map fun _ => withoutTexts (Show.methodSignature m) := by
  have hd : l.filterMap (fun f => (decls s)[f.member.decl]?) = (l.map (·.member)).filterMap fun x => (decls s)[x.decl]? := by
    rw [List.filterMap_map]; rfl
  rw [hd, hl]
  clear hd hl
  induction ts with
  | nil => rfl
  | cons y ts ih =>
    rw [List.map_cons, List.filterMap_cons_some (b := Sym.stored (.met m))
      (by rw [memberOf_decl (k := .methods) rfl]; exact get_num_live he hok hs hm (by simp)),
      List.filterMap_cons_some (signatureOf_stored (.met m)), ih]
    rfl

/-- C155: the signatures that are shown for a call of a method are those of the declaration that overrides all others of the name,
once for each type before the operator, whatever was asked before, if neither the class nor a class above it implements an
interface. -/
theorem C155_signatures_partial (he : EnvOK env) (hsl : env.LowerSlash) (hok : HistOK env h) (hs : run env root h = some s)
    (ho : OneEach env (latest h)) (hac : Acyclic env (latest h)) (hap : ClassesApart env (latest h)) :
    ∃ N, ∀ n ni, N ≤ n → N ≤ ni → ∀ (st : St), Resolving (worldOf env s) st → ∀ (a : Access) (name cur t : Bytes) (m : Method),
      (∀ y ∈ a.types, y = t) → NearestMethod env (latest h) t name m → NoInterfaces env (latest h) t →
      (ByArrow cur a.scopeName m.scope.fqn (.met m) →
        signaturesAfter env s n ni st false a name cur = some (a.types.map fun _ => withoutTexts (Show.methodSignature m))) ∧
      (ByScope cur a.scopeName m.scope.fqn (.met m) →
        signaturesAfter env s n ni st true a name cur = some (a.types.map fun _ => withoutTexts (Show.methodSignature m))) := by
  obtain ⟨N, hN⟩ := nearest_calls he hsl hok hs ho hac hap
  refine ⟨N, fun n ni hn hni st hst a name cur t m hts hm hb => ⟨fun hu => ?_, fun hu => ?_⟩⟩
  · obtain ⟨l, h1, h2⟩ := hN name n ni hn hni .method (.inl rfl) a cur t m hm hb
      (fun _ rel => inherited_of (k := .methods) rfl s hu rel) (fun h => by cases h) a.types hts st hst
    rw [signaturesAfter, if_neg (by simp), h1, Option.map_some, signatures_each he hok hs hm.live h2]
  · obtain ⟨l, h1, h2⟩ := hN name n ni hn hni .staticMethod (.inr rfl) a cur t m hm hb (fun h => by cases h)
      (fun _ rel => inheritedStatic_of (k := .methods) rfl s hu rel) a.types hts st hst
    rw [signaturesAfter, if_pos rfl, h1, Option.map_some, signatures_each he hok hs hm.live h2]

theorem types_once (he : EnvOK env) (hok : HistOK env h) (hs : run env root h = some s) {m : Method} (hm : Live env (latest h) (.met m))
    {l : List Found} (hl : l.map (·.member) = [memberOf s (Sym.stored (.met m))]) :
    memberTypes s l = [m.returnTypes.map Show.ofType] := by
  match l, hl with
  | [], hl => simp at hl
  | _ :: _ :: _, hl => simp at hl
  | [f], hl =>
    have hf : f.member = memberOf s (Sym.stored (.met m)) := by simpa using hl
    rw [memberTypes, List.filterMap_cons_some (b := m.returnTypes.map Show.ofType)]
    · rfl
    · rw [hf, memberOf_decl (k := .methods) rfl, get_num_live he hok hs hm (by simp)]
      rfl

/-- C155: the types of a call of a method are exactly those of the declaration that overrides all others of the name, whatever
was asked before, if neither the class nor a class above it implements an interface. -/
theorem C155_types_partial (he : EnvOK env) (hsl : env.LowerSlash) (hok : HistOK env h) (hs : run env root h = some s)
    (ho : OneEach env (latest h)) (hac : Acyclic env (latest h)) (hap : ClassesApart env (latest h)) (last : Imports.Table) (st)
    (hst : ∀ u a c name, Resolving (worldOf env s) (st u a c name)) :
    ∃ N, ∀ n ni, N ≤ n → N ≤ ni → ∀ (a : Infer.Access) (c name q : Bytes) (m : Method),
      NearestMethod env (latest h) c name m → NoInterfaces env (latest h) c →
      (MayUse a m.scope.fqn (.met m) →
        (NameFound ((resolvedIn env s last n ni st).methods a c name) q ↔ q ∈ (m.returnTypes.map Show.ofType).map Types.Ty.fqn)) ∧
      (ByScope a.here a.scopeName m.scope.fqn (.met m) →
        (NameFound ((resolvedIn env s last n ni st).staticMethods a c name) q ↔
          q ∈ (m.returnTypes.map Show.ofType).map Types.Ty.fqn)) := by
  obtain ⟨N, hN⟩ := nearest_calls he hsl hok hs ho hac hap
  have fin : ∀ (l : List Found) (m : Method) (q : Bytes), Live env (latest h) (.met m) →
      l.map (·.member) = [memberOf s (Sym.stored (.met m))] →
      (NameFound (memberTypes s l) q ↔ q ∈ (m.returnTypes.map Show.ofType).map Types.Ty.fqn) := by
    intro l m q hm hl
    rw [types_once he hok hs hm hl]
    simp [NameFound]
  refine ⟨N, fun n ni hn hni a c name q m hm hb => ⟨fun hu => ?_, fun hu => ?_⟩⟩
  · obtain ⟨l, h1, h2⟩ := hN name n ni hn hni .method (.inl rfl) (accessOf a) a.here c m hm hb
      (fun _ rel => by
        rcases hu with ⟨x, xs, e1, e2⟩ | hu
        · exact inherited_object ⟨xs.map (·.fqn), by simp [accessOf, e1, e2]⟩ rel _
        · exact inherited_of (k := .methods) rfl s hu rel)
      (fun h => by cases h) [c] (by simp) (st .method a c name) (hst _ _ _ _)
    rw [List.flatMap_singleton] at h1
    simp only [resolvedIn, h1, Option.getD_some]
    exact fin l m q hm.live h2
  · obtain ⟨l, h1, h2⟩ := hN name n ni hn hni .staticMethod (.inr rfl) (accessOf a) a.here c m hm hb (fun h => by cases h)
      (fun _ rel => inheritedStatic_of (k := .methods) rfl s hu rel) [c] (by simp) (st .staticMethod a c name) (hst _ _ _ _)
    rw [List.flatMap_singleton] at h1
    simp only [resolvedIn, h1, Option.getD_some]
    exact fin l m q hm.live h2

/-- There is at most one method that overrides all others. -/
theorem nearest_unique (hsl : env.LowerSlash) {L : Bytes → Option Doc} (ho : OneEach env L) (hac : Acyclic env L) {c name : Bytes}
    {m m' : Method} (hm : NearestMethod env L c name m) (hm' : NearestMethod env L c name m') : m = m' := by
  obtain ⟨d, e, h1, h2, h3, h4, h5⟩ := hm.above
  obtain ⟨d', e', h1', h2', h3', h4', h5'⟩ := hm'.above
  have hdd : d = d' := ho.classes d d' h1 h1' ((classFQNLower_eq_iff hsl _ _).mp
    (((classFQNLower_eq_iff hsl _ _).mpr h2).trans ((classFQNLower_eq_iff hsl _ _).mpr h2').symm))
  subst hdd
  rcases h5 m' e' hm'.live hm'.name h3' h4' with k | ⟨-, k1, k2⟩
  · exact k.symm
  · rcases h5' m e hm.live hm.name h3 h4 with k | ⟨-, -, k3⟩
    · exact k
    · exact absurd (above_antisymm hac (above_live h1' h3') k3 k2) k1

/-- C155: behind an expression that has the types `S`, a call of a method has exactly the types that the declarations that
override all others give it (with the types of the object itself for `static` and `$this`), if for each of these classes either
there is no method of that name, or it may be used there and neither the class nor a class above it implements an interface. As
`Chain` (C151) starts with any expression whose types are known, the call may be followed by further links. -/
theorem C155_call_partial (he : EnvOK env) (hsl : env.LowerSlash) (hok : HistOK env h) (hs : run env root h = some s)
    (ho : OneEach env (latest h)) (hac : Acyclic env (latest h)) (hap : ClassesApart env (latest h)) (last : Imports.Table) (st)
    (hst : ∀ u a c name, Resolving (worldOf env s) (st u a c name)) :
    ∃ N, ∀ n ni, N ≤ n → N ≤ ni → ∀ (here : Bytes) (e : Infer.Expr) (S : Bytes → Prop) (name : Bytes),
      (∀ q, q ∈ (e.typesIn (resolvedIn env s last n ni st)).map Types.Ty.fqn ↔ S q) →
      (∀ c, S c → LacksMethod env (latest h) c name ∨ ∃ m, NearestMethod env (latest h) c name m ∧ NoInterfaces env (latest h) c ∧
        ByArrow here e.scopeName m.scope.fqn (.met m)) →
      ∀ q, q ∈ ((Infer.Expr.method here name [] false e).typesIn (resolvedIn env s last n ni st)).map Types.Ty.fqn ↔
        ∃ c m, S c ∧ NearestMethod env (latest h) c name m ∧ ∃ t, Gives (.met m) t ∧
          (¬ StandsForObject t ∧ t.fqn = q ∨ StandsForObject t ∧ S q) := by
  obtain ⟨N, hN⟩ := nearest_calls he hsl hok hs ho hac hap
  obtain ⟨M, hM⟩ := after_arrow he hsl hok hs ho hac hap last st hst
  refine ⟨max N M, fun n ni hn hni here e S name hS hm q => ?_⟩
  have hM := hM n ni (le_trans (le_max_right _ _) hn) (le_trans (le_max_right _ _) hni)
  have key : ∀ c m, NearestMethod env (latest h) c name m → NoInterfaces env (latest h) c →
      ByArrow here e.scopeName m.scope.fqn (.met m) →
      (resolvedIn env s last n ni st).methods ⟨here, e.scopeName, e.typesIn (resolvedIn env s last n ni st)⟩ c name =
        [m.returnTypes.map Show.ofType] := by
    intro c m hm hb hu
    obtain ⟨l, h1, h2⟩ := hN name n ni (le_trans (le_max_left _ _) hn) (le_trans (le_max_left _ _) hni) .method (.inl rfl)
      (accessOf ⟨here, e.scopeName, e.typesIn (resolvedIn env s last n ni st)⟩) here c m hm hb
      (fun _ rel => inherited_of (k := .methods) rfl s hu rel) (fun h => by cases h) [c] (by simp)
      (st .method ⟨here, e.scopeName, e.typesIn (resolvedIn env s last n ni st)⟩ c name) (hst _ _ _ _)
    rw [List.flatMap_singleton] at h1
    have e0 : (resolvedIn env s last n ni st).methods ⟨here, e.scopeName, e.typesIn (resolvedIn env s last n ni st)⟩ c name =
      memberTypes s ((callLoop (MemberUse.reduce .method here (accessOf ⟨here, e.scopeName, e.typesIn (resolvedIn env s last n ni st)⟩))
        (callLookups (worldOf env s) n ni name c)
        (st .method ⟨here, e.scopeName, e.typesIn (resolvedIn env s last n ni st)⟩ c name)).getD []) := rfl
    rw [e0, h1, Option.getD_some]
    exact types_once he hok hs hm.live h2
  have e1 : (Infer.Expr.method here name [] false e).typesIn (resolvedIn env s last n ni st) =
    Infer.methodLoop (fun c => (resolvedIn env s last n ni st).methods ⟨here, (e.resolve (resolvedIn env s last n ni st)).scopeName,
      e.typesIn (resolvedIn env s last n ni st)⟩ c name) (e.typesIn (resolvedIn env s last n ni st)) [] := rfl
  rw [e1, mem_methodLoop, scopeName_resolve]
  simp only [hS]
  constructor
  · rintro (hq | ⟨c, hc, u, hu, t, ht, hq⟩)
    · cases hq
    · rcases hm c hc with hl | ⟨p, hp, hnb, hb⟩
      · exact absurd ⟨u, hu, ht⟩ ((hM _ c _ t).2.2.1 hl)
      · rw [key c p hp hnb hb, List.mem_singleton] at hu
        subst hu
        exact ⟨c, p, hc, hp, t, ht, hq⟩
  · rintro ⟨c, p, hc, hp, t, ht, hq⟩
    rcases hm c hc with hl | ⟨p', hp', hnb, hb⟩
    · refine absurd hp.name (hl.2 p hp.live (.inl ?_))
      obtain ⟨d, e, k1, k2, k3, k4, -⟩ := hp.above
      rcases k4 with k4 | ⟨-, tr, k5, k6, k7, k8⟩
      · exact ⟨d, k1, k2, e, k3, .inl k4⟩
      · exact ⟨d, k1, k2, e, k3, .inr (.inl ⟨tr, k5, k6, k7, k8⟩)⟩
    · have := nearest_unique hsl ho hac hp hp'
      subst this
      refine .inr ⟨c, hc, p.returnTypes.map Show.ofType, ?_, t, ht, hq⟩
      rw [key c p hp' hnb hb]
      exact List.mem_singleton.mpr rfl

/-- C155: the same after `::`. -/
theorem C155_static_call_partial (he : EnvOK env) (hsl : env.LowerSlash) (hok : HistOK env h) (hs : run env root h = some s)
    (ho : OneEach env (latest h)) (hac : Acyclic env (latest h)) (hap : ClassesApart env (latest h)) (last : Imports.Table) (st)
    (hst : ∀ u a c name, Resolving (worldOf env s) (st u a c name)) :
    ∃ N, ∀ n ni, N ≤ n → N ≤ ni → ∀ (here : Bytes) (e : Infer.Expr) (S : Bytes → Prop) (name : Bytes),
      (∀ q, q ∈ (e.typesIn (resolvedIn env s last n ni st)).map Types.Ty.fqn ↔ S q) →
      (∀ c, S c → LacksMethod env (latest h) c name ∨ ∃ m, NearestMethod env (latest h) c name m ∧ NoInterfaces env (latest h) c ∧
        ByScope here e.scopeName m.scope.fqn (.met m)) →
      ∀ q, q ∈ ((Infer.Expr.staticMethod here name [] false e).typesIn (resolvedIn env s last n ni st)).map Types.Ty.fqn ↔
        ∃ c m, S c ∧ NearestMethod env (latest h) c name m ∧ ∃ t, Gives (.met m) t ∧
          (¬ StandsForObject t ∧ t.fqn = q ∨ StandsForObject t ∧ S q) := by
  obtain ⟨N, hN⟩ := nearest_calls he hsl hok hs ho hac hap
  obtain ⟨M, hM⟩ := after_scope he hsl hok hs ho hac hap last st hst
  refine ⟨max N M, fun n ni hn hni here e S name hS hm q => ?_⟩
  have hM := hM n ni (le_trans (le_max_right _ _) hn) (le_trans (le_max_right _ _) hni)
  have key : ∀ c m, NearestMethod env (latest h) c name m → NoInterfaces env (latest h) c →
      ByScope here e.scopeName m.scope.fqn (.met m) →
      (resolvedIn env s last n ni st).staticMethods ⟨here, e.scopeName, e.typesIn (resolvedIn env s last n ni st)⟩ c name =
        [m.returnTypes.map Show.ofType] := by
    intro c m hm hb hu
    obtain ⟨l, h1, h2⟩ := hN name n ni (le_trans (le_max_left _ _) hn) (le_trans (le_max_left _ _) hni) .staticMethod (.inr rfl)
      (accessOf ⟨here, e.scopeName, e.typesIn (resolvedIn env s last n ni st)⟩) here c m hm hb
      (fun h => by cases h) (fun _ rel => inheritedStatic_of (k := .methods) rfl s hu rel) [c] (by simp)
      (st .staticMethod ⟨here, e.scopeName, e.typesIn (resolvedIn env s last n ni st)⟩ c name) (hst _ _ _ _)
    rw [List.flatMap_singleton] at h1
    have e0 : (resolvedIn env s last n ni st).staticMethods ⟨here, e.scopeName, e.typesIn (resolvedIn env s last n ni st)⟩ c name =
      memberTypes s ((callLoop (MemberUse.reduce .staticMethod here (accessOf ⟨here, e.scopeName, e.typesIn (resolvedIn env s last n ni st)⟩))
        (callLookups (worldOf env s) n ni name c)
        (st .staticMethod ⟨here, e.scopeName, e.typesIn (resolvedIn env s last n ni st)⟩ c name)).getD []) := rfl
    rw [e0, h1, Option.getD_some]
    exact types_once he hok hs hm.live h2
  have e1 : (Infer.Expr.staticMethod here name [] false e).typesIn (resolvedIn env s last n ni st) =
    Infer.methodLoop (fun c => (resolvedIn env s last n ni st).staticMethods ⟨here, (e.resolve (resolvedIn env s last n ni st)).scopeName,
      e.typesIn (resolvedIn env s last n ni st)⟩ c name) (e.typesIn (resolvedIn env s last n ni st)) [] := rfl
  rw [e1, mem_methodLoop, scopeName_resolve]
  simp only [hS]
  constructor
  · rintro (hq | ⟨c, hc, u, hu, t, ht, hq⟩)
    · cases hq
    · rcases hm c hc with hl | ⟨p, hp, hnb, hb⟩
      · exact absurd ⟨u, hu, ht⟩ ((hM _ c _ t).2.2.1 hl)
      · rw [key c p hp hnb hb, List.mem_singleton] at hu
        subst hu
        exact ⟨c, p, hc, hp, t, ht, hq⟩
  · rintro ⟨c, p, hc, hp, t, ht, hq⟩
    rcases hm c hc with hl | ⟨p', hp', hnb, hb⟩
    · refine absurd hp.name (hl.2 p hp.live (.inl ?_))
      obtain ⟨d, e, k1, k2, k3, k4, -⟩ := hp.above
      rcases k4 with k4 | ⟨-, tr, k5, k6, k7, k8⟩
      · exact ⟨d, k1, k2, e, k3, .inl k4⟩
      · exact ⟨d, k1, k2, e, k3, .inr (.inl ⟨tr, k5, k6, k7, k8⟩)⟩
    · have := nearest_unique hsl ho hac hp hp'
      subst this
      refine .inr ⟨c, hc, p.returnTypes.map Show.ofType, ?_, t, ht, hq⟩
      rw [key c p hp' hnb hb]
      exact List.mem_singleton.mpr rfl

/-- C155: at the end of a chain of accesses (C151) whose declarations say that it is an object of the one class `t`, the
signatures that are shown for a call are those of the declaration that overrides all others, and there is at least one. -/
theorem C155_chain_signatures_partial (he : EnvOK env) (hsl : env.LowerSlash) (hok : HistOK env h) (hs : run env root h = some s)
    (ho : OneEach env (latest h)) (hac : Acyclic env (latest h)) (hap : ClassesApart env (latest h))
    (last : Imports.Table) (st) (hst : ∀ u a c name, Resolving (worldOf env s) (st u a c name)) :
    ∃ N, ∀ n ni, N ≤ n → N ≤ ni → ∀ (here : Bytes) (e0 : Infer.Expr) (S0 : Bytes → Prop) (e : Infer.Expr) (name t : Bytes) (m : Method)
      (after : St), Resolving (worldOf env s) after → Chain env (latest h) here e0 S0 e (· = t) →
      (∀ q, q ∈ (e0.typesIn (resolvedIn env s last n ni st)).map Types.Ty.fqn ↔ S0 q) →
      NearestMethod env (latest h) t name m → NoInterfaces env (latest h) t → ByArrow here e.scopeName m.scope.fqn (.met m) →
      ∃ k, signaturesAfter env s n ni after false ⟨e.scopeName, (e.typesIn (resolvedIn env s last n ni st)).map Types.Ty.fqn⟩ name here =
        some (List.replicate (k + 1) (withoutTexts (Show.methodSignature m))) := by
  obtain ⟨N, hN⟩ := C151_chain he hsl hok hs ho hac hap last st hst
  obtain ⟨M, hM⟩ := C155_signatures_partial he hsl hok hs ho hac hap
  refine ⟨max N M, fun n ni hn hni here e0 S0 e name t m after ha hc h0 hm hb hu => ?_⟩
  have hty := hN n ni (le_trans (le_max_left _ _) hn) (le_trans (le_max_left _ _) hni) here e0 S0 e _ hc h0
  have hr := (hM n ni (le_trans (le_max_right _ _) hn) (le_trans (le_max_right _ _) hni) after ha
    ⟨e.scopeName, (e.typesIn (resolvedIn env s last n ni st)).map Types.Ty.fqn⟩ name here t m (fun y hy => (hty y).mp hy) hm hb).1 hu
  have hpos := List.length_pos_of_mem ((hty t).mpr rfl)
  refine ⟨((e.typesIn (resolvedIn env s last n ni st)).map Types.Ty.fqn).length - 1, ?_⟩
  rw [hr, List.map_const', Nat.sub_add_cancel hpos]

/-- Non-vacuity of these theorems: the classes of the example of C155_definition_partial, which meets the conditions; `m` of `A` is
documented to return `static`, that of `B` is not documented, and the signature is that of `B`. -/
example : NearestMethod Store.Demo.env (latest (Demo.ovrHist b!"m")) b!"\\App\\B" b!"m" (Demo.ovrMeth b!"m") ∧
    ∃ s, run Store.Demo.env Store.Demo.root (Demo.ovrHist b!"m") = some s ∧
      (signaturesAfter Store.Demo.env s 9 9 (Demo.askedPlain s) false ⟨[], [b!"\\App\\B"]⟩ b!"m" [],
       (resolvedIn Store.Demo.env s Decl.senv0.table 9 9 fun _ _ _ _ => Demo.askedPlain s).methods ⟨[], b!"$b", []⟩ b!"\\App\\B" b!"m",
       (resolvedIn Store.Demo.env s Decl.senv0.table 9 9 fun _ _ _ _ => Demo.askedPlain s).methods ⟨[], b!"$b", []⟩ b!"\\App\\A" b!"m") =
      (some [withoutTexts (Show.methodSignature (Demo.ovrMeth b!"m"))], [[]], [[⟨b!"static", b!"static", 0⟩]]) :=
  ⟨Demo.ovr_nearest, Store.Demo.observe _ _ (by decide +kernel)⟩

/-- Non-vacuity of C155_call_partial: `(new B)->m()` in the same classes has no type, as the `m` of `B` has none, although that of
`A` returns `static`. -/
example : NearestMethod Store.Demo.env (latest (Demo.ovrHist b!"m")) b!"\\App\\B" b!"m" (Demo.ovrMeth b!"m") ∧
    NoInterfaces Store.Demo.env (latest (Demo.ovrHist b!"m")) b!"\\App\\B" ∧
    ByArrow [] Demo.linkNew.scopeName (Demo.ovrMeth b!"m").scope.fqn (.met (Demo.ovrMeth b!"m")) ∧
    (∀ w q, q ∈ (Demo.linkNew.typesIn w).map Types.Ty.fqn ↔ q = b!"\\App\\B") ∧
    ∃ s, run Store.Demo.env Store.Demo.root (Demo.ovrHist b!"m") = some s ∧
      ((Infer.Expr.method [] b!"m" [] false Demo.linkNew).typesIn
        (resolvedIn Store.Demo.env s Decl.senv0.table 9 9 fun _ _ _ _ => Demo.askedPlain s),
       (Infer.Expr.method [] b!"m" [] false (.known [⟨b!"\\App\\A", b!"A", 0⟩])).typesIn
        (resolvedIn Store.Demo.env s Decl.senv0.table 9 9 fun _ _ _ _ => Demo.askedPlain s)) =
      ([], [⟨b!"\\App\\A", b!"A", 0⟩]) :=
  ⟨Demo.ovr_nearest, fun d e _ _ _ i hi => by simpa [Demo.ovrDoc] using Demo.ovr_mem hi, .inl (by simp [Public, Protected, Private, Demo.ovrMeth]), fun w q => by
    show q ∈ [b!"\\App\\B"] ↔ _
    exact List.mem_singleton, Store.Demo.observe _ _ (by decide +kernel)⟩

/-- Non-vacuity of C155_static_call_partial: `self::m()` in `B` has no type either (the other conditions are those of the previous
example). -/
example : ByScope b!"\\App\\B" (Infer.Expr.classAccess b!"self" [⟨b!"\\App\\B", b!"B", 0⟩] true .nothing).scopeName
      (Demo.ovrMeth b!"m").scope.fqn (.met (Demo.ovrMeth b!"m")) ∧
    (∀ w q, q ∈ ((Infer.Expr.classAccess b!"self" [⟨b!"\\App\\B", b!"B", 0⟩] true .nothing).typesIn w).map Types.Ty.fqn ↔
      q = b!"\\App\\B") ∧
    ∃ s, run Store.Demo.env Store.Demo.root (Demo.ovrHist b!"m") = some s ∧
      ((Infer.Expr.staticMethod b!"\\App\\B" b!"m" [] false
          (.classAccess b!"self" [⟨b!"\\App\\B", b!"B", 0⟩] true .nothing)).typesIn
        (resolvedIn Store.Demo.env s Decl.senv0.table 9 9 fun _ _ _ _ => Demo.askedPlain s),
       (Infer.Expr.staticMethod b!"\\App\\A" b!"m" [] false
          (.classAccess b!"self" [⟨b!"\\App\\A", b!"A", 0⟩] true .nothing)).typesIn
        (resolvedIn Store.Demo.env s Decl.senv0.table 9 9 fun _ _ _ _ => Demo.askedPlain s)) =
      ([], [⟨b!"\\App\\A", b!"A", 0⟩]) :=
  ⟨⟨fun e => absurd e (by decide), fun _ => .inl rfl, fun e => absurd (by decide) e⟩, fun w q => by
    show q ∈ [b!"\\App\\B"] ↔ _
    exact List.mem_singleton, Store.Demo.observe _ _ (by decide +kernel)⟩

end Verif.Whole
