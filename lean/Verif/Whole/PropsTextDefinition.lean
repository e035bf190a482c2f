import Verif.Whole.PropsTextChain
import Verif.Query.PropsEnds
import Verif.Whole.PropsHoverMembers

/-! C152: go to definition on a member at the end of a chain of accesses. -/

namespace Verif.Whole

open Verif.Encoding Verif.Storage Verif.Store Verif.Query

variable {env : Env} {root : Bytes} {h : List HOp} {s : Store}

/-! ### Model -/

/-- Go to definition on a member (`internal/lsp/definition.go:69-144`, `157-163`) if the query has been used before for the types of
the object or class before the operator: `ResolveAndGetScope` (`expression.go:32-38`) is given the query that the lookups then
use (`definition.go:24-25`). `st` is the state in which it leaves the query, `a.types` are the types it finds. -/
def definitionAfter (env : Env) (s : Store) (keyOf : Bytes → Bytes) (n ni : Nat) (st : St) (u : MemberUse) (a : Access)
    (name cur : Bytes) : Option (List Sym) :=
  (memberLoop (worldOf env s) keyOf n ni u a name cur a.types [] st).map fun l =>
    ((l.map (·.member.decl)).filter (siteOf env s).navigable).filterMap fun d => (decls s)[d]?

/-- With a new query it is what `definitionIn` says. -/
theorem definitionAfter_new (tbl : Imports.Table) (keyOf : Bytes → Bytes) (n ni : Nat) (u : MemberUse) (a : Access) (name cur : Bytes) :
    definitionAfter env s keyOf n ni St.new u a name cur = definitionIn env s tbl keyOf n ni (.member u a name cur) := by
  simp only [definitionAfter, definitionIn, definition, locations, Option.map_map]
  rfl

/-! ### Specification -/

/-- No trait is called `t`. -/
def NoTrait (env : Env) (L : Bytes → Option Doc) (t : Bytes) : Prop := ∀ x, Live env L (.tra x) → ¬ SameClassName env x.name.fqn t

/-- The answer is `x` (in its stored form, C02), once, and nothing else. -/
def LeadsTo (r : Option (List Sym)) (x : Sym) : Prop := r = some [x.stored]

/-! ### The loops -/

theorem gather_keeps (ls : List Lookup) (ms : Inherited) (st : St) (r : Inherited × St) (h : gather ls ms st = some r) :
    ∀ f ∈ ms.members, f ∈ r.1.members := by
  induction ls generalizing ms st with
  | nil => injection h with h; subst h; exact fun _ h => h
  | cons l ls ih =>
    unfold gather at h
    split at h
    · cases h
    · intro f hf
      exact ih _ _ h f (List.mem_append_left _ hf)

theorem memberLoop_keeps (w : World) (keyOf : Bytes → Bytes) (n ni : Nat) (u : MemberUse) (a : Access) (name cur : Bytes)
    (ts : List Bytes) (acc : List Found) (st : St) (r : List Found) (hacc : acc ≠ [])
    (h : memberLoop w keyOf n ni u a name cur ts acc st = some r) : r ≠ [] := by
  induction ts generalizing acc st with
  | nil => injection h with h; subst h; exact hacc
  | cons t ts ih =>
    unfold memberLoop at h
    simp only at h
    split at h
    · cases h
    · refine ih _ _ ?_ h
      obtain ⟨f, hf⟩ := List.exists_mem_of_ne_nil _ hacc
      obtain ⟨g, hg, -⟩ := (C32_union keyOf [acc, u.reduce cur a _]).2.2 acc (by simp) f hf
      exact List.ne_nil_of_mem hg

theorem memberLoop_keys (w : World) (keyOf : Bytes → Bytes) (n ni : Nat) (u : MemberUse) (a : Access) (name cur : Bytes)
    (ts : List Bytes) (acc : List Found) (st : St) (r : List Found) (hacc : (acc.map fun f => keyOf f.scope ++ f.member.name).Nodup)
    (h : memberLoop w keyOf n ni u a name cur ts acc st = some r) : (r.map fun f => keyOf f.scope ++ f.member.name).Nodup := by
  induction ts generalizing acc st with
  | nil => injection h with h; subst h; exact hacc
  | cons t ts ih =>
    unfold memberLoop at h
    simp only at h
    split at h
    · cases h
    · exact ih _ _ (C32_union keyOf [acc, u.reduce cur a _]).1 h

/-- The lookups find `x`, once, and nothing else. -/
def Sole (s : Store) (r : Option (List Found)) (x : Sym) : Prop :=
  ∃ f, r = some [f] ∧ f.member = memberOf s x.stored ∧ f.scope = (memberOf s x.stored).scope

/-- If the first lookup of the first type finds something, and every lookup only finds `x`, the answer is `x`. -/
theorem leads_to (he : EnvOK env) (hsl : env.LowerSlash) (hok : HistOK env h) (hs : run env root h = some s)
    (ho : OneEach env (latest h)) (keyOf : Bytes → Bytes) (n ni : Nat) (st : St) (hst : Reachable (worldOf env s) st)
    (u : MemberUse) (a : Access) (name cur t : Bytes) (hne : a.types ≠ []) (hts : ∀ y ∈ a.types, y = t)
    {x : Sym}
    (hin1 : (u = .prop ∨ u = .method) → ∀ rel, isInherited cur a rel (memberOf s x.stored) = true)
    (hin2 : (u ≠ .prop ∧ u ≠ .method) → ∀ rel, isInheritedStatic cur a rel (memberOf s x.stored) = true)
    (hall : ∀ f, MemberAt (worldOf env s) u name t f → f.member = memberOf s x.stored ∧ f.scope = (memberOf s x.stored).scope)
    (hfirst : ∃ l rest, lookups (worldOf env s) n ni u name t = l :: rest ∧
      ∀ r, l (some st.next) st.newSet.2 = some r → r.1.members ≠ [])
    {fs : List Found} (hfs : memberLoop (worldOf env s) keyOf n ni u a name cur a.types [] st = some fs) :
    Sole s (memberLoop (worldOf env s) keyOf n ni u a name cur a.types [] st) x := by
  have hw := distinct he hsl hok hs ho
  have hmem : ∀ f ∈ fs, f.member = memberOf s x.stored ∧ f.scope = (memberOf s x.stored).scope := by
    intro f hf
    obtain ⟨⟨y, hy, hat⟩, -⟩ := memberLoop_at hw keyOf n ni u a name cur a.types a.types (fun _ h => h) [] st hst (by simp) fs hfs f hf
    rw [hts y hy] at hat
    exact hall f hat
  have hnon : fs ≠ [] := by
    cases hty : a.types with
    | nil => exact absurd hty hne
    | cons y ts =>
      rw [hty] at hfs
      have hyt : y = t := hts y (by rw [hty]; simp)
      subst hyt
      obtain ⟨l, rest, hl, hlr⟩ := hfirst
      unfold memberLoop at hfs
      simp only at hfs
      split at hfs
      · cases hfs
      · rename_i ms st1 hg
        obtain ⟨-, hat⟩ := gather_at hw (n := n) (ni := ni) (u := u) (name := name) (t := y) _ (fun _ h => h) _ _
          (.newSet hst) _ (by simp) hg
        have hms : ms.members ≠ [] := by
          rw [hl] at hg
          unfold gather at hg
          split at hg
          · cases hg
          · rename_i r st2 hr
            have hr0 := hlr (r, st2) hr
            obtain ⟨f, hf⟩ := List.exists_mem_of_ne_nil _ hr0
            exact List.ne_nil_of_mem (gather_keeps _ _ _ _ hg f (List.mem_append_right _ hf))
        refine memberLoop_keeps _ _ _ _ _ _ _ _ _ _ _ _ ?_ hfs
        cases hmm : ms.members with
        | nil => exact absurd hmm hms
        | cons f more =>
          have hf : f.member = memberOf s x.stored := (hall f (hat f (by show f ∈ ms.members; rw [hmm]; simp))).1
          obtain ⟨g, hg', -⟩ := reduce_head u cur a ms f more hmm (fun h => by rw [hf]; exact hin1 h _) (fun h => by rw [hf]; exact hin2 h _)
          obtain ⟨g', hg'', -⟩ := (C32_union keyOf [[], u.reduce cur a ms]).2.2 _ (by simp) g hg'
          exact List.ne_nil_of_mem hg''
  have hkeys := memberLoop_keys _ _ _ _ _ _ _ _ _ _ _ _ (by simp) hfs
  match fs, hfs, hmem, hnon, hkeys with
  | [], _, _, hnon, _ => exact absurd rfl hnon
  | [f], hfs, hmem, _, _ => exact ⟨f, hfs, hmem f (by simp)⟩
  | f :: g :: l, _, hmem, _, hkeys =>
    obtain ⟨h1, h2⟩ := hmem f (by simp)
    obtain ⟨h3, h4⟩ := hmem g (by simp)
    simp [h1, h2, h3, h4] at hkeys

theorem Sole.leads (he : EnvOK env) (hok : HistOK env h) (hs : run env root h = some s) {keyOf : Bytes → Bytes} {n ni : Nat} {st : St}
    {u : MemberUse} {a : Access} {name cur : Bytes} {x : Sym} (hx : Live env (latest h) x) (hk : kindOf x = some u.kind)
    (hopen : Openable x) (hf : Sole s (memberLoop (worldOf env s) keyOf n ni u a name cur a.types [] st) x) :
    LeadsTo (definitionAfter env s keyOf n ni st u a name cur) x := by
  have hget := get_num_live he hok hs hx (kindOf_nog hk)
  have hnav : (siteOf env s).navigable (num s x.stored) = true := by
    simpa only [siteOf, hget, Option.elim_some, navigatable, hasPrefix_iff, locationOf_eq, stored_location, Openable] using hopen
  obtain ⟨f, h1, h2, -⟩ := hf
  rw [LeadsTo, definitionAfter, h1]
  simp [h2, memberOf_decl hk, hnav, hget]

/-- What the one class called `t` has. -/
theorem from_one (he : EnvOK env) (hsl : env.LowerSlash) (hok : HistOK env h) (hs : run env root h = some s)
    (hap : ClassesApart env (latest h)) {t scope : Bytes} (htr : NoTrait env (latest h) t) {d : Class}
    (hd : Live env (latest h) (.cla d)) (hdn : SameClassName env d.name.fqn t) (hf : HasFrom (worldOf env s) t scope) :
    FromClass env (latest h) t scope := by
  rcases has_of he hsl hok hs hf with ⟨c, h1, h2, h3⟩ | ⟨i, h1, h2, -⟩ | ⟨x, h1, h2, -⟩
  · exact ⟨c, h1, h2, h3⟩
  · refine absurd ((classFQNLower_eq_iff hsl _ _).mp ?_) (hap d hd i h1)
    rw [(classFQNLower_eq_iff hsl _ _).mpr hdn, (classFQNLower_eq_iff hsl _ _).mpr h2]
  · exact absurd h2 (htr x h1)

/-- It is the only class called `t`, and so the first. -/
theorem first_class (he : EnvOK env) (hsl : env.LowerSlash) (hok : HistOK env h) (hs : run env root h = some s)
    (ho : OneEach env (latest h)) {t : Bytes} {d : Class} (hd : Live env (latest h) (.cla d))
    (hdn : SameClassName env d.name.fqn t) : ∃ rest, (worldOf env s).classesNamed t = clsOf s d :: rest := by
  have hc : clsOf s d ∈ (worldOf env s).classesNamed t :=
    (mem_classesNamed _ _ _).mpr ⟨(mem_classes he hok hs _).mpr ⟨d, hd, rfl⟩, (key_iff hsl _ _).mpr hdn⟩
  cases hl : (worldOf env s).classesNamed t with
  | nil => rw [hl] at hc; cases hc
  | cons c rest =>
    obtain ⟨h1, h2⟩ := (mem_classesNamed _ _ c).mp (by rw [hl]; simp)
    obtain ⟨e, h3, rfl⟩ := (mem_classes he hok hs _).mp h1
    refine ⟨rest, ?_⟩
    rw [ho.classes e d h3 hd ((key_iff (s := s) hsl _ _).mp (h2.trans ((key_iff hsl _ _).mpr hdn).symm))]

/-- The lookups of a property, whatever was asked before. -/
theorem sole_property (he : EnvOK env) (hsl : env.LowerSlash) (hok : HistOK env h) (hs : run env root h = some s)
    (ho : OneEach env (latest h)) (hac : Acyclic env (latest h)) (hap : ClassesApart env (latest h)) (keyOf : Bytes → Bytes) :
    ∀ name, ∃ N, ∀ n ni, N ≤ n → N ≤ ni → ∀ (st : St), Resolving (worldOf env s) st → ∀ (a : Access) (cur t : Bytes) (p : Property),
      a.types ≠ [] → (∀ y ∈ a.types, y = t) → NoTrait env (latest h) t →
      (SomeProperty env (latest h) t (b!"$" ++ name) p → ByArrow cur a.scopeName p.scope.fqn (.pro p) →
        Sole s (memberLoop (worldOf env s) keyOf n ni .prop a name cur a.types [] st) (.pro p)) ∧
      (SomeProperty env (latest h) t name p → ByScope cur a.scopeName p.scope.fqn (.pro p) →
        Sole s (memberLoop (worldOf env s) keyOf n ni .staticProp a name cur a.types [] st) (.pro p)) := by
  intro name
  have hw := distinct he hsl hok hs ho
  have ha := apart_of he hsl hok hs hap
  obtain ⟨N, hN⟩ := lookups_end (worldOf env s) (noCycle he hsl hok hs hac)
  have key : ∀ (u : MemberUse), u = .prop ∨ u = .staticProp → ∀ n ni, N ≤ n → N ≤ ni → ∀ (st : St), Resolving (worldOf env s) st →
      ∀ (a : Access) (cur t : Bytes) (p : Property), a.types ≠ [] → (∀ y ∈ a.types, y = t) → NoTrait env (latest h) t →
      SomeProperty env (latest h) t (u.key name) p →
      ((u = .prop ∨ u = .method) → ∀ rel, isInherited cur a rel (memberOf s (Sym.stored (.pro p))) = true) →
      ((u ≠ .prop ∧ u ≠ .method) → ∀ rel, isInheritedStatic cur a rel (memberOf s (Sym.stored (.pro p))) = true) →
      Sole s (memberLoop (worldOf env s) keyOf n ni u a name cur a.types [] st) (.pro p) := by
    intro u hu n ni hn hni st hst a cur t p hne hts htr hp hin1 hin2
    have hkind : u.kind = .props := by rcases hu with rfl | rfl <;> rfl
    obtain ⟨d, e, hd, hdn, hab, hsc⟩ := hp.above
    obtain ⟨rest, hcl⟩ := first_class he hsl hok hs ho hd hdn
    obtain ⟨fs, hfs⟩ := memberLoop_ends (fun t => lookupsAt_end (hN (u.key name)) t) keyOf a cur a.types [] st
    refine leads_to he hsl hok hs ho keyOf n ni st hst.reachable u a name cur t hne hts hin1 hin2
      ?_ ?_ (hfs n ni hn hni)
    · rintro f ⟨hf1, hf2⟩
      rw [hkind] at hf2
      obtain ⟨q, k1, ⟨k2, k3⟩, k4⟩ := (mem_props he hok hs hp.named _).mp hf2
      have : q = p := hp.only q k1 (k2 ▸ from_one he hsl hok hs hap htr hd hdn hf1) k3
      subst this
      exact ⟨k4.symm, k2.symm⟩
    · have hl : lookups (worldOf env s) n ni u name t = (getClassPlain (worldOf env s) .props n ni (clsOf s d) (u.key name)) ::
          rest.map fun c => getClassPlain (worldOf env s) .props n ni c (u.key name) := by
        rcases hu with rfl | rfl <;> simp [lookups, hcl, MemberUse.kind]
      refine ⟨_, _, hl, fun r hr => ?_⟩
      change getClassPlain (worldOf env s) .props n ni (clsOf s d) (u.key name) none st = some r at hr
      have hmem : memberOf s (Sym.stored (.pro p)) ∈ (worldOf env s).members .props (clsOf s e).name (u.key name) :=
        (mem_props he hok hs hp.named _).mpr ⟨p, hp.live, ⟨hsc, hp.name⟩, rfl⟩
      exact List.ne_nil_of_mem ((getClassPlain_all hw ha ((mem_classes he hok hs _).mpr ⟨d, hd, rfl⟩)
        (hst.plain_inv hw ha (by decide)) hr).2 _ (ancestor_of he hsl hok hs hab) _ (List.mem_map_of_mem hmem))
  refine ⟨N, fun n ni hn hni st hst a cur t p hne hts htr => ⟨fun hp hu => ?_, fun hp hu => ?_⟩⟩
  · exact key .prop (.inl rfl) n ni hn hni st hst a cur t p hne hts htr hp (fun _ rel => inherited_of (k := .props) rfl s hu rel)
      (fun h => absurd rfl h.1)
  · exact key .staticProp (.inr rfl) n ni hn hni st hst a cur t p hne hts htr hp (fun h => by rcases h with h | h <;> cases h)
      (fun _ rel => inheritedStatic_of (k := .props) rfl s hu rel)

/-- The lookups of a method, whatever was asked before. -/
theorem sole_method (he : EnvOK env) (hsl : env.LowerSlash) (hok : HistOK env h) (hs : run env root h = some s)
    (ho : OneEach env (latest h)) (hac : Acyclic env (latest h)) (hap : ClassesApart env (latest h)) (keyOf : Bytes → Bytes) :
    ∀ name, ∃ N, ∀ n ni, N ≤ n → N ≤ ni → ∀ (st : St), Resolving (worldOf env s) st → ∀ (a : Access) (cur t : Bytes) (m : Method),
      a.types ≠ [] → (∀ y ∈ a.types, y = t) → NoTrait env (latest h) t →
      SomeMethod env (latest h) t name m → NoInterfaces env (latest h) t →
      (ByArrow cur a.scopeName m.scope.fqn (.met m) → Sole s (memberLoop (worldOf env s) keyOf n ni .method a name cur a.types [] st) (.met m)) ∧
      (ByScope cur a.scopeName m.scope.fqn (.met m) →
        Sole s (memberLoop (worldOf env s) keyOf n ni .staticMethod a name cur a.types [] st) (.met m)) := by
  intro name
  have hw := distinct he hsl hok hs ho
  obtain ⟨N, hN⟩ := lookups_end (worldOf env s) (noCycle he hsl hok hs hac)
  have key : ∀ (u : MemberUse), u = .method ∨ u = .staticMethod → ∀ n ni, N ≤ n → N ≤ ni → ∀ (st : St), Resolving (worldOf env s) st →
      ∀ (a : Access) (cur t : Bytes) (p : Method), a.types ≠ [] → (∀ y ∈ a.types, y = t) → NoTrait env (latest h) t →
      SomeMethod env (latest h) t name p → NoInterfaces env (latest h) t →
      ((u = .prop ∨ u = .method) → ∀ rel, isInherited cur a rel (memberOf s (Sym.stored (.met p))) = true) →
      ((u ≠ .prop ∧ u ≠ .method) → ∀ rel, isInheritedStatic cur a rel (memberOf s (Sym.stored (.met p))) = true) →
      Sole s (memberLoop (worldOf env s) keyOf n ni u a name cur a.types [] st) (.met p) := by
    intro u hu n ni hn hni st hst a cur t p hne hts htr hp hb hin1 hin2
    have hkind : u.kind = .methods := by rcases hu with rfl | rfl <;> rfl
    have hkey : u.key name = name := by rcases hu with rfl | rfl <;> rfl
    obtain ⟨d, e, hd, hdn, hab, hown⟩ := hp.above
    obtain ⟨rest, hcl⟩ := first_class he hsl hok hs ho hd hdn
    obtain ⟨fs, hfs⟩ := memberLoop_ends (fun t => lookupsAt_end (hN (u.key name)) t) keyOf a cur a.types [] st
    refine leads_to he hsl hok hs ho keyOf n ni st hst.reachable u a name cur t hne hts hin1 hin2
      ?_ ?_ (hfs n ni hn hni)
    · rintro f ⟨hf1, hf2⟩
      rw [hkind, hkey] at hf2
      obtain ⟨q, k1, ⟨k2, k3⟩, k4⟩ := (mem_methods he hok hs hp.named _).mp hf2
      have : q = p := hp.only q k1 (.inl (k2 ▸ from_one he hsl hok hs hap htr hd hdn hf1)) k3
      subst this
      exact ⟨k4.symm, k2.symm⟩
    · have hl : ∃ more, lookups (worldOf env s) n ni u name t = (getClassMethods (worldOf env s) n ni (clsOf s d) name) :: more := by
        rcases hu with rfl | rfl <;> simp [lookups, hcl, MemberUse.kind, MemberUse.key]
      obtain ⟨more, hl⟩ := hl
      refine ⟨_, _, hl, fun r hr => ?_⟩
      change getClassMethods (worldOf env s) n ni (clsOf s d) name none st = some r at hr
      have hall := (getClassMethods_bare hw ((mem_classes he hok hs _).mpr ⟨d, hd, rfl⟩) (hst.bare_inv hw) hr).2
        (bare_of he hsl hok hs hb hd hdn) _ (ancestor_of he hsl hok hs hab)
      have hmem : ∀ scope, p.scope.fqn = scope → memberOf s (Sym.stored (.met p)) ∈ (worldOf env s).members .methods scope name :=
        fun scope hsc => (mem_methods he hok hs hp.named _).mpr ⟨p, hp.live, ⟨hsc, hp.name⟩, rfl⟩
      rcases hown with hsc | ⟨-, tr, h5, ⟨x, hx, hxn⟩, h6, h7⟩
      · exact List.ne_nil_of_mem (hall _ (List.mem_append_left _ (List.mem_map_of_mem (hmem (clsOf s e).name hsc))))
      · exact List.ne_nil_of_mem (hall _ (List.mem_append_right _
          (List.mem_flatMap.mpr ⟨trtOf s tr, (mem_used _ _ _).mpr ⟨List.mem_map.mpr ⟨x, hx, hxn⟩, h6, (mem_traits he hok hs _).mpr ⟨tr, h5, rfl⟩⟩,
            List.mem_map_of_mem (hmem _ h7)⟩)))
  refine ⟨N, fun n ni hn hni st hst a cur t p hne hts htr hp hb => ⟨fun hu => ?_, fun hu => ?_⟩⟩
  · exact key .method (.inl rfl) n ni hn hni st hst a cur t p hne hts htr hp hb (fun _ rel => inherited_of (k := .methods) rfl s hu rel)
      (fun h => absurd rfl h.2)
  · exact key .staticMethod (.inr rfl) n ni hn hni st hst a cur t p hne hts htr hp hb (fun h => by rcases h with h | h <;> cases h)
      (fun _ rel => inheritedStatic_of (k := .methods) rfl s hu rel)

/-! ### C152 -/

/-- C152: after any history, and whatever was asked before in the same request, go to definition on a property of an object (or
after `::`) leads to exactly the declaration, in the class itself or in one above it. -/
theorem C152_property (he : EnvOK env) (hsl : env.LowerSlash) (hok : HistOK env h) (hs : run env root h = some s)
    (ho : OneEach env (latest h)) (hac : Acyclic env (latest h)) (hap : ClassesApart env (latest h)) (keyOf : Bytes → Bytes) :
    ∀ name, ∃ N, ∀ n ni, N ≤ n → N ≤ ni → ∀ (st : St), Resolving (worldOf env s) st → ∀ (a : Access) (cur t : Bytes) (p : Property),
      a.types ≠ [] → (∀ y ∈ a.types, y = t) → NoTrait env (latest h) t → Openable (.pro p) →
      (SomeProperty env (latest h) t (b!"$" ++ name) p → ByArrow cur a.scopeName p.scope.fqn (.pro p) →
        LeadsTo (definitionAfter env s keyOf n ni st .prop a name cur) (.pro p)) ∧
      (SomeProperty env (latest h) t name p → ByScope cur a.scopeName p.scope.fqn (.pro p) →
        LeadsTo (definitionAfter env s keyOf n ni st .staticProp a name cur) (.pro p)) := by
  intro name
  obtain ⟨N, hN⟩ := sole_property he hsl hok hs ho hac hap keyOf name
  refine ⟨N, fun n ni hn hni st hst a cur t p hne hts htr hop => ?_⟩
  obtain ⟨h1, h2⟩ := hN n ni hn hni st hst a cur t p hne hts htr
  exact ⟨fun hp hu => (h1 hp hu).leads he hok hs hp.live rfl hop, fun hp hu => (h2 hp hu).leads he hok hs hp.live rfl hop⟩

/-- C152: the same for calls of methods, if neither the class nor a class above it implements an interface. -/
theorem C152_method_partial (he : EnvOK env) (hsl : env.LowerSlash) (hok : HistOK env h) (hs : run env root h = some s)
    (ho : OneEach env (latest h)) (hac : Acyclic env (latest h)) (hap : ClassesApart env (latest h)) (keyOf : Bytes → Bytes) :
    ∀ name, ∃ N, ∀ n ni, N ≤ n → N ≤ ni → ∀ (st : St), Resolving (worldOf env s) st → ∀ (a : Access) (cur t : Bytes) (m : Method),
      a.types ≠ [] → (∀ y ∈ a.types, y = t) → NoTrait env (latest h) t → Openable (.met m) →
      SomeMethod env (latest h) t name m → NoInterfaces env (latest h) t →
      (ByArrow cur a.scopeName m.scope.fqn (.met m) → LeadsTo (definitionAfter env s keyOf n ni st .method a name cur) (.met m)) ∧
      (ByScope cur a.scopeName m.scope.fqn (.met m) →
        LeadsTo (definitionAfter env s keyOf n ni st .staticMethod a name cur) (.met m)) := by
  intro name
  obtain ⟨N, hN⟩ := sole_method he hsl hok hs ho hac hap keyOf name
  refine ⟨N, fun n ni hn hni st hst a cur t m hne hts htr hop hm hb => ?_⟩
  obtain ⟨h1, h2⟩ := hN n ni hn hni st hst a cur t m hne hts htr hm hb
  exact ⟨fun hu => (h1 hu).leads he hok hs hm.live rfl hop, fun hu => (h2 hu).leads he hok hs hm.live rfl hop⟩

/-- C152: at the end of a chain of accesses (C151) whose declarations say that it is an object of the one class `t`, go to
definition on a property leads to exactly its declaration. -/
theorem C152_chain_property (he : EnvOK env) (hsl : env.LowerSlash) (hok : HistOK env h) (hs : run env root h = some s)
    (ho : OneEach env (latest h)) (hac : Acyclic env (latest h)) (hap : ClassesApart env (latest h)) (keyOf : Bytes → Bytes)
    (last : Imports.Table) (st) (hst : ∀ u a c name, Resolving (worldOf env s) (st u a c name)) :
    ∀ name, ∃ N, ∀ n ni, N ≤ n → N ≤ ni → ∀ (here : Bytes) (e0 : Infer.Expr) (S0 : Bytes → Prop) (e : Infer.Expr) (t : Bytes) (p : Property)
      (after : St), Resolving (worldOf env s) after → Chain env (latest h) here e0 S0 e (· = t) →
      (∀ q, q ∈ (e0.typesIn (resolvedIn env s last n ni st)).map Types.Ty.fqn ↔ S0 q) →
      NoTrait env (latest h) t → Openable (.pro p) → SomeProperty env (latest h) t (b!"$" ++ name) p →
      ByArrow here e.scopeName p.scope.fqn (.pro p) →
      LeadsTo (definitionAfter env s keyOf n ni after .prop
        ⟨e.scopeName, (e.typesIn (resolvedIn env s last n ni st)).map Types.Ty.fqn⟩ name here) (.pro p) := by
  intro name
  obtain ⟨N, hN⟩ := C151_chain he hsl hok hs ho hac hap last st hst
  obtain ⟨M, hM⟩ := C152_property he hsl hok hs ho hac hap keyOf name
  refine ⟨max N M, fun n ni hn hni here e0 S0 e t p after ha hc h0 htr hop hp hu => ?_⟩
  have hty := hN n ni (le_trans (le_max_left _ _) hn) (le_trans (le_max_left _ _) hni) here e0 S0 e _ hc h0
  exact (hM n ni (le_trans (le_max_right _ _) hn) (le_trans (le_max_right _ _) hni) after ha
    ⟨e.scopeName, (e.typesIn (resolvedIn env s last n ni st)).map Types.Ty.fqn⟩ here t p
    (List.ne_nil_of_mem ((hty t).mpr rfl)) (fun y hy => (hty y).mp hy) htr hop).1 hp hu

/-- C152: the same for a method, if neither the class nor a class above it implements an interface. -/
theorem C152_chain_method_partial (he : EnvOK env) (hsl : env.LowerSlash) (hok : HistOK env h) (hs : run env root h = some s)
    (ho : OneEach env (latest h)) (hac : Acyclic env (latest h)) (hap : ClassesApart env (latest h)) (keyOf : Bytes → Bytes)
    (last : Imports.Table) (st) (hst : ∀ u a c name, Resolving (worldOf env s) (st u a c name)) :
    ∀ name, ∃ N, ∀ n ni, N ≤ n → N ≤ ni → ∀ (here : Bytes) (e0 : Infer.Expr) (S0 : Bytes → Prop) (e : Infer.Expr) (t : Bytes) (m : Method)
      (after : St), Resolving (worldOf env s) after → Chain env (latest h) here e0 S0 e (· = t) →
      (∀ q, q ∈ (e0.typesIn (resolvedIn env s last n ni st)).map Types.Ty.fqn ↔ S0 q) →
      NoTrait env (latest h) t → Openable (.met m) → SomeMethod env (latest h) t name m → NoInterfaces env (latest h) t →
      ByArrow here e.scopeName m.scope.fqn (.met m) →
      LeadsTo (definitionAfter env s keyOf n ni after .method
        ⟨e.scopeName, (e.typesIn (resolvedIn env s last n ni st)).map Types.Ty.fqn⟩ name here) (.met m) := by
  intro name
  obtain ⟨N, hN⟩ := C151_chain he hsl hok hs ho hac hap last st hst
  obtain ⟨M, hM⟩ := C152_method_partial he hsl hok hs ho hac hap keyOf name
  refine ⟨max N M, fun n ni hn hni here e0 S0 e t p after ha hc h0 htr hop hp hb hu => ?_⟩
  have hty := hN n ni (le_trans (le_max_left _ _) hn) (le_trans (le_max_left _ _) hni) here e0 S0 e _ hc h0
  exact (hM n ni (le_trans (le_max_right _ _) hn) (le_trans (le_max_right _ _) hni) after ha
    ⟨e.scopeName, (e.typesIn (resolvedIn env s last n ni st)).map Types.Ty.fqn⟩ here t p
    (List.ne_nil_of_mem ((hty t).mpr rfl)) (fun y hy => (hty y).mp hy) htr hop hp hb).1 hu

/-! ### Examples -/

namespace Demo

open Store.Demo (uA uB)

/-- `/** @return B */ function m() {}` of `A` -/
def bldMeth : Method := ⟨Store.Demo.loc uB 3, Store.Demo.loc uB 3, b!"m", [], [⟨b!"\\App\\B", b!"B", 0⟩], [],
  Store.Demo.ty b!"App\\A", 0, false, 0, none⟩

/-- With `interface I`, `class A implements I` and `class B extends A implements I`. -/
def bldDoc : Doc where
  uri := uB
  hash := b!"9"
  symbols := [.int inhI, .cla inhA, .met bldMeth, .cla inhB]
  namespaces := []
  refs := []

def bldHist : List HOp := [.upgrade b!"v0.0.16", .index Store.Demo.a1, .restart, .index bldDoc, .delete uA]

theorem bldDoc_ok : DocOK Store.Demo.env bldDoc where
  uri := Store.Demo.uB_ok
  len := by decide
  syms := by
    have : ∀ x ∈ bldDoc.symbols, x.WF := by
      simp [bldDoc, inhA, inhB, inhI, bldMeth, Sym.WF, Class.WF, Interface.WF, Method.WF, Location.WF,
        Store.Demo.loc, uB, Str, Store.Demo.ty, TypeString.WF, Types.WF, ListWF, DeprecatedWF]
    intro x hx
    exact Store.Demo.sym_ok (this x hx) ((by decide +kernel : ∀ x ∈ bldDoc.symbols, ∀ n ∈ x.names, sep ∉ n) x hx)
      ((by decide +kernel : ∀ x ∈ bldDoc.symbols, x.location.uri = uB) x hx)
      ((by decide +kernel : ∀ x ∈ bldDoc.symbols, (x.key Store.Demo.env).length < 1000) x hx)
  refsLen := by decide
  refs := by simp [bldDoc]

theorem bldHist_ok : HistOK Store.Demo.env bldHist where
  docs := by
    rw [show docs bldHist = [Store.Demo.a1, bldDoc] from rfl]
    simp [Store.Demo.a1_ok, bldDoc_ok]
  consts := by
    intro d1 h1 d2 h2 c1 c2 m1 m2 _ _
    rw [show docs bldHist = [Store.Demo.a1, bldDoc] from rfl] at h1 h2
    simp only [List.mem_cons, List.not_mem_nil, or_false] at h1 h2
    rcases h1 with rfl | rfl <;> rcases h2 with rfl | rfl <;>
      first
        | rfl
        | (simp [Store.Demo.a1, bldDoc, Store.Demo.cla, Store.Demo.met, Store.Demo.pro, Store.Demo.fn, Store.Demo.glo,
            Store.Demo.claCon] at m1 m2)
  crashes := by simp [Store.Keeps, bldHist]

theorem bld_mem {x : Sym} (hx : Live Store.Demo.env (latest bldHist) x) : x ∈ bldDoc.symbols := by
  obtain ⟨u, d, pre, post, hu, hd, -⟩ := hx
  have : d = bldDoc := by
    simp only [latest, bldHist, List.foldl_cons, List.foldl_nil, latestStep] at hu
    split at hu
    · cases hu
    · split at hu
      · exact (Option.some.inj hu).symm
      · rename_i h1 h2
        rw [if_neg (show ¬ u = Store.Demo.a1.uri from h1)] at hu
        cases hu
  subst this
  rw [hd]; simp

theorem bld_live {x : Sym} (hx : x ∈ bldDoc.symbols) : Live Store.Demo.env (latest bldHist) x := by
  have e : latest bldHist uB = some bldDoc := by decide +kernel
  have no : ∀ y ∈ bldDoc.symbols, y.Indexed := by
    simp [bldDoc, Sym.Indexed]
  simp only [bldDoc, List.mem_cons, List.not_mem_nil, or_false] at hx
  rcases hx with rfl | rfl | rfl | rfl
  · exact ⟨uB, bldDoc, [], _, e, rfl, no _ (by simp [bldDoc]), by simp [SameDecl, Sym.kind]⟩
  · exact ⟨uB, bldDoc, [_], _, e, rfl, no _ (by simp [bldDoc]), by
      simp only [List.mem_cons, List.not_mem_nil, or_false, forall_eq_or_imp, forall_eq]
      refine ⟨by simp [SameDecl, Sym.kind], ?_⟩
      rintro ⟨-, -, hp, -⟩
      exact absurd hp (by decide +kernel)⟩
  · exact ⟨uB, bldDoc, [_, _], _, e, rfl, no _ (by simp [bldDoc]), by simp [SameDecl, Sym.kind]⟩
  · exact ⟨uB, bldDoc, [_, _, _], _, e, rfl, no _ (by simp [bldDoc]), by simp⟩

theorem bld_above : Above Store.Demo.env (latest bldHist) inhB inhA :=
  .parent .self (by decide) (bld_live (by simp [bldDoc])) ((classFQNLower_eq_iff Store.Demo.lower_slash _ _).mp rfl)

theorem bld_method : SomeMethod Store.Demo.env (latest bldHist) b!"\\App\\B" b!"m" bldMeth :=
  ⟨by decide, bld_live (by simp [bldDoc]), rfl, ⟨inhB, inhA, bld_live (by simp [bldDoc]),
    (classFQNLower_eq_iff Store.Demo.lower_slash _ _).mp rfl, bld_above, .inl rfl⟩,
    fun q hq _ _ => by simpa [bldDoc] using bld_mem hq⟩

/-- The query after `$a->m()` on an `A` was asked for is one that resolving leaves. -/
theorem askedBefore_resolving {hist : List HOp} {s : Store} (hok : HistOK Store.Demo.env hist)
    (hs : run Store.Demo.env Store.Demo.root hist = some s) (hA : Live Store.Demo.env (latest hist) (.cla inhA)) :
    Resolving (worldOf Store.Demo.env s) (askedBefore s) := by
  unfold askedBefore
  cases hr : getClassMethods (worldOf Store.Demo.env s) 9 9 (clsOf s inhA) b!"m" none St.new with
  | none => exact .new
  | some r => exact .methods .new ((mem_classes Store.Demo.env_ok hok hs _).mpr ⟨_, hA, rfl⟩) hr

/-- The same for the class `A` without the interface. -/
theorem askedPlain_resolving {hist : List HOp} {s : Store} (hok : HistOK Store.Demo.env hist)
    (hs : run Store.Demo.env Store.Demo.root hist = some s) (hA : Live Store.Demo.env (latest hist) (.cla plainA)) :
    Resolving (worldOf Store.Demo.env s) (askedPlain s) := by
  unfold askedPlain
  cases hr : getClassMethods (worldOf Store.Demo.env s) 9 9 (clsOf s plainA) b!"m" none St.new with
  | none => exact .new
  | some r => exact .methods .new ((mem_classes Store.Demo.env_ok hok hs _).mpr ⟨_, hA, rfl⟩) hr

end Demo

/-- Non-vacuity of C152_method_partial, C152_property and, through the example of C151_chain, of the theorems about chains: the
classes of that example, after `$a->m()` on an `A` was asked for. -/
example : HistOK Store.Demo.env Demo.linkHist ∧ OneEach Store.Demo.env (latest Demo.linkHist) ∧
    Acyclic Store.Demo.env (latest Demo.linkHist) ∧ ClassesApart Store.Demo.env (latest Demo.linkHist) ∧
    NoTrait Store.Demo.env (latest Demo.linkHist) b!"\\App\\B" ∧ Openable (.met Demo.linkMeth) ∧ Openable (.pro Demo.linkProp) ∧
    SomeMethod Store.Demo.env (latest Demo.linkHist) b!"\\App\\B" b!"m" Demo.linkMeth ∧
    SomeProperty Store.Demo.env (latest Demo.linkHist) b!"\\App\\B" b!"$b" Demo.linkProp ∧
    NoInterfaces Store.Demo.env (latest Demo.linkHist) b!"\\App\\B" ∧
    ByArrow [] [] Demo.linkMeth.scope.fqn (.met Demo.linkMeth) ∧ ByArrow [] [] Demo.linkProp.scope.fqn (.pro Demo.linkProp) ∧
    (∀ s, run Store.Demo.env Store.Demo.root Demo.linkHist = some s → Resolving (worldOf Store.Demo.env s) (Demo.askedPlain s)) ∧
    ∃ s, run Store.Demo.env Store.Demo.root Demo.linkHist = some s ∧
      (definitionAfter Store.Demo.env s id 9 9 (Demo.askedPlain s) .method ⟨[], [b!"\\App\\B"]⟩ b!"m" [],
       definitionAfter Store.Demo.env s id 9 9 (Demo.askedPlain s) .prop ⟨[], [b!"\\App\\B"]⟩ b!"b" []) =
      (some [Sym.stored (.met Demo.linkMeth)], some [Sym.stored (.pro Demo.linkProp)]) := by
  refine ⟨Demo.linkHist_ok, Demo.link_each, Demo.link_acyclic, Demo.link_apart, ?_, by unfold Openable; decide, by unfold Openable; decide, Demo.link_method,
    Demo.link_property, Demo.link_bare _, .inl (by simp [Public, Protected, Private, Demo.linkMeth]),
    .inl (by simp [Public, Protected, Private, Demo.linkProp]),
    fun s hs => Demo.askedPlain_resolving Demo.linkHist_ok hs (Demo.link_live (by simp [Demo.linkDoc])),
    Store.Demo.observe _ _ (by decide +kernel)⟩
  intro x hx
  have := Demo.link_mem hx
  simp [Demo.linkDoc] at this

/-- What is missing in C152_method_partial: if `A` and `B extends A` both implement an interface and `m` of `A` is documented to
return a `B`, then go to definition on the second `m` of `$a->m()->m()` leads nowhere. A new query would find it: the object is a
`B`, which inherits `m`. The query that found the type of `$a->m()` remembers the interface as already searched. -/
theorem C152_false_chain_with_interfaces :
    HistOK Store.Demo.env Demo.bldHist ∧
    SomeMethod Store.Demo.env (latest Demo.bldHist) b!"\\App\\B" b!"m" Demo.bldMeth ∧ Openable (.met Demo.bldMeth) ∧
    ByArrow [] [] Demo.bldMeth.scope.fqn (.met Demo.bldMeth) ∧
    (∀ s, run Store.Demo.env Store.Demo.root Demo.bldHist = some s → Resolving (worldOf Store.Demo.env s) (Demo.askedBefore s)) ∧
    ∃ s, run Store.Demo.env Store.Demo.root Demo.bldHist = some s ∧
      ((resolvedIn Store.Demo.env s Decl.senv0.table 9 9 fun _ _ _ _ => St.new).methods ⟨[], b!"$a", []⟩ b!"\\App\\A" b!"m",
       definitionAfter Store.Demo.env s id 9 9 St.new .method ⟨[], [b!"\\App\\B"]⟩ b!"m" [],
       definitionAfter Store.Demo.env s id 9 9 (Demo.askedBefore s) .method ⟨[], [b!"\\App\\B"]⟩ b!"m" []) =
      ([[⟨b!"\\App\\B", b!"B", 0⟩]], some [Sym.stored (.met Demo.bldMeth)], some []) :=
  ⟨Demo.bldHist_ok, Demo.bld_method, by unfold Openable; decide, .inl (by simp [Public, Protected, Private, Demo.bldMeth]),
    fun s hs => Demo.askedBefore_resolving Demo.bldHist_ok hs (Demo.bld_live (by simp [Demo.bldDoc])),
    Store.Demo.observe _ _ (by decide +kernel)⟩

end Verif.Whole
