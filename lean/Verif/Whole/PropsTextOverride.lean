import Verif.Query.PropsOrder
import Verif.Whole.PropsTextHover

/-! C152 and C153 for methods that override others. -/

namespace Verif.Query

/-- What the loops over the types of a request keep. -/
structure Kept (w : World) (st : St) : Prop where
  ok : CacheOk w st
  trt : TrtOk w st
  order : OrderAll w st

theorem Resolving.kept {w : World} (hw : Distinct w) {st : St} (h : Resolving w st) : Kept w st :=
  ⟨h.reachable.cacheOk hw, (h.bare_inv hw).trt, h.order_inv hw⟩

theorem getClassMethods_trt {w : World} {n ni : Nat} {c : Cls} {name : Bytes} {st : St} {r : Inherited × St} (hst : TrtOk w st)
    (h : getClassMethods w n ni c name none st = some r) : TrtAt w st.next r.2 := by
  unfold getClassMethods at h
  simp only [St.searchedOr] at h
  split at h
  · cases h
    exact hst.newSet
  · split at h
    · cases h
    · rename_i m mi st2 hl
      cases h
      have h1 := methodLoop_trt _ _ _ _ _ _ hl rfl hst.newSet
      obtain ⟨-, h3, -⟩ := frame_methodLoop _ _ _ _ _ _ _ _ _ hl rfl
      have e3 : m.searched = st.next := h3
      have hm : TrtAt w st.next (merge m mi st2).2 := by
        simp only [merge, e3]
        exact h1.mark _
      exact hm.set .cls (by simp) _ _ _ _

/-- One round of the loop over the types, if the type names one class and nothing else. -/
theorem round_kept {w : World} (hw : Distinct w) {n ni : Nat} {c : Cls} (hc : c ∈ w.classes) (hb : Bare w c) {name : Bytes}
    {st : St} (hst : Kept w st) {ms : Inherited} {st1 : St}
    (h : gather [getClassMethods w n ni c name] { members := [], rel := [], searched := st.next } st.newSet.2 = some (ms, st1)) :
    Kept w st1 ∧ Ordered w c name ms.members := by
  unfold gather at h
  split at h
  · cases h
  · rename_i r st2 hr
    change getClassMethods w n ni c name none st = some (r, st2) at hr
    have h1 := getClassMethods_order hw hc hst.ok hst.trt hst.order hr
    have h2 := (getClassMethods_ok w hw n ni c hc name none st hst.ok _ hr).1
    have h3 := getClassMethods_trt hst.trt hr
    simp only [gather, merge, Option.some.injEq, Prod.mk.injEq, List.nil_append] at h
    obtain ⟨rfl, rfl⟩ := h
    exact ⟨⟨h2.of_eq rfl, (h3.mark _).ok, h1.1.same (.of_eq rfl)⟩, h1.2 hb⟩

/-- The loop over the types, if all of them name the one class. -/
theorem memberLoop_kept {w : World} (hw : Distinct w) {n ni : Nat} {c : Cls} (hc : c ∈ w.classes) (hb : Bare w c) {name : Bytes}
    (keyOf : Bytes → Bytes) (u : MemberUse) (a : Access) (cur : Bytes) (P : Found → Prop)
    (hred : ∀ ms : Inherited, Ordered w c name ms.members → (∀ f ∈ u.reduce cur a ms, P f) ∧ u.reduce cur a ms ≠ [])
    (ts : List Bytes) (hts : ∀ t ∈ ts, lookups w n ni u name t = [getClassMethods w n ni c name]) (acc : List Found) (st : St)
    (hst : Kept w st) (hacc : ∀ f ∈ acc, P f) (fs : List Found)
    (h : memberLoop w keyOf n ni u a name cur ts acc st = some fs) :
    (∀ f ∈ fs, P f) ∧ (acc ≠ [] ∨ ts ≠ [] → fs ≠ []) := by
  induction ts generalizing acc st with
  | nil => injection h with h; subst h; exact ⟨hacc, fun h => by simpa using h⟩
  | cons t ts ih =>
    unfold memberLoop at h
    simp only at h
    split at h
    · cases h
    · rename_i ms st1 hg
      rw [hts t (by simp)] at hg
      obtain ⟨h1, h2⟩ := round_kept hw hc hb hst hg
      obtain ⟨h3, h4⟩ := hred ms h2
      obtain ⟨k1, k2⟩ := ih (fun t ht => hts t (by simp [ht])) _ _ h1 (by
        intro f hf
        obtain ⟨l, hl, hfl⟩ := (C32_union keyOf [acc, u.reduce cur a ms]).2.1 f hf
        simp only [List.mem_cons, List.not_mem_nil, or_false] at hl
        rcases hl with rfl | rfl
        · exact hacc f hfl
        · exact h3 f hfl) h
      refine ⟨k1, fun _ => k2 (.inl ?_)⟩
      obtain ⟨g, hg⟩ := List.exists_mem_of_ne_nil _ h4
      obtain ⟨g', hg', -⟩ := (C32_union keyOf [acc, u.reduce cur a ms]).2.2 _ (by simp) g hg
      exact List.ne_nil_of_mem hg'

end Verif.Query

namespace Verif.Whole

open Verif.Encoding Verif.Storage Verif.Store Verif.Query

variable {env : Env} {root : Bytes} {h : List HOp} {s : Store}

/-- `m` is the method `n` of the class `c`: this class, one that it extends, directly or not, or a trait that one of them uses
declares it, and any other method of that name that one of these classes has is overridden: it is written in the same case and
belongs to a class that the one with `m` extends, directly or not. -/
structure NearestMethod (env : Env) (L : Bytes → Option Doc) (c n : Bytes) (m : Method) : Prop where
  named : n ≠ []
  live : Live env L (.met m)
  name : env.lower m.name = env.lower n
  above : ∃ d e, Live env L (.cla d) ∧ SameClassName env d.name.fqn c ∧ Above env L d e ∧ Own env L e (.met m) ∧
    ∀ q e', Live env L (.met q) → env.lower q.name = env.lower n → Above env L d e' → Own env L e' (.met q) →
      q = m ∨ q.name = m.name ∧ e' ≠ e ∧ Above env L e e'

theorem above_reach {L : Bytes → Option Doc} {c d : Class} (ha : Above env L c d) : Relation.ReflTransGen (Extends env L) c d := by
  induction ha with
  | self => exact .refl
  | parent _ h1 h2 h3 ih => exact .tail ih ⟨h1, h2, h3⟩

/-- No class extends one that extends it. -/
theorem above_antisymm {L : Bytes → Option Doc} (hac : Acyclic env L) {c d : Class} (hc : Live env L (.cla c)) (h1 : Above env L c d)
    (h2 : Above env L d c) : c = d := by
  rcases Relation.reflTransGen_iff_eq_or_transGen.mp (above_reach h1) with e | h
  · exact e.symm
  · exact absurd (h.trans_left (above_reach h2)) (hac c hc)

/-- What a class itself has, in the index. -/
theorem declared_live (he : EnvOK env) (hok : HistOK env h) (hs : run env root h = some s) {name : Bytes} (hn : name ≠ []) {e : Class}
    {g : Found} : g ∈ declared (worldOf env s) name (clsOf s e) ↔
      ∃ q, Live env (latest h) (.met q) ∧ env.lower q.name = env.lower name ∧ Own env (latest h) e (.met q) ∧
        g = ⟨memberOf s (Sym.stored (.met q)), (memberOf s (Sym.stored (.met q))).scope, 0⟩ := by
  have hfound : ∀ scope, g ∈ (worldOf env s).found .methods scope name ↔
      ∃ q, Live env (latest h) (.met q) ∧ env.lower q.name = env.lower name ∧ q.scope.fqn = scope ∧
        g = ⟨memberOf s (Sym.stored (.met q)), (memberOf s (Sym.stored (.met q))).scope, 0⟩ := by
    intro scope
    simp only [World.found, List.mem_map]
    constructor
    · rintro ⟨m, hm, rfl⟩
      obtain ⟨q, h1, ⟨h2, h3⟩, h4⟩ := (mem_methods he hok hs hn _).mp hm
      refine ⟨q, h1, h3, h2, ?_⟩
      subst h4 h2
      rfl
    · rintro ⟨q, h1, h2, rfl, rfl⟩
      exact ⟨_, (mem_methods he hok hs hn _).mpr ⟨q, h1, ⟨rfl, h2⟩, rfl⟩, rfl⟩
  rw [declared, List.mem_append, List.mem_flatMap, hfound]
  constructor
  · rintro (⟨q, h1, h2, h3, h4⟩ | ⟨t, ht, hg⟩)
    · exact ⟨q, h1, h2, .inl h3, h4⟩
    · obtain ⟨q, h1, h2, h3, h4⟩ := (hfound _).mp hg
      obtain ⟨k1, k2, k3⟩ := (mem_used _ _ _).mp ht
      obtain ⟨tr, k4, rfl⟩ := (mem_traits he hok hs _).mp k3
      obtain ⟨x, k5, k6⟩ := List.mem_map.mp k1
      exact ⟨q, h1, h2, .inr ⟨rfl, tr, k4, ⟨x, k5, k6⟩, k2, h3⟩, h4⟩
  · rintro ⟨q, h1, h2, h3 | ⟨-, tr, k4, ⟨x, k5, k6⟩, k2, h3⟩, h4⟩
    · exact .inl ⟨q, h1, h2, h3, h4⟩
    · exact .inr ⟨trtOf s tr, (mem_used _ _ _).mpr ⟨List.mem_map.mpr ⟨x, k5, k6⟩, k2, (mem_traits he hok hs _).mpr ⟨tr, k4, rfl⟩⟩,
        (hfound _).mpr ⟨q, h1, h2, h3, h4⟩⟩

/-- Of methods in the order of the lineage, only the nearest is reported. -/
theorem nearest_reduced (he : EnvOK env) (hsl : env.LowerSlash) (hok : HistOK env h) (hs : run env root h = some s)
    (ho : OneEach env (latest h)) (hac : Acyclic env (latest h)) {name : Bytes} {m : Method} {d e : Class} (hn : name ≠ [])
    (hm : Live env (latest h) (.met m)) (hname : env.lower m.name = env.lower name) (hd : Live env (latest h) (.cla d))
    (hab : Above env (latest h) d e) (hown : Own env (latest h) e (.met m))
    (hfirst : ∀ q e', Live env (latest h) (.met q) → env.lower q.name = env.lower name → Above env (latest h) d e' →
      Own env (latest h) e' (.met q) → q = m ∨ q.name = m.name ∧ e' ≠ e ∧ Above env (latest h) e e')
    (members : List Found) (hord : Ordered (worldOf env s) (clsOf s d) name members) (ok : Member → Bool)
    (hin : ok (memberOf s (Sym.stored (.met m))) = true) (fs : List Found)
    (h1 : ∀ f ∈ fs, ∃ pre g post, members = pre ++ g :: post ∧ f.member = g.member ∧ f.scope = g.scope ∧
      ∀ h ∈ pre, ok h.member = true → h.member.name ≠ g.member.name)
    (h2 : ∀ g ∈ members, ok g.member = true → ∃ f ∈ fs, f.member.name = g.member.name) :
    (∀ f ∈ fs, f.member = memberOf s (Sym.stored (.met m)) ∧ f.scope = (memberOf s (Sym.stored (.met m))).scope) ∧ fs ≠ [] := by
  have hw := distinct he hsl hok hs ho
  obtain ⟨l, hl, hmem⟩ := hord
  have hel : clsOf s e ∈ l := (lineage_ancestor hw hl _).mpr (ancestor_of he hsl hok hs hab)
  have hmd := (declared_live he hok hs hn (e := e) (g := ⟨memberOf s (Sym.stored (.met m)), (memberOf s (Sym.stored (.met m))).scope, 0⟩)).mpr
    ⟨m, hm, hname, hown, rfl⟩
  refine ⟨fun f hf => ?_, ?_⟩
  · obtain ⟨pre, g, post, k1, k2, k3, k4⟩ := h1 f hf
    rw [hmem] at k1
    obtain ⟨l1, c', l2, rfl, k5, k6⟩ := split_flatMap _ l pre post g k1
    have hc' : Ancestor (worldOf env s) (clsOf s d) c' := (lineage_ancestor hw hl _).mp (by simp)
    obtain ⟨e', hab', rfl⟩ := above_of he hsl hok hs hc'
    obtain ⟨q, j1, j2, j3, j4⟩ := (declared_live he hok hs hn).mp k5
    rcases hfirst q e' j1 j2 hab' j3 with rfl | ⟨j5, j6, j7⟩
    · rw [k2, k3, j4]
      exact ⟨rfl, rfl⟩
    · exfalso
      rcases List.mem_append.mp hel with hel | hel
      · refine k4 _ (k6 _ hel _ hmd) hin ?_
        rw [j4]
        exact j5.symm
      · rcases List.mem_cons.mp hel with hel | hel
        · refine j6 (ho.classes e' e (above_live hd hab') (above_live hd hab) ?_)
          have : (clsOf s e).name = (clsOf s e').name := by rw [hel]
          rw [show e'.name.fqn = e.name.fqn from this.symm]
          exact (key_iff (s := s) hsl _ _).mp rfl
        · have hanc : ∀ (a : Cls) (l : List Cls), (a :: l).IsChain (ParentOf (worldOf env s)) → ∀ b ∈ l, Ancestor (worldOf env s) a b := by
            intro a l hch
            induction l generalizing a with
            | nil => simp
            | cons x l ih =>
              obtain ⟨p1, p2⟩ := List.isChain_cons_cons.mp hch
              intro b hb
              rcases List.mem_cons.mp hb with rfl | hb
              · exact .parent .self p1.1 p1.2.1 p1.2.2
              · exact (ih x p2 b hb).head p1
          obtain ⟨e2, hab2, he2⟩ := above_of he hsl hok hs (hanc _ _ (List.isChain_append.mp hl.chain).2.1 _ hel)
          have : e2 = e := by
            refine ho.classes e2 e (above_live (above_live hd hab') hab2) (above_live hd hab) ?_
            have : (clsOf s e2).name = (clsOf s e).name := by rw [he2]
            rw [show e2.name.fqn = e.name.fqn from this]
            exact (key_iff (s := s) hsl _ _).mp rfl
          subst this
          exact j6 (above_antisymm hac (above_live hd hab') hab2 j7)
  · obtain ⟨f, hf, -⟩ := h2 _ (by rw [hmem]; exact List.mem_flatMap.mpr ⟨_, hel, hmd⟩) hin
    exact List.ne_nil_of_mem hf

/-- The lookups of a method that may override others, whatever was asked before. -/
theorem nearest_method (he : EnvOK env) (hsl : env.LowerSlash) (hok : HistOK env h) (hs : run env root h = some s)
    (ho : OneEach env (latest h)) (hac : Acyclic env (latest h)) (hap : ClassesApart env (latest h)) (keyOf : Bytes → Bytes) :
    ∀ name, ∃ N, ∀ n ni, N ≤ n → N ≤ ni → ∀ (st : St), Resolving (worldOf env s) st → ∀ (a : Access) (cur t : Bytes) (m : Method),
      a.types ≠ [] → (∀ y ∈ a.types, y = t) → NoTrait env (latest h) t →
      NearestMethod env (latest h) t name m → NoInterfaces env (latest h) t →
      (ByArrow cur a.scopeName m.scope.fqn (.met m) → Sole s (memberLoop (worldOf env s) keyOf n ni .method a name cur a.types [] st) (.met m)) ∧
      (ByScope cur a.scopeName m.scope.fqn (.met m) →
        Sole s (memberLoop (worldOf env s) keyOf n ni .staticMethod a name cur a.types [] st) (.met m)) := by
  intro name
  have hw := distinct he hsl hok hs ho
  obtain ⟨N, hN⟩ := lookups_end (worldOf env s) (noCycle he hsl hok hs hac)
  have key : ∀ (u : MemberUse), u = .method ∨ u = .staticMethod → ∀ n ni, N ≤ n → N ≤ ni → ∀ (st : St), Resolving (worldOf env s) st →
      ∀ (a : Access) (cur t : Bytes) (m : Method), a.types ≠ [] → (∀ y ∈ a.types, y = t) → NoTrait env (latest h) t →
      NearestMethod env (latest h) t name m → NoInterfaces env (latest h) t →
      (u = .method → ∀ rel, isInherited cur a rel (memberOf s (Sym.stored (.met m))) = true) →
      (u = .staticMethod → ∀ rel, isInheritedStatic cur a rel (memberOf s (Sym.stored (.met m))) = true) →
      Sole s (memberLoop (worldOf env s) keyOf n ni u a name cur a.types [] st) (.met m) := by
    intro u hu n ni hn hni st hst a cur t m hne hts htr hm hb hin1 hin2
    obtain ⟨d, e, hd, hdn, hab, hown, hfirst⟩ := hm.above
    have hc : clsOf s d ∈ (worldOf env s).classesNamed t :=
      (mem_classesNamed _ _ _).mpr ⟨(mem_classes he hok hs _).mpr ⟨d, hd, rfl⟩, (key_iff hsl _ _).mpr hdn⟩
    have hone : (worldOf env s).classesNamed t = [clsOf s d] := by
      rcases classesNamed_cases (worldOf env s) hw t with h0 | ⟨x, h0⟩
      · rw [h0] at hc; cases hc
      · rw [h0] at hc ⊢
        rw [List.mem_singleton.mp hc]
    have hnoI : (worldOf env s).interfacesNamed t = [] := by
      refine List.filter_eq_nil_iff.mpr fun i hi hit => ?_
      obtain ⟨y, hy, rfl⟩ := (mem_interfaces he hok hs _).mp hi
      refine hap d hd y hy ?_
      rw [show y.name.fqn = t from of_decide_eq_true hit]
      exact hdn
    have hnoT : (worldOf env s).traitsNamed t = [] := by
      refine List.filter_eq_nil_iff.mpr fun i hi hit => ?_
      obtain ⟨y, hy, rfl⟩ := (mem_traits he hok hs _).mp hi
      refine htr y hy ?_
      rw [show y.name.fqn = t from of_decide_eq_true hit]
      exact (key_iff (s := s) hsl _ _).mp rfl
    have hkey : u.key name = name := by rcases hu with rfl | rfl <;> rfl
    obtain ⟨fs, hfs⟩ := memberLoop_ends (fun t => lookupsAt_end (hN (u.key name)) t) keyOf a cur a.types [] st
    have hfs := hfs n ni hn hni
    have hl : ∀ y ∈ a.types, lookups (worldOf env s) n ni u name y = [getClassMethods (worldOf env s) n ni (clsOf s d) name] := by
      intro y hy
      rw [hts y hy]
      rcases hu with rfl | rfl <;> simp [lookups, hone, hnoI, hnoT, MemberUse.kind, MemberUse.key]
    obtain ⟨h1, h2⟩ := memberLoop_kept hw ((mem_classesNamed _ _ _).mp hc).1 (bare_of he hsl hok hs hb hd hdn) keyOf u a cur
      (fun f => f.member = memberOf s (Sym.stored (.met m)) ∧ f.scope = (memberOf s (Sym.stored (.met m))).scope) (by
        intro ms hms
        rcases hu with rfl | rfl
        · refine nearest_reduced he hsl hok hs ho hac hm.named hm.live hm.name hd hab hown hfirst ms.members hms
            (isInherited cur a ms.rel) (hin1 rfl _) _ (fun f hf => ?_) (C32_access ms cur a).2.2
          obtain ⟨pre, g, post, k1, k2, k3, -, k5⟩ := (C32_access ms cur a).2.1 f hf
          exact ⟨pre, g, post, k1, k2, k3, k5⟩
        · refine nearest_reduced he hsl hok hs ho hac hm.named hm.live hm.name hd hab hown hfirst ms.members hms
            (isInheritedStatic cur a ms.rel) (hin2 rfl _) _ (fun f hf => ?_) (C32_static ms cur a).2.2
          obtain ⟨pre, post, k1, -, k5⟩ := (C32_static ms cur a).2.1 f hf
          exact ⟨pre, f, post, k1, rfl, rfl, k5⟩) a.types hl [] st (hst.kept hw) (by simp) fs hfs
    have hkeys := memberLoop_keys _ _ _ _ _ _ _ _ _ _ _ _ (by simp) hfs
    match fs, hfs, h1, h2 (.inr hne), hkeys with
    | [], _, _, hnon, _ => exact absurd rfl hnon
    | [f], hfs, hmem, _, _ => exact ⟨f, hfs, hmem f (by simp)⟩
    | f :: g :: l, _, hmem, _, hkeys =>
      obtain ⟨h1, h2⟩ := hmem f (by simp)
      obtain ⟨h3, h4⟩ := hmem g (by simp)
      simp [h1, h2, h3, h4] at hkeys
  refine ⟨N, fun n ni hn hni st hst a cur t p hne hts htr hp hb => ⟨fun hu => ?_, fun hu => ?_⟩⟩
  · exact key .method (.inl rfl) n ni hn hni st hst a cur t p hne hts htr hp hb (fun _ rel => inherited_of (k := .methods) rfl s hu rel)
      (fun h => by cases h)
  · exact key .staticMethod (.inr rfl) n ni hn hni st hst a cur t p hne hts htr hp hb (fun h => by cases h)
      (fun _ rel => inheritedStatic_of (k := .methods) rfl s hu rel)

/-! ### C155 -/

/-- C155: after any history, and whatever was asked before in the same request, go to definition on a call of a method leads to
exactly the declaration that overrides all others of the name, in the class of the object or the nearest one above it, if none of
these classes implements an interface. -/
theorem C155_definition_partial (he : EnvOK env) (hsl : env.LowerSlash) (hok : HistOK env h) (hs : run env root h = some s)
    (ho : OneEach env (latest h)) (hac : Acyclic env (latest h)) (hap : ClassesApart env (latest h)) (keyOf : Bytes → Bytes) :
    ∀ name, ∃ N, ∀ n ni, N ≤ n → N ≤ ni → ∀ (st : St), Resolving (worldOf env s) st → ∀ (a : Access) (cur t : Bytes) (m : Method),
      a.types ≠ [] → (∀ y ∈ a.types, y = t) → NoTrait env (latest h) t → Openable (.met m) →
      NearestMethod env (latest h) t name m → NoInterfaces env (latest h) t →
      (ByArrow cur a.scopeName m.scope.fqn (.met m) → LeadsTo (definitionAfter env s keyOf n ni st .method a name cur) (.met m)) ∧
      (ByScope cur a.scopeName m.scope.fqn (.met m) →
        LeadsTo (definitionAfter env s keyOf n ni st .staticMethod a name cur) (.met m)) := by
  intro name
  obtain ⟨N, hN⟩ := nearest_method he hsl hok hs ho hac hap keyOf name
  refine ⟨N, fun n ni hn hni st hst a cur t m hne hts htr hop hm hb => ?_⟩
  obtain ⟨h1, h2⟩ := hN n ni hn hni st hst a cur t m hne hts htr hm hb
  exact ⟨fun hu => (h1 hu).leads he hok hs hm.live rfl hop, fun hu => (h2 hu).leads he hok hs hm.live rfl hop⟩

/-- C155: the same for the text that is shown when hovering. -/
theorem C155_hover_partial (he : EnvOK env) (hsl : env.LowerSlash) (hok : HistOK env h) (hs : run env root h = some s)
    (ho : OneEach env (latest h)) (hac : Acyclic env (latest h)) (hap : ClassesApart env (latest h)) (md : Bytes → Option Bytes)
    (keyOf : Bytes → Bytes) :
    ∀ name, ∃ N, ∀ n ni, N ≤ n → N ≤ ni → ∀ (st : St), Resolving (worldOf env s) st → ∀ (a : Access) (cur t : Bytes) (m : Method),
      a.types ≠ [] → (∀ y ∈ a.types, y = t) → NoTrait env (latest h) t →
      NearestMethod env (latest h) t name m → NoInterfaces env (latest h) t →
      ∃ scope, Container env (latest h) m.scope.fqn scope ∧
        (ByArrow cur a.scopeName m.scope.fqn (.met m) →
          hoverAfter env s md keyOf n ni st .method a name cur = some (Show.methodHover md scope m)) ∧
        (ByScope cur a.scopeName m.scope.fqn (.met m) →
          hoverAfter env s md keyOf n ni st .staticMethod a name cur = some (Show.methodHover md scope m)) := by
  intro name
  obtain ⟨N, hN⟩ := nearest_method he hsl hok hs ho hac hap keyOf name
  refine ⟨N, fun n ni hn hni st hst a cur t m hne hts htr hm hb => ?_⟩
  obtain ⟨h1, h2⟩ := hN n ni hn hni st hst a cur t m hne hts htr hm hb
  have hhas : Has env (latest h) t m.scope.fqn := by
    obtain ⟨d, e, k1, k2, k3, k4, -⟩ := hm.above
    rcases k4 with k4 | ⟨-, tr, k5, k6, k7, k8⟩
    · exact .inl ⟨d, k1, k2, e, k3, .inl k4⟩
    · exact .inl ⟨d, k1, k2, e, k3, .inr (.inl ⟨tr, k5, k6, k7, k8⟩)⟩
  exact ⟨scopeNamed s m.scope.fqn, scopeNamed_of he hok hs (has_container hhas),
    fun hu => (h1 hu).shown he hok hs md hm.live rfl, fun hu => (h2 hu).shown he hok hs md hm.live rfl⟩

/-- C155: at the end of a chain of accesses (C151) whose declarations say that it is an object of the one class `t`, go to
definition on a method leads to exactly the declaration that overrides all others, if neither the class nor a class above it
implements an interface. -/
theorem C155_chain_partial (he : EnvOK env) (hsl : env.LowerSlash) (hok : HistOK env h) (hs : run env root h = some s)
    (ho : OneEach env (latest h)) (hac : Acyclic env (latest h)) (hap : ClassesApart env (latest h)) (keyOf : Bytes → Bytes)
    (last : Imports.Table) (st) (hst : ∀ u a c name, Resolving (worldOf env s) (st u a c name)) :
    ∀ name, ∃ N, ∀ n ni, N ≤ n → N ≤ ni → ∀ (here : Bytes) (e0 : Infer.Expr) (S0 : Bytes → Prop) (e : Infer.Expr) (t : Bytes) (m : Method)
      (after : St), Resolving (worldOf env s) after → Chain env (latest h) here e0 S0 e (· = t) →
      (∀ q, q ∈ (e0.typesIn (resolvedIn env s last n ni st)).map Types.Ty.fqn ↔ S0 q) →
      NoTrait env (latest h) t → Openable (.met m) → NearestMethod env (latest h) t name m → NoInterfaces env (latest h) t →
      ByArrow here e.scopeName m.scope.fqn (.met m) →
      LeadsTo (definitionAfter env s keyOf n ni after .method
        ⟨e.scopeName, (e.typesIn (resolvedIn env s last n ni st)).map Types.Ty.fqn⟩ name here) (.met m) := by
  intro name
  obtain ⟨N, hN⟩ := C151_chain he hsl hok hs ho hac hap last st hst
  obtain ⟨M, hM⟩ := C155_definition_partial he hsl hok hs ho hac hap keyOf name
  refine ⟨max N M, fun n ni hn hni here e0 S0 e t p after ha hc h0 htr hop hp hb hu => ?_⟩
  have hty := hN n ni (le_trans (le_max_left _ _) hn) (le_trans (le_max_left _ _) hni) here e0 S0 e _ hc h0
  exact (hM n ni (le_trans (le_max_right _ _) hn) (le_trans (le_max_right _ _) hni) after ha
    ⟨e.scopeName, (e.typesIn (resolvedIn env s last n ni st)).map Types.Ty.fqn⟩ here t p
    (List.ne_nil_of_mem ((hty t).mpr rfl)) (fun y hy => (hty y).mp hy) htr hop hp hb).1 hu

/-! ### Examples -/

namespace Demo

open Store.Demo (uA uB)

/-- `function m() {}` of `B`, with the name as it is written. -/
def ovrMeth (n : Bytes) : Method := ⟨Store.Demo.loc uB 7, Store.Demo.loc uB 7, n, [], [], [], Store.Demo.ty b!"App\\B", 0, false, 0, none⟩

/-- `class A { function m() {} }` and `class B extends A` with this method. -/
def ovrDoc (n : Bytes) : Doc where
  uri := uB
  hash := b!"9"
  symbols := [.cla plainA, .met linkMeth, .cla plainB, .met (ovrMeth n)]
  namespaces := []
  refs := []

def ovrHist (n : Bytes) : List HOp := [.upgrade b!"v0.0.16", .index Store.Demo.a1, .restart, .index (ovrDoc n), .delete uA]

theorem ovrDoc_ok {n : Bytes} (hn : n = b!"m" ∨ n = b!"M") : DocOK Store.Demo.env (ovrDoc n) where
  uri := Store.Demo.uB_ok
  len := by rcases hn with rfl | rfl <;> decide
  syms := by
    have : ∀ x ∈ (ovrDoc n).symbols, x.WF := by
      rcases hn with rfl | rfl <;>
      simp [ovrDoc, plainA, plainB, ovrMeth, linkMeth, Sym.WF, Class.WF, Method.WF, Location.WF,
        Store.Demo.loc, uB, Str, Store.Demo.ty, TypeString.WF, Types.WF, ListWF, DeprecatedWF]
    intro x hx
    rcases hn with rfl | rfl
    · exact Store.Demo.sym_ok (this x hx) ((by decide +kernel : ∀ x ∈ (ovrDoc b!"m").symbols, ∀ n ∈ x.names, sep ∉ n) x hx)
        ((by decide +kernel : ∀ x ∈ (ovrDoc b!"m").symbols, x.location.uri = uB) x hx)
        ((by decide +kernel : ∀ x ∈ (ovrDoc b!"m").symbols, (x.key Store.Demo.env).length < 1000) x hx)
    · exact Store.Demo.sym_ok (this x hx) ((by decide +kernel : ∀ x ∈ (ovrDoc b!"M").symbols, ∀ n ∈ x.names, sep ∉ n) x hx)
        ((by decide +kernel : ∀ x ∈ (ovrDoc b!"M").symbols, x.location.uri = uB) x hx)
        ((by decide +kernel : ∀ x ∈ (ovrDoc b!"M").symbols, (x.key Store.Demo.env).length < 1000) x hx)
  refsLen := by rcases hn with rfl | rfl <;> decide
  refs := by simp [ovrDoc]

theorem ovrHist_ok {n : Bytes} (hn : n = b!"m" ∨ n = b!"M") : HistOK Store.Demo.env (ovrHist n) where
  docs := by
    rw [show docs (ovrHist n) = [Store.Demo.a1, ovrDoc n] from rfl]
    simp [Store.Demo.a1_ok, ovrDoc_ok hn]
  consts := by
    intro d1 h1 d2 h2 c1 c2 m1 m2 _ _
    rw [show docs (ovrHist n) = [Store.Demo.a1, ovrDoc n] from rfl] at h1 h2
    simp only [List.mem_cons, List.not_mem_nil, or_false] at h1 h2
    rcases h1 with rfl | rfl <;> rcases h2 with rfl | rfl <;>
      first
        | rfl
        | (simp [Store.Demo.a1, ovrDoc, Store.Demo.cla, Store.Demo.met, Store.Demo.pro, Store.Demo.fn, Store.Demo.glo,
            Store.Demo.claCon] at m1 m2)
  crashes := by simp [Store.Keeps, ovrHist]

theorem ovr_mem {n : Bytes} {x : Sym} (hx : Live Store.Demo.env (latest (ovrHist n)) x) : x ∈ (ovrDoc n).symbols := by
  obtain ⟨u, d, pre, post, hu, hd, -⟩ := hx
  have : d = ovrDoc n := by
    simp only [latest, ovrHist, List.foldl_cons, List.foldl_nil, latestStep] at hu
    split at hu
    · cases hu
    · split at hu
      · exact (Option.some.inj hu).symm
      · rename_i h1 h2
        rw [if_neg (show ¬ u = Store.Demo.a1.uri from h1)] at hu
        cases hu
  subst this
  rw [hd]; simp

theorem ovr_live {x : Sym} (hx : x ∈ (ovrDoc b!"m").symbols) : Live Store.Demo.env (latest (ovrHist b!"m")) x := by
  have e : latest (ovrHist b!"m") uB = some (ovrDoc b!"m") := by decide +kernel
  have no : ∀ y ∈ (ovrDoc b!"m").symbols, y.Indexed := by
    simp [ovrDoc, Sym.Indexed]
  simp only [ovrDoc, List.mem_cons, List.not_mem_nil, or_false] at hx
  rcases hx with rfl | rfl | rfl | rfl
  · exact ⟨uB, ovrDoc b!"m", [], _, e, rfl, no _ (by simp [ovrDoc]), by
      simp only [List.mem_cons, List.not_mem_nil, or_false, forall_eq_or_imp, forall_eq]
      refine ⟨by simp [SameDecl, Sym.kind], ?_, by simp [SameDecl, Sym.kind]⟩
      rintro ⟨-, -, hp, -⟩
      exact absurd hp (by decide +kernel)⟩
  · exact ⟨uB, ovrDoc b!"m", [_], _, e, rfl, no _ (by simp [ovrDoc]), by
      simp only [List.mem_cons, List.not_mem_nil, or_false, forall_eq_or_imp, forall_eq]
      refine ⟨by simp [SameDecl, Sym.kind], ?_⟩
      rintro ⟨-, -, hp, -⟩
      exact absurd hp (by decide +kernel)⟩
  · exact ⟨uB, ovrDoc b!"m", [_, _], _, e, rfl, no _ (by simp [ovrDoc]), by simp [SameDecl, Sym.kind]⟩
  · exact ⟨uB, ovrDoc b!"m", [_, _, _], _, e, rfl, no _ (by simp [ovrDoc]), by simp⟩

theorem ovr_cla {n : Bytes} {c : Class} (hc : Live Store.Demo.env (latest (ovrHist n)) (.cla c)) : c = plainA ∨ c = plainB := by
  simpa [ovrDoc] using ovr_mem hc

theorem ovr_each : OneEach Store.Demo.env (latest (ovrHist b!"m")) where
  classes c d hc hd hn := by
    rcases ovr_cla hc with rfl | rfl <;> rcases ovr_cla hd with rfl | rfl
    · rfl
    · exact absurd hn (inh_ne (by decide +kernel))
    · exact absurd hn (inh_ne (by decide +kernel))
    · rfl
  interfaces c d hc hd _ := by
    have := ovr_mem hc
    simp [ovrDoc] at this

theorem ovr_acyclic : Acyclic Store.Demo.env (latest (ovrHist b!"m")) := by
  have h0 : ∀ d, ¬ Extends Store.Demo.env (latest (ovrHist b!"m")) plainA d := fun d hd => absurd rfl hd.1
  intro c hc h
  rcases ovr_cla hc with rfl | rfl
  · rcases Relation.TransGen.head'_iff.mp h with ⟨d, hd, -⟩
    exact h0 d hd
  · rcases Relation.TransGen.head'_iff.mp h with ⟨d, hd, hdb⟩
    rcases ovr_cla hd.2.1 with rfl | rfl
    · rcases Relation.ReflTransGen.cases_head hdb with e | ⟨x, hx, -⟩
      · exact absurd (congrArg (·.location.range) e) (by decide +kernel)
      · exact h0 x hx
    · exact inh_ne (by decide +kernel) hd.2.2

theorem ovr_nearest : NearestMethod Store.Demo.env (latest (ovrHist b!"m")) b!"\\App\\B" b!"m" (ovrMeth b!"m") := by
  refine ⟨by decide, ovr_live (by simp [ovrDoc]), rfl, plainB, plainB, ovr_live (by simp [ovrDoc]),
    (classFQNLower_eq_iff Store.Demo.lower_slash _ _).mp rfl, .self, .inl rfl, fun q e' hq _ hab hown => ?_⟩
  have hq := ovr_mem hq
  simp only [ovrDoc, List.mem_cons, List.not_mem_nil, or_false, reduceCtorEq, false_or, Sym.met.injEq] at hq
  rcases hq with rfl | rfl
  · right
    refine ⟨rfl, ?_, hab⟩
    rintro rfl
    rcases hown with h | ⟨-, t, ht, -⟩
    · exact absurd h (by decide +kernel)
    · have := ovr_mem ht
      simp [ovrDoc] at this
  · exact .inl rfl

end Demo

/-- Non-vacuity of the theorems of C155: `class B extends A`, both with a method `m`, after `$a->m()` on an `A` was asked for. -/
example : HistOK Store.Demo.env (Demo.ovrHist b!"m") ∧ OneEach Store.Demo.env (latest (Demo.ovrHist b!"m")) ∧
    Acyclic Store.Demo.env (latest (Demo.ovrHist b!"m")) ∧ ClassesApart Store.Demo.env (latest (Demo.ovrHist b!"m")) ∧
    NoTrait Store.Demo.env (latest (Demo.ovrHist b!"m")) b!"\\App\\B" ∧ Openable (.met (Demo.ovrMeth b!"m")) ∧
    NearestMethod Store.Demo.env (latest (Demo.ovrHist b!"m")) b!"\\App\\B" b!"m" (Demo.ovrMeth b!"m") ∧
    NoInterfaces Store.Demo.env (latest (Demo.ovrHist b!"m")) b!"\\App\\B" ∧
    ByArrow [] [] (Demo.ovrMeth b!"m").scope.fqn (.met (Demo.ovrMeth b!"m")) ∧
    (∀ s, run Store.Demo.env Store.Demo.root (Demo.ovrHist b!"m") = some s → Resolving (worldOf Store.Demo.env s) (Demo.askedPlain s)) ∧
    ∃ s, run Store.Demo.env Store.Demo.root (Demo.ovrHist b!"m") = some s ∧
      (definitionAfter Store.Demo.env s id 9 9 (Demo.askedPlain s) .method ⟨[], [b!"\\App\\B"]⟩ b!"m" [],
       definitionAfter Store.Demo.env s id 9 9 (Demo.askedPlain s) .method ⟨[], [b!"\\App\\A"]⟩ b!"m" []) =
      (some [Sym.stored (.met (Demo.ovrMeth b!"m"))], some [Sym.stored (.met Demo.linkMeth)]) := by
  refine ⟨Demo.ovrHist_ok (.inl rfl), Demo.ovr_each, Demo.ovr_acyclic, ?_, ?_, by unfold Openable; decide, Demo.ovr_nearest, ?_,
    .inl (by simp [Public, Protected, Private, Demo.ovrMeth]),
    fun s hs => Demo.askedPlain_resolving (Demo.ovrHist_ok (.inl rfl)) hs (Demo.ovr_live (by simp [Demo.ovrDoc])),
    Store.Demo.observe _ _ (by decide +kernel)⟩
  · intro d _ i hi
    have := Demo.ovr_mem hi
    simp [Demo.ovrDoc] at this
  · intro x hx
    have := Demo.ovr_mem hx
    simp [Demo.ovrDoc] at this
  · intro d e _ _ _ i hi
    have := Demo.ovr_mem hi
    simp [Demo.ovrDoc] at this

/-- What `NearestMethod` excludes: if the method of `B` is written `M` and that of `A` is written `m`, which is the same name in
PHP, go to definition on a call of it leads to both. -/
theorem C155_false_case : HistOK Store.Demo.env (Demo.ovrHist b!"M") ∧ Store.Demo.env.lower b!"M" = Store.Demo.env.lower b!"m" ∧
    ∃ s, run Store.Demo.env Store.Demo.root (Demo.ovrHist b!"M") = some s ∧
      definitionAfter Store.Demo.env s id 9 9 St.new .method ⟨[], [b!"\\App\\B"]⟩ b!"M" [] =
      some [Sym.stored (.met (Demo.ovrMeth b!"M")), Sym.stored (.met Demo.linkMeth)] :=
  ⟨Demo.ovrHist_ok (.inr rfl), by decide +kernel, Store.Demo.observe _ _ (by decide +kernel)⟩

end Verif.Whole
