import Verif.Query.Lemmas
import Mathlib.Data.List.Nodup

/-! Everything that is found comes from a declaration that can be reached. -/

namespace Verif.Query

theorem IntfAncestor.trans {w : World} {a b c : Intf} (h : IntfAncestor w a b) (h' : IntfAncestor w b c) :
    IntfAncestor w a c := by
  induction h' with
  | self => exact h
  | parent _ h1 h2 h3 ih => exact .parent ih h1 h2 h3

/-- A member that an interface has. -/
def FromIntf (w : World) (k : Kind) (name : Bytes) (i : Intf) (f : Found) : Prop :=
  ∃ scope, IntfProvides w i scope ∧ f ∈ w.found k scope name

/-- A member that a class has. -/
def FromCls (w : World) (k : Kind) (name : Bytes) (c : Cls) (f : Found) : Prop :=
  ∃ scope, Provides w c scope ∧ f ∈ w.found k scope name

/-- The cached results are right. -/
structure CacheOk (w : World) (st : St) : Prop where
  trt : ∀ k fqn name r, st.cache.get (.trt, k, fqn, name) = some r → r.members = w.found .methods fqn name
  intf : ∀ k fqn name r, st.cache.get (.intf, k, fqn, name) = some r → ∀ i ∈ w.interfaces, i.name = fqn →
    ∀ f ∈ r.members, FromIntf w k name i f
  cls : ∀ k fqn name r, st.cache.get (.cls, k, fqn, name) = some r → ∀ c ∈ w.classes, c.name = fqn →
    ∀ f ∈ r.members, FromCls w k name c f

theorem CacheOk.of_eq {w : World} {st st' : St} (h : CacheOk w st) (he : st'.cache = st.cache) : CacheOk w st' := by
  constructor
  · rw [he]; exact h.trt
  · rw [he]; exact h.intf
  · rw [he]; exact h.cls

theorem Distinct.cls {w : World} (h : Distinct w) {c d : Cls} (hc : c ∈ w.classes) (hd : d ∈ w.classes)
    (he : w.key c.name = w.key d.name) : c = d := List.inj_on_of_nodup_map h.classes hc hd he

theorem Distinct.intf {w : World} (h : Distinct w) {c d : Intf} (hc : c ∈ w.interfaces) (hd : d ∈ w.interfaces)
    (he : c.name = d.name) : c = d := List.inj_on_of_nodup_map h.interfaces hc hd he

theorem intfLoop_sound (w : World) (k : Kind) (name : Bytes) (i₀ : Intf) (n : Nat) (queue : List Intf) (m : Inherited)
    (st : St) (r : Inherited × St) (h : intfLoop w k name n queue m st = some r)
    (hq : ∀ j ∈ queue, IntfAncestor w i₀ j) (hm : ∀ f ∈ m.members, FromIntf w k name i₀ f) :
    ∀ f ∈ r.1.members, FromIntf w k name i₀ f := by
  induction n generalizing queue m st with
  | zero =>
    cases queue with
    | nil => simp only [intfLoop, Option.some.injEq] at h; subst h; exact hm
    | cons i q => simp [intfLoop] at h
  | succ n ih =>
    cases queue with
    | nil => simp only [intfLoop, Option.some.injEq] at h; subst h; exact hm
    | cons i q =>
      simp only [intfLoop] at h
      split at h
      · exact ih _ _ _ h (fun j hj => hq j (by simp [hj])) hm
      · refine ih _ _ _ h ?_ ?_
        · intro j hj
          rw [List.mem_append, List.mem_filter] at hj
          rcases hj with hj | ⟨hj, -⟩
          · exact hq j (by simp [hj])
          · have := (mem_parents w i j).mp hj
            exact .parent (hq i (by simp)) this.1 this.2.1 this.2.2
        · intro f hf
          rw [List.mem_append] at hf
          rcases hf with hf | hf
          · exact hm f hf
          · exact ⟨i.name, ⟨i, hq i (by simp), rfl⟩, hf⟩

theorem getInterface_ok (w : World) (hw : Distinct w) (k : Kind) (n : Nat) (i : Intf) (hi : i ∈ w.interfaces)
    (name : Bytes) (o : Option Nat) (st : St) (hst : CacheOk w st)
    (r : Inherited × St) (h : getInterface w k n i name o st = some r) :
    CacheOk w r.2 ∧ ∀ f ∈ r.1.members, FromIntf w k name i f := by
  have hst' : CacheOk w (st.searchedOr o).2 := hst.of_eq (st.searchedOr_cache o)
  unfold getInterface at h
  simp only at h
  split at h
  · rename_i m hm
    simp only [Option.some.injEq] at h
    subst h
    exact ⟨hst', hst'.intf _ _ _ _ hm i hi rfl⟩
  · obtain ⟨⟨m, st'⟩, h1, rfl⟩ := Option.map_eq_some_iff.mp h
    have hk := intfLoop_keeps _ _ _ _ _ _ _ _ h1
    have hs := intfLoop_sound w k name i n _ _ _ _ h1 (by simpa using IntfAncestor.self) (by simp)
    have hc : CacheOk w st' := hst'.of_eq hk.cache
    refine ⟨⟨?_, ?_, ?_⟩, hs⟩
    · intro k' fqn nm r' hr'
      simp only [GoMap.get_set] at hr'
      rw [if_neg (by simp)] at hr'
      exact hc.trt _ _ _ _ hr'
    · intro k' fqn nm r' hr' j hj hjn
      simp only [GoMap.get_set] at hr'
      split at hr'
      · rename_i heq
        simp only [Prod.mk.injEq, true_and] at heq
        obtain ⟨rfl, rfl, rfl⟩ := heq
        simp only [Option.some.injEq] at hr'
        subst hr'
        rw [hw.intf hj hi hjn]
        exact hs
      · exact hc.intf _ _ _ _ hr' j hj hjn
    · intro k' fqn nm r' hr'
      simp only [GoMap.get_set] at hr'
      rw [if_neg (by simp)] at hr'
      exact hc.cls _ _ _ _ hr'

theorem getTrait_ok (w : World) (t : Trt) (name : Bytes) (st : St) (hst : CacheOk w st) :
    CacheOk w (getTrait w t name st).2 ∧ (getTrait w t name st).1.members = w.found .methods t.name name := by
  unfold getTrait
  split
  · rename_i m hm
    exact ⟨hst, hst.trt _ _ _ _ hm⟩
  · refine ⟨⟨?_, ?_, ?_⟩, rfl⟩
    · intro k' fqn nm r' hr'
      simp only [GoMap.get_set] at hr'
      split at hr'
      · rename_i heq
        simp only [Prod.mk.injEq, true_and] at heq
        obtain ⟨rfl, rfl, rfl⟩ := heq
        simp only [Option.some.injEq] at hr'
        subst hr'
        rfl
      · exact hst.trt _ _ _ _ hr'
    · intro k' fqn nm r' hr'
      simp only [GoMap.get_set] at hr'
      rw [if_neg (by simp)] at hr'
      exact hst.intf _ _ _ _ hr'
    · intro k' fqn nm r' hr'
      simp only [GoMap.get_set] at hr'
      rw [if_neg (by simp)] at hr'
      exact hst.cls _ _ _ _ hr'

theorem mergeTraits_ok (w : World) (name : Bytes) (ts : List Trt) (m : Inherited) (st : St) (hst : CacheOk w st) :
    CacheOk w (mergeTraits w name ts m st).2 ∧
      (mergeTraits w name ts m st).1.members = m.members ++ ts.flatMap fun t => w.found .methods t.name name := by
  unfold mergeTraits
  induction ts generalizing m st with
  | nil => exact ⟨hst, by simp⟩
  | cons t ts ih =>
    rw [List.foldl_cons]
    have ht := getTrait_ok w t name st hst
    have := ih (merge m (getTrait w t name st).1 (getTrait w t name st).2).1
      (merge m (getTrait w t name st).1 (getTrait w t name st).2).2 (ht.1.of_eq rfl)
    refine ⟨this.1, this.2.trans ?_⟩
    simp [merge, ht.2]

theorem mergeInterfaces_ok (w : World) (hw : Distinct w) (k : Kind) (n : Nat) (name : Bytes) (is : List Intf)
    (his : ∀ i ∈ is, i ∈ w.interfaces) (m : Inherited) (st : St)
    (r : Inherited × St) (h : mergeInterfaces w k n name is m st = some r) (hst : CacheOk w st) :
    CacheOk w r.2 ∧ ∀ f ∈ r.1.members, f ∈ m.members ∨ ∃ i ∈ is, FromIntf w k name i f := by
  induction is generalizing m st with
  | nil =>
    simp only [mergeInterfaces, Option.some.injEq] at h
    subst h
    exact ⟨hst, fun f hf => .inl hf⟩
  | cons i is ih =>
    simp only [mergeInterfaces] at h
    cases hg : getInterface w k n i name (some m.searched) st with
    | none => rw [hg] at h; simp at h
    | some r' =>
      obtain ⟨r', st'⟩ := r'
      rw [hg] at h
      have h1 := getInterface_ok w hw k n i (his i (by simp)) name _ st hst _ hg
      have h2 := ih (fun j hj => his j (by simp [hj])) _ _ h (h1.1.of_eq rfl)
      refine ⟨h2.1, fun f hf => ?_⟩
      rcases h2.2 f hf with hf | ⟨j, hj, hf⟩
      · simp only [merge, List.mem_append] at hf
        rcases hf with hf | hf
        · exact .inl hf
        · exact .inr ⟨i, by simp, h1.2 f hf⟩
      · exact .inr ⟨j, by simp [hj], hf⟩

/-- What a class contributes to its descendants. -/
theorem fromCls_own {w : World} {k : Kind} {name : Bytes} {c d : Cls} (h : Ancestor w c d) {f : Found}
    (hf : f ∈ w.found k d.name name) : FromCls w k name c f := ⟨d.name, ⟨d, h, .inl rfl⟩, hf⟩

theorem fromCls_trait {w : World} {name : Bytes} {c d : Cls} (h : Ancestor w c d) {t : Trt} (ht : t ∈ w.used d)
    {f : Found} (hf : f ∈ w.found .methods t.name name) : FromCls w .methods name c f := by
  have := (mem_used w d t).mp ht
  exact ⟨t.name, ⟨d, h, .inr (.inl ⟨t, this.2.2, this.1, this.2.1, t, .self, rfl⟩)⟩, hf⟩

theorem fromCls_intf {w : World} {k : Kind} {name : Bytes} {c d : Cls} (h : Ancestor w c d) {i : Intf}
    (hi : i ∈ w.implemented d) {f : Found} (hf : FromIntf w k name i f) : FromCls w k name c f := by
  have := (mem_implemented w d i).mp hi
  obtain ⟨s, ⟨j, hj, hs⟩, hf⟩ := hf
  exact ⟨s, ⟨d, h, .inr (.inr ⟨i, this.2.2, this.1, this.2.1, j, hj, hs⟩)⟩, hf⟩

theorem methodLoop_ok (w : World) (hw : Distinct w) (name : Bytes) (ni : Nat) (c₀ : Cls) (n : Nat) (queue : List Cls)
    (m mi : Inherited) (st : St) (r : Inherited × Inherited × St) (h : methodLoop w name ni n queue m mi st = some r)
    (hst : CacheOk w st) (hq : ∀ c ∈ queue, Ancestor w c₀ c) (hm : ∀ f ∈ m.members, FromCls w .methods name c₀ f)
    (hmi : ∀ f ∈ mi.members, FromCls w .methods name c₀ f) :
    CacheOk w r.2.2 ∧ (∀ f ∈ r.1.members, FromCls w .methods name c₀ f) ∧
      ∀ f ∈ r.2.1.members, FromCls w .methods name c₀ f := by
  induction n generalizing queue m mi st with
  | zero =>
    cases queue with
    | nil => simp only [methodLoop, Option.some.injEq] at h; subst h; exact ⟨hst, hm, hmi⟩
    | cons c q => simp [methodLoop] at h
  | succ n ih =>
    cases queue with
    | nil => simp only [methodLoop, Option.some.injEq] at h; subst h; exact ⟨hst, hm, hmi⟩
    | cons c q =>
      simp only [methodLoop] at h
      split at h
      · exact ih _ _ _ _ h hst (fun x hx => hq x (by simp [hx])) hm hmi
      · have ht := mergeTraits_ok w name (w.used c) { m with members := m.members ++ w.found .methods c.name name }
          (st.mark m.searched [c.name]) (hst.of_eq rfl)
        cases hg : mergeInterfaces w .methods ni name (w.implemented c) mi
            (mergeTraits w name (w.used c) { m with members := m.members ++ w.found .methods c.name name }
              (st.mark m.searched [c.name])).2 with
        | none => rw [hg] at h; simp at h
        | some r' =>
          obtain ⟨mi', st'⟩ := r'
          rw [hg] at h
          have h2 := mergeInterfaces_ok w hw _ _ _ _ (fun i hi => ((mem_implemented w c i).mp hi).2.2) _ _ _ hg ht.1
          have hc := hq c (by simp)
          refine ih _ _ _ _ h h2.1 ?_ ?_ ?_
          · intro x hx
            split at hx
            · rename_i he
              rw [List.mem_append, mem_classesNamed] at hx
              rcases hx with hx | hx
              · exact hq x (by simp [hx])
              · exact .parent hc he.1 hx.1 hx.2
            · exact hq x (by simp [hx])
          · rw [ht.2]
            intro f hf
            simp only [List.mem_append, List.mem_flatMap] at hf
            rcases hf with (hf | hf) | ⟨t, ht, hf⟩
            · exact hm f hf
            · exact fromCls_own hc hf
            · exact fromCls_trait hc ht hf
          · intro f hf
            rcases h2.2 f hf with hf | ⟨i, hi, hf⟩
            · exact hmi f hf
            · exact fromCls_intf hc hi hf

theorem plainLoop_ok (w : World) (hw : Distinct w) (k : Kind) (name : Bytes) (ni : Nat) (c₀ : Cls) (n : Nat)
    (queue : List Cls) (m mi : Inherited) (st : St) (r : Inherited × Inherited × St)
    (h : plainLoop w k name ni n queue m mi st = some r)
    (hst : CacheOk w st) (hq : ∀ c ∈ queue, Ancestor w c₀ c) (hm : ∀ f ∈ m.members, FromCls w k name c₀ f)
    (hmi : ∀ f ∈ mi.members, FromCls w k name c₀ f) :
    CacheOk w r.2.2 ∧ (∀ f ∈ r.1.members, FromCls w k name c₀ f) ∧
      ∀ f ∈ r.2.1.members, FromCls w k name c₀ f := by
  induction n generalizing queue m mi st with
  | zero =>
    cases queue with
    | nil => simp only [plainLoop, Option.some.injEq] at h; subst h; exact ⟨hst, hm, hmi⟩
    | cons c q => simp [plainLoop] at h
  | succ n ih =>
    cases queue with
    | nil => simp only [plainLoop, Option.some.injEq] at h; subst h; exact ⟨hst, hm, hmi⟩
    | cons c q =>
      simp only [plainLoop] at h
      cases hg : mergeInterfaces w k ni name (w.implemented c) mi st with
      | none => rw [hg] at h; simp at h
      | some r' =>
        obtain ⟨mi', st'⟩ := r'
        rw [hg] at h
        have h2 := mergeInterfaces_ok w hw _ _ _ _ (fun i hi => ((mem_implemented w c i).mp hi).2.2) _ _ _ hg hst
        have hc := hq c (by simp)
        refine ih _ _ _ _ h h2.1 ?_ ?_ ?_
        · intro x hx
          split at hx
          · rename_i he
            rw [List.mem_append, mem_classesNamed] at hx
            rcases hx with hx | hx
            · exact hq x (by simp [hx])
            · exact .parent hc he.1 hx.1 hx.2
          · exact hq x (by simp [hx])
        · intro f hf
          simp only [List.mem_append] at hf
          rcases hf with hf | hf
          · exact hm f hf
          · exact fromCls_own hc hf
        · intro f hf
          rcases h2.2 f hf with hf | ⟨i, hi, hf⟩
          · exact hmi f hf
          · exact fromCls_intf hc hi hf

theorem cacheOk_setCls {w : World} (hw : Distinct w) {st : St} (hst : CacheOk w st) (k : Kind) (c : Cls)
    (hc : c ∈ w.classes) (name : Bytes) (m : Inherited) (hm : ∀ f ∈ m.members, FromCls w k name c f) :
    CacheOk w { st with cache := st.cache.set (.cls, k, c.name, name) m } := by
  refine ⟨?_, ?_, ?_⟩
  · intro k' fqn nm r' hr'
    simp only [GoMap.get_set] at hr'
    rw [if_neg (by simp)] at hr'
    exact hst.trt _ _ _ _ hr'
  · intro k' fqn nm r' hr'
    simp only [GoMap.get_set] at hr'
    rw [if_neg (by simp)] at hr'
    exact hst.intf _ _ _ _ hr'
  · intro k' fqn nm r' hr' d hd hdn
    simp only [GoMap.get_set] at hr'
    split at hr'
    · rename_i heq
      simp only [Prod.mk.injEq, true_and] at heq
      obtain ⟨rfl, rfl, rfl⟩ := heq
      simp only [Option.some.injEq] at hr'
      subst hr'
      rw [hw.cls hd hc (by rw [hdn])]
      exact hm
    · exact hst.cls _ _ _ _ hr' d hd hdn

theorem getClassMethods_ok (w : World) (hw : Distinct w) (n ni : Nat) (c : Cls) (hc : c ∈ w.classes) (name : Bytes)
    (o : Option Nat) (st : St) (hst : CacheOk w st) (r : Inherited × St)
    (h : getClassMethods w n ni c name o st = some r) :
    CacheOk w r.2 ∧ ∀ f ∈ r.1.members, FromCls w .methods name c f := by
  have hst' : CacheOk w (st.searchedOr o).2 := hst.of_eq (st.searchedOr_cache o)
  unfold getClassMethods at h
  simp only at h
  split at h
  · rename_i m hm
    simp only [Option.some.injEq] at h
    subst h
    exact ⟨hst', hst'.cls _ _ _ _ hm c hc rfl⟩
  · split at h
    · simp at h
    · rename_i m mi st' hl
      have h1 := methodLoop_ok w hw name ni c n _ _ _ _ _ hl hst' (by simpa using Ancestor.self) (by simp) (by simp)
      simp only [Option.some.injEq] at h
      subst h
      have hm : ∀ f ∈ (merge m mi st').1.members, FromCls w .methods name c f := by
        intro f hf
        simp only [merge, List.mem_append] at hf
        rcases hf with hf | hf
        · exact h1.2.1 f hf
        · exact h1.2.2 f hf
      exact ⟨cacheOk_setCls (st := (merge m mi st').2) hw (h1.1.of_eq rfl) _ c hc _ _ hm, hm⟩

theorem getClassPlain_ok (w : World) (hw : Distinct w) (k : Kind) (n ni : Nat) (c : Cls) (hc : c ∈ w.classes)
    (name : Bytes) (o : Option Nat) (st : St) (hst : CacheOk w st) (r : Inherited × St)
    (h : getClassPlain w k n ni c name o st = some r) :
    CacheOk w r.2 ∧ ∀ f ∈ r.1.members, FromCls w k name c f := by
  have hst' : CacheOk w (st.searchedOr o).2 := hst.of_eq (st.searchedOr_cache o)
  unfold getClassPlain at h
  simp only at h
  split at h
  · rename_i m hm
    simp only [Option.some.injEq] at h
    subst h
    exact ⟨hst', hst'.cls _ _ _ _ hm c hc rfl⟩
  · split at h
    · simp at h
    · rename_i m mi st' hl
      have h1 := plainLoop_ok w hw k name ni c n _ _ _ _ _ hl hst' (by simpa using Ancestor.self) (by simp) (by simp)
      simp only [Option.some.injEq] at h
      subst h
      have hm : ∀ f ∈ (merge m mi st').1.members, FromCls w k name c f := by
        intro f hf
        simp only [merge, List.mem_append] at hf
        rcases hf with hf | hf
        · exact h1.2.1 f hf
        · exact h1.2.2 f hf
      exact ⟨cacheOk_setCls (st := (merge m mi st').2) hw (h1.1.of_eq rfl) _ c hc _ _ hm, hm⟩

theorem Reachable.cacheOk {w : World} (hw : Distinct w) {st : St} (h : Reachable w st) : CacheOk w st := by
  induction h with
  | new => constructor <;> intros <;> simp [St.new, GoMap.get] at *
  | newSet _ ih => exact ih.of_eq rfl
  | merged m o _ ih => exact ih.of_eq rfl
  | interface _ hi hr ih => exact (getInterface_ok w hw _ _ _ hi _ _ _ ih _ hr).1
  | trait _ _ ih => exact (getTrait_ok w _ _ _ ih).1
  | methods _ hc hr ih => exact (getClassMethods_ok w hw _ _ _ hc _ _ _ ih _ hr).1
  | plain _ _ hc hr ih => exact (getClassPlain_ok w hw _ _ _ _ hc _ _ _ ih _ hr).1

end Verif.Query
