import Verif.Query.Sound

/-! A query that has not been used before finds everything. -/

namespace Verif.Query

/-- The state during the first call of a query; `id` is the set of that call, `marks` are the classes that were marked,
`Q` the interfaces that are still to be looked at and `A` the members collected from interfaces. -/
structure Inv (w : World) (k : Kind) (name : Bytes) (id : Nat) (st : St) (marks : List Cls) (Q : List Intf)
    (A : List Found) : Prop where
  next : id < st.next
  trt : ∀ k' fqn nm r, st.cache.get (.trt, k', fqn, nm) = some r →
    r.searched ≠ id ∧ r.searched < st.next ∧ st.sets r.searched = []
  intf : ∀ fqn r, st.cache.get (.intf, k, fqn, name) = some r → r.searched = id ∧ fqn ∈ st.sets id
  only : ∀ s ∈ st.sets id, (∃ d ∈ marks, d.name = s) ∨ ∃ i ∈ w.interfaces, i.name = s
  marked : ∀ d ∈ marks, d.name ∈ st.sets id
  have_ : ∀ j ∈ w.interfaces, j.name ∈ st.sets id → (∀ f ∈ w.found k j.name name, f ∈ A) ∧
    ∀ p ∈ w.parents j, p.name ∈ st.sets id ∨ p ∈ Q

theorem Inv.congr {w : World} {k : Kind} {name : Bytes} {id : Nat} {st st' : St} {marks : List Cls} {Q : List Intf}
    {A A' : List Found} (h : Inv w k name id st marks Q A) (hn : st.next ≤ st'.next) (hc : st'.cache = st.cache)
    (hs : ∀ s, s ∈ st'.sets id ↔ s ∈ st.sets id) (ho : ∀ id' < st.next, id' ≠ id → st'.sets id' = st.sets id')
    (hA : ∀ f ∈ A, f ∈ A') :
    Inv w k name id st' marks Q A' := by
  refine ⟨Nat.lt_of_lt_of_le h.next hn, ?_, ?_, ?_, ?_, ?_⟩
  · rw [hc]
    intro k' fqn nm r hr
    obtain ⟨h1, h2, h3⟩ := h.trt k' fqn nm r hr
    exact ⟨h1, Nat.lt_of_lt_of_le h2 hn, by rw [ho _ h2 h1, h3]⟩
  · rw [hc]; intro fqn r hr; rw [hs]; exact h.intf fqn r hr
  · intro s hs'; rw [hs] at hs'; exact h.only s hs'
  · intro d hd; rw [hs]; exact h.marked d hd
  · intro j hj hjs
    rw [hs] at hjs
    have := h.have_ j hj hjs
    exact ⟨fun f hf => hA f (this.1 f hf), fun p hp => by rw [hs]; exact this.2 p hp⟩

theorem Inv.mono {w : World} {k : Kind} {name : Bytes} {id : Nat} {st : St} {marks : List Cls} {Q : List Intf}
    {A A' : List Found} (h : Inv w k name id st marks Q A) (hA : ∀ f ∈ A, f ∈ A') : Inv w k name id st marks Q A' :=
  h.congr (Nat.le_refl _) rfl (fun _ => Iff.rfl) (fun _ _ _ => rfl) hA

theorem Inv.queue {w : World} {k : Kind} {name : Bytes} {id : Nat} {st : St} {marks : List Cls} {Q Q' : List Intf}
    {A : List Found} (h : Inv w k name id st marks Q A) (hQ : ∀ p ∈ Q, p.name ∈ st.sets id ∨ p ∈ Q') :
    Inv w k name id st marks Q' A :=
  ⟨h.next, h.trt, h.intf, h.only, h.marked, fun j hj hjs =>
    ⟨(h.have_ j hj hjs).1, fun p hp => by
      rcases (h.have_ j hj hjs).2 p hp with hp | hp
      · exact .inl hp
      · exact hQ p hp⟩⟩

theorem intfLoop_inv (w : World) (hw : Distinct w) (k : Kind) (name : Bytes) (marks : List Cls) (A : List Found) (n : Nat)
    (queue : List Intf) (m : Inherited) (st : St) (r : Inherited × St) (h : intfLoop w k name n queue m st = some r)
    (hq : ∀ i ∈ queue, i ∈ w.interfaces) (hst : Inv w k name m.searched st marks queue (A ++ m.members)) :
    Inv w k name m.searched r.2 marks [] (A ++ r.1.members) ∧ ∀ i ∈ queue, i.name ∈ r.2.sets m.searched := by
  induction n generalizing queue m st with
  | zero =>
    cases queue with
    | nil => simp only [intfLoop, Option.some.injEq] at h; subst h; exact ⟨hst, by simp⟩
    | cons i q => simp [intfLoop] at h
  | succ n ih =>
    cases queue with
    | nil => simp only [intfLoop, Option.some.injEq] at h; subst h; exact ⟨hst, by simp⟩
    | cons i q =>
      simp only [intfLoop] at h
      split at h
      · rename_i hi
        have := ih _ _ _ h (fun j hj => hq j (by simp [hj])) (hst.queue (by
          intro p hp
          rw [List.mem_cons] at hp
          rcases hp with rfl | hp
          · exact .inl hi
          · exact .inr hp))
        refine ⟨this.1, ?_⟩
        intro j hj
        rw [List.mem_cons] at hj
        rcases hj with rfl | hj
        · exact (intfLoop_keeps _ _ _ _ _ _ _ _ h).le.2 _ hst.next _ hi
        · exact this.2 j hj
      · rename_i hi
        have hiw := hq i (by simp)
        have hmem := st.mem_mark m.searched m.searched [i.name]
        have hk := intfLoop_keeps _ _ _ _ _ _ _ _ h
        have := ih _ _ _ h ?_ ?_
        · refine ⟨this.1, ?_⟩
          intro j hj
          rw [List.mem_cons] at hj
          rcases hj with rfl | hj
          · exact hk.le.2 m.searched hst.next _ ((hmem _).mpr (.inr ⟨rfl, by simp⟩))
          · exact this.2 j (by simp [hj])
        · intro j hj
          rw [List.mem_append, List.mem_filter] at hj
          rcases hj with hj | ⟨hj, -⟩
          · exact hq j (by simp [hj])
          · exact ((mem_parents w i j).mp hj).2.2
        · refine ⟨hst.next, ?_, ?_, ?_, ?_, ?_⟩
          · intro k' fqn nm r hr
            obtain ⟨h1, h2, h3⟩ := hst.trt k' fqn nm r hr
            exact ⟨h1, h2, by simp only [St.mark, h1, if_false]; exact h3⟩
          · intro fqn r hr
            have := hst.intf fqn r hr
            exact ⟨this.1, (hmem _).mpr (.inl this.2)⟩
          · intro s hs
            rcases (hmem s).mp hs with hs | ⟨-, hs⟩
            · exact hst.only s hs
            · simp only [List.mem_singleton] at hs
              exact .inr ⟨i, hiw, hs.symm⟩
          · intro d hd
            exact (hmem _).mpr (.inl (hst.marked d hd))
          · intro j hj hjs
            rcases (hmem _).mp hjs with hjs | ⟨-, hjs⟩
            · have h1 := hst.have_ j hj hjs
              refine ⟨fun f hf => ?_, fun p hp => ?_⟩
              · have := h1.1 f hf
                simp only [List.mem_append] at this ⊢
                rcases this with h | h
                · exact .inl h
                · exact .inr (.inl h)
              · rcases h1.2 p hp with hp | hp
                · exact .inl ((hmem _).mpr (.inl hp))
                · rw [List.mem_cons] at hp
                  rcases hp with rfl | hp
                  · exact .inl ((hmem _).mpr (.inr ⟨rfl, by simp⟩))
                  · exact .inr (by simp [hp])
            · simp only [List.mem_singleton] at hjs
              have hji : j = i := hw.intf hj hiw hjs
              subst hji
              refine ⟨fun f hf => by simp [hf], fun p hp => ?_⟩
              by_cases hps : p.name ∈ (st.mark m.searched [j.name]).sets m.searched
              · exact .inl hps
              · refine .inr (List.mem_append_right _ (List.mem_filter.mpr ⟨hp, ?_⟩))
                simpa using hps

theorem getInterface_inv (w : World) (hw : Distinct w) (k : Kind) (name : Bytes) (marks : List Cls) (A : List Found)
    (n : Nat) (i : Intf) (hi : i ∈ w.interfaces) (id : Nat) (st : St) (r : Inherited × St)
    (h : getInterface w k n i name (some id) st = some r) (hst : Inv w k name id st marks [] A) :
    Inv w k name id r.2 marks [] (A ++ r.1.members) ∧ r.1.searched = id ∧ i.name ∈ r.2.sets id := by
  unfold getInterface at h
  simp only [St.searchedOr] at h
  split at h
  · rename_i m hm
    simp only [Option.some.injEq] at h
    subst h
    have := hst.intf _ _ hm
    exact ⟨hst.mono (fun f hf => List.mem_append_left _ hf), this.1, this.2⟩
  · obtain ⟨⟨m, st'⟩, h1, rfl⟩ := Option.map_eq_some_iff.mp h
    have hk := intfLoop_keeps _ _ _ _ _ _ _ _ h1
    obtain ⟨h2, h3⟩ := intfLoop_inv w hw k name marks A n _ _ _ _ h1 (by simpa using hi)
      ((hst.mono (by simp)).queue (by simp))
    have h3 := h3 i (by simp)
    refine ⟨⟨h2.next, ?_, ?_, h2.only, h2.marked, h2.have_⟩, hk.searched, h3⟩
    · intro k' fqn nm r' hr'
      simp only [GoMap.get_set] at hr'
      rw [if_neg (by simp)] at hr'
      exact h2.trt _ _ _ _ hr'
    · intro fqn r' hr'
      simp only [GoMap.get_set] at hr'
      split at hr'
      · rename_i heq
        simp only [Prod.mk.injEq, true_and, and_true] at heq
        simp only [Option.some.injEq] at hr'
        subst hr'
        subst heq
        exact ⟨hk.searched, h3⟩
      · exact h2.intf _ _ hr'

theorem merge_inv {w : World} {k : Kind} {name : Bytes} {id : Nat} {st : St} {marks : List Cls} {Q : List Intf}
    {A : List Found} (h : Inv w k name id st marks Q A) (m o : Inherited) (hm : m.searched = id)
    (ho : o.searched = id ∨ st.sets o.searched = []) :
    Inv w k name id (merge m o st).2 marks Q A := by
  refine h.congr (Nat.le_refl _) rfl ?_ ?_ (fun _ h => h)
  · intro s
    simp only [merge]
    rw [St.mem_mark]
    constructor
    · rintro (hs | ⟨-, hs⟩)
      · exact hs
      · rcases ho with ho | ho
        · rwa [ho] at hs
        · rw [ho] at hs; simp at hs
    · exact .inl
  · intro id' _ hid
    simp only [merge, St.mark]
    rw [if_neg (by rw [hm]; exact hid)]

theorem mergeInterfaces_inv (w : World) (hw : Distinct w) (k : Kind) (name : Bytes) (marks : List Cls) (n : Nat)
    (is : List Intf) (his : ∀ i ∈ is, i ∈ w.interfaces) (m : Inherited) (st : St) (r : Inherited × St)
    (h : mergeInterfaces w k n name is m st = some r) (hst : Inv w k name m.searched st marks [] m.members) :
    Inv w k name m.searched r.2 marks [] r.1.members ∧ ∀ i ∈ is, i.name ∈ r.2.sets m.searched := by
  induction is generalizing m st with
  | nil =>
    simp only [mergeInterfaces, Option.some.injEq] at h
    subst h
    exact ⟨hst, by simp⟩
  | cons i is ih =>
    simp only [mergeInterfaces] at h
    cases hg : getInterface w k n i name (some m.searched) st with
    | none => rw [hg] at h; simp at h
    | some r' =>
      obtain ⟨r', st'⟩ := r'
      rw [hg] at h
      have h1 := getInterface_inv w hw k name marks m.members n i (his i (by simp)) _ st _ hg hst
      have h2 := merge_inv h1.1 m r' rfl (.inl h1.2.1)
      have h3 := ih (fun j hj => his j (by simp [hj])) _ _ h h2
      refine ⟨h3.1, fun j hj => ?_⟩
      rw [List.mem_cons] at hj
      rcases hj with rfl | hj
      · refine (mergeInterfaces_le _ _ _ _ _ _ _ _ h).1.2 m.searched ?_ _ ?_
        · exact h2.next
        · exact (merge_le m r' st').2 _ h1.1.next _ h1.2.2
      · exact h3.2 j hj

theorem getTrait_inv {w : World} {k : Kind} {name : Bytes} {id : Nat} {st : St} {marks : List Cls} {Q : List Intf}
    {A : List Found} (h : Inv w k name id st marks Q A) (t : Trt) (nm : Bytes) :
    Inv w k name id (getTrait w t nm st).2 marks Q A := by
  unfold getTrait
  split
  · exact h
  · have hne : st.next ≠ id := Nat.ne_of_gt h.next
    have h' := h.congr (st' := st.newSet.2) (Nat.le_succ _) rfl
      (fun s => by simp only [St.newSet]; rw [if_neg (Ne.symm hne)])
      (fun id' hlt _ => by simp only [St.newSet]; rw [if_neg (Nat.ne_of_lt hlt)]) (fun _ h => h)
    refine ⟨h'.next, ?_, ?_, h'.only, h'.marked, h'.have_⟩
    · intro k' fqn nm r' hr'
      simp only [GoMap.get_set] at hr'
      split at hr'
      · simp only [Option.some.injEq] at hr'
        subst hr'
        exact ⟨hne, Nat.lt_succ_self _, by simp [St.newSet]⟩
      · exact h'.trt _ _ _ _ hr'
    · intro fqn r' hr'
      simp only [GoMap.get_set] at hr'
      rw [if_neg (by simp)] at hr'
      exact h'.intf _ _ hr'

theorem getTrait_empty {w : World} {k : Kind} {name : Bytes} {id : Nat} {st : St} {marks : List Cls} {Q : List Intf}
    {A : List Found} (h : Inv w k name id st marks Q A) (t : Trt) (nm : Bytes) :
    (getTrait w t nm st).2.sets (getTrait w t nm st).1.searched = [] := by
  unfold getTrait
  split
  · rename_i m hm
    exact (h.trt _ _ _ _ hm).2.2
  · simp [St.newSet]

theorem mergeTraits_inv {w : World} {k : Kind} {name : Bytes} {st : St} {marks : List Cls} {Q : List Intf}
    {A : List Found} (ts : List Trt) (m : Inherited) (h : Inv w k name m.searched st marks Q A) (nm : Bytes) :
    Inv w k name m.searched (mergeTraits w nm ts m st).2 marks Q A := by
  unfold mergeTraits
  induction ts generalizing m st with
  | nil => exact h
  | cons t ts ih =>
    rw [List.foldl_cons]
    exact ih (merge m (getTrait w t nm st).1 (getTrait w t nm st).2).1
      (merge_inv (getTrait_inv h t nm) m _ rfl (.inr (getTrait_empty h t nm)))

theorem mark_inv {w : World} (ha : Apart w) {k : Kind} {name : Bytes} {id : Nat} {st : St} {marks : List Cls}
    {Q : List Intf} {A : List Found} (h : Inv w k name id st marks Q A) (c : Cls) (hc : c ∈ w.classes) :
    Inv w k name id (st.mark id [c.name]) (marks ++ [c]) Q A := by
  have hmem := st.mem_mark id id [c.name]
  refine ⟨h.next, ?_, ?_, ?_, ?_, ?_⟩
  · intro k' fqn nm r hr
    obtain ⟨h1, h2, h3⟩ := h.trt k' fqn nm r hr
    exact ⟨h1, h2, by simp only [St.mark, h1, if_false]; exact h3⟩
  · intro fqn r hr
    have := h.intf fqn r hr
    exact ⟨this.1, (hmem _).mpr (.inl this.2)⟩
  · intro s hs
    rcases (hmem s).mp hs with hs | ⟨-, hs⟩
    · rcases h.only s hs with ⟨d, hd, he⟩ | hi
      · exact .inl ⟨d, by simp [hd], he⟩
      · exact .inr hi
    · simp only [List.mem_singleton] at hs
      exact .inl ⟨c, by simp, hs.symm⟩
  · intro d hd
    rw [List.mem_append, List.mem_singleton] at hd
    rcases hd with hd | rfl
    · exact (hmem _).mpr (.inl (h.marked d hd))
    · exact (hmem _).mpr (.inr ⟨rfl, by simp⟩)
  · intro j hj hjs
    rcases (hmem _).mp hjs with hjs | ⟨-, hjs⟩
    · have h1 := h.have_ j hj hjs
      refine ⟨h1.1, fun p hp => ?_⟩
      rcases h1.2 p hp with hp | hp
      · exact .inl ((hmem _).mpr (.inl hp))
      · exact .inr hp
    · simp only [List.mem_singleton] at hjs
      exact absurd (by rw [hjs]) (ha c hc j hj)

theorem classesNamed_cases (w : World) (hw : Distinct w) (f : Bytes) :
    w.classesNamed f = [] ∨ ∃ e, w.classesNamed f = [e] := by
  have hnd : (w.classesNamed f).Nodup := (List.Nodup.of_map _ hw.classes).filter _
  match he : w.classesNamed f with
  | [] => exact .inl rfl
  | [e] => exact .inr ⟨e, rfl⟩
  | a :: b :: l =>
    have h1 := (mem_classesNamed w f a).mp (by rw [he]; simp)
    have h2 := (mem_classesNamed w f b).mp (by rw [he]; simp)
    have := hw.cls h1.1 h2.1 (h1.2.trans h2.2.symm)
    rw [he] at hnd
    simp [this] at hnd

theorem parentOf_iff (w : World) (d e : Cls) : ParentOf w d e ↔ d.ext ≠ [] ∧ e ∈ w.classesNamed d.ext := by
  rw [mem_classesNamed]; rfl

theorem ParentOf.unique {w : World} (hw : Distinct w) {d e e' : Cls} (h : ParentOf w d e) (h' : ParentOf w d e') :
    e = e' := hw.cls h.2.1 h'.2.1 (h.2.2.trans h'.2.2.symm)

/-- What a class of the lineage contributes to the methods. -/
def contrib (w : World) (name : Bytes) (d : Cls) : List Found :=
  w.found .methods d.name name ++ (w.used d).flatMap fun t => w.found .methods t.name name

theorem methodLoop_nil (w : World) (name : Bytes) (ni n : Nat) (m mi : Inherited) (st : St) :
    methodLoop w name ni n [] m mi st = some (m, mi, st) := by cases n <;> rfl

theorem methodLoop_lineage (w : World) (hw : Distinct w) (ha : Apart w) (name : Bytes) (ni n : Nat) (c : Cls)
    (m mi : Inherited) (st : St) (r : Inherited × Inherited × St)
    (h : methodLoop w name ni n [c] m mi st = some r) (hc : c ∈ w.classes) (hid : mi.searched = m.searched)
    (hok : CacheOk w st) (done : List Cls) (hst : Inv w .methods name m.searched st done [] mi.members)
    (hdone : (done ++ [c]).IsChain (ParentOf w)) (hnd : done.Nodup) (hsub : ∀ d ∈ done, d ∈ w.classes)
    (himp : ∀ d ∈ done, ∀ i ∈ w.implemented d, i.name ∈ st.sets m.searched)
    (hmem : m.members = done.flatMap (contrib w name)) :
    ∃ l, l.head? = (done ++ [c]).head? ∧ l.IsChain (ParentOf w) ∧ l.Nodup ∧
      (∀ d, l.getLast? = some d → ∀ e, ParentOf w d e → e ∈ l) ∧
      r.1.members = l.flatMap (contrib w name) ∧ Inv w .methods name m.searched r.2.2 l [] r.2.1.members ∧
      ∀ d ∈ l, ∀ i ∈ w.implemented d, i.name ∈ r.2.2.sets m.searched := by
  induction n generalizing c m mi st done with
  | zero => simp [methodLoop] at h
  | succ n ih =>
    simp only [methodLoop] at h
    split at h
    · rename_i hin
      simp only [Option.some.injEq] at h
      subst h
      have hcd : c ∈ done := by
        rcases hst.only _ hin with ⟨d, hd, he⟩ | ⟨i, hi, he⟩
        · rw [hw.cls hc (hsub d hd) (by rw [he])]; exact hd
        · exact absurd (by rw [he]) (ha c hc i hi)
      refine ⟨done, ?_, (List.isChain_append.mp hdone).1, hnd, ?_, hmem, hst, himp⟩
      · cases done with
        | nil => simp at hcd
        | cons a l => rfl
      · intro d hd e hde
        have := (List.isChain_append.mp hdone).2.2 d hd c (by simp)
        rw [hde.unique hw this]
        exact hcd
    · rename_i hin
      have hcd : c ∉ done := fun h => hin (hst.marked c h)
      have ht := mergeTraits_ok w name (w.used c) { m with members := m.members ++ w.found .methods c.name name }
        (st.mark m.searched [c.name]) (hok.of_eq rfl)
      have hti := mergeTraits_inv (w.used c) { m with members := m.members ++ w.found .methods c.name name }
        (mark_inv ha hst c hc) name
      have htl := mergeTraits_le w name (w.used c) { m with members := m.members ++ w.found .methods c.name name }
        (st.mark m.searched [c.name])
      generalize hT : mergeTraits w name (w.used c) { m with members := m.members ++ w.found .methods c.name name }
        (st.mark m.searched [c.name]) = T at h ht hti htl
      obtain ⟨m', st1⟩ := T
      simp only at h ht hti htl
      cases hg : mergeInterfaces w .methods ni name (w.implemented c) mi st1 with
      | none => rw [hg] at h; simp at h
      | some r' =>
        obtain ⟨mi', st'⟩ := r'
        rw [hg] at h
        have h2 := mergeInterfaces_inv w hw .methods name (done ++ [c]) ni (w.implemented c)
          (fun i hi => ((mem_implemented w c i).mp hi).2.2) mi st1 _ hg (by rw [hid]; exact hti)
        have h2o := mergeInterfaces_ok w hw _ _ _ _ (fun i hi => ((mem_implemented w c i).mp hi).2.2) _ _ _ hg ht.1
        have h2l := mergeInterfaces_le _ _ _ _ _ _ _ _ hg
        rw [hid] at h2
        simp only at h h2 h2o h2l
        have hm' : m'.searched = m.searched := htl.2
        have hmem' : m'.members = (done ++ [c]).flatMap (contrib w name) := by
          rw [ht.2]; simp [hmem, contrib]
        have hnd' : (done ++ [c]).Nodup := by
          rw [List.nodup_append]
          refine ⟨hnd, by simp, ?_⟩
          intro a ha b hb
          simp only [List.mem_singleton] at hb
          subst hb
          rintro rfl
          exact hcd ha
        have hsub' : ∀ d ∈ done ++ [c], d ∈ w.classes := by
          intro d hd
          rw [List.mem_append, List.mem_singleton] at hd
          rcases hd with hd | rfl
          · exact hsub d hd
          · exact hc
        have himp' : ∀ d ∈ done ++ [c], ∀ i ∈ w.implemented d, i.name ∈ st'.sets m.searched := by
          intro d hd i hi
          rw [List.mem_append, List.mem_singleton] at hd
          rcases hd with hd | rfl
          · have h3 := himp d hd i hi
            have h4 : st.Le st' := (st.le_mark m.searched [c.name]).trans (htl.1.trans h2l.1)
            exact h4.2 _ hst.next _ h3
          · exact h2.2 i hi
        have hstop : ∀ (r' : Inherited × Inherited × St), r' = (m', mi', st') →
            (∀ e, ParentOf w c e → e ∈ done ++ [c]) →
            ∃ l, l.head? = (done ++ [c]).head? ∧ l.IsChain (ParentOf w) ∧ l.Nodup ∧
              (∀ d, l.getLast? = some d → ∀ e, ParentOf w d e → e ∈ l) ∧
              r'.1.members = l.flatMap (contrib w name) ∧ Inv w .methods name m.searched r'.2.2 l [] r'.2.1.members ∧
              ∀ d ∈ l, ∀ i ∈ w.implemented d, i.name ∈ r'.2.2.sets m.searched := by
          rintro _ rfl hp
          refine ⟨done ++ [c], rfl, hdone, hnd', ?_, hmem', h2.1, himp'⟩
          intro d hd e he
          simp only [List.getLast?_append, List.getLast?_singleton, Option.some_or, Option.some.injEq] at hd
          subst hd
          exact hp e he
        split at h
        · rename_i hf
          rcases classesNamed_cases w hw c.ext with he | ⟨e, he⟩
          · rw [he, List.append_nil, methodLoop_nil, Option.some.injEq] at h
            refine hstop r h.symm ?_
            intro e hp
            rw [parentOf_iff, he] at hp
            simp at hp
          · rw [he, List.nil_append] at h
            have hpe : ParentOf w c e := (parentOf_iff w c e).mpr ⟨hf.1, by rw [he]; simp⟩
            have := ih e m' mi' st' h hpe.2.1 (by rw [h2l.2, hid, hm']) h2o.1 (done ++ [c])
              (by rw [hm']; exact h2.1) ?_ hnd' hsub' (by rw [hm']; exact himp') hmem'
            · rw [hm'] at this
              obtain ⟨l, hl, hrest⟩ := this
              refine ⟨l, ?_, hrest⟩
              rw [hl]
              cases done <;> rfl
            · rw [List.isChain_append]
              refine ⟨hdone, by simp, ?_⟩
              intro x hx y hy
              simp only [List.getLast?_append, List.getLast?_singleton, Option.some_or, Option.mem_def,
                Option.some.injEq] at hx
              simp only [List.head?_cons, Option.mem_def, Option.some.injEq] at hy
              subst hx; subst hy
              exact hpe
        · rename_i hf
          rw [methodLoop_nil, Option.some.injEq] at h
          refine hstop r h.symm ?_
          intro e hp
          have hin' : c.ext ∈ st1.sets m.searched := by
            by_contra hne
            exact hf ⟨hp.1, by rw [hm']; exact hne⟩
          rcases hti.only _ hin' with ⟨d, hd, hde⟩ | ⟨i, hi, hie⟩
          · rw [hw.cls hp.2.1 (hsub' d hd) (by rw [hp.2.2, hde])]
            exact hd
          · exact absurd (by rw [hp.2.2, hie]) (ha e hp.2.1 i hi)

/-! ### Properties and constants -/

theorem plainLoop_nil (w : World) (k : Kind) (name : Bytes) (ni n : Nat) (m mi : Inherited) (st : St) :
    plainLoop w k name ni n [] m mi st = some (m, mi, st) := by cases n <;> rfl

theorem plainLoop_lineage (w : World) (hw : Distinct w) (ha : Apart w) (k : Kind) (name : Bytes) (ni n : Nat) (c : Cls)
    (m mi : Inherited) (st : St) (r : Inherited × Inherited × St)
    (h : plainLoop w k name ni n [c] m mi st = some r) (hid : mi.searched = m.searched)
    (hst : Inv w k name m.searched st [] [] mi.members) :
    ∃ l, (c :: l).IsChain (ParentOf w) ∧
      (∀ d, (c :: l).getLast? = some d → ∀ e, ¬ ParentOf w d e) ∧
      r.1.members = m.members ++ (c :: l).flatMap (fun d => w.found k d.name name) ∧
      Inv w k name m.searched r.2.2 [] [] r.2.1.members ∧ st.Le r.2.2 ∧
      ∀ d ∈ c :: l, ∀ i ∈ w.implemented d, i.name ∈ r.2.2.sets m.searched := by
  induction n generalizing c m mi st with
  | zero => simp [plainLoop] at h
  | succ n ih =>
    simp only [plainLoop] at h
    cases hg : mergeInterfaces w k ni name (w.implemented c) mi st with
    | none => rw [hg] at h; simp at h
    | some r' =>
      obtain ⟨mi', st'⟩ := r'
      rw [hg] at h
      have h2 := mergeInterfaces_inv w hw k name [] ni (w.implemented c)
        (fun i hi => ((mem_implemented w c i).mp hi).2.2) mi st _ hg (by rw [hid]; exact hst)
      have h2l := mergeInterfaces_le _ _ _ _ _ _ _ _ hg
      rw [hid] at h2
      simp only at h h2 h2l
      have hstop : ∀ (r' : Inherited × Inherited × St), r'.1.members = m.members ++ w.found k c.name name →
          r'.2 = (mi', st') → (∀ e, ¬ ParentOf w c e) →
          ∃ l, (c :: l).IsChain (ParentOf w) ∧
            (∀ d, (c :: l).getLast? = some d → ∀ e, ¬ ParentOf w d e) ∧
            r'.1.members = m.members ++ (c :: l).flatMap (fun d => w.found k d.name name) ∧
            Inv w k name m.searched r'.2.2 [] [] r'.2.1.members ∧ st.Le r'.2.2 ∧
            ∀ d ∈ c :: l, ∀ i ∈ w.implemented d, i.name ∈ r'.2.2.sets m.searched := by
        intro r' hr1 hr2 hp
        refine ⟨[], by simp, ?_, by simpa using hr1, by rw [hr2]; exact h2.1, by rw [hr2]; exact h2l.1, ?_⟩
        · intro d hd e
          simp only [List.getLast?_singleton, Option.some.injEq] at hd
          subst hd
          exact hp e
        · intro d hd i hi
          simp only [List.mem_singleton] at hd
          subst hd
          rw [hr2]
          exact h2.2 i hi
      split at h
      · rename_i hf
        rcases classesNamed_cases w hw c.ext with he | ⟨e, he⟩
        · rw [he, List.append_nil, plainLoop_nil, Option.some.injEq] at h
          refine hstop r (by rw [← h]) (by rw [← h]) ?_
          intro e hp
          rw [parentOf_iff, he] at hp
          simp at hp
        · rw [he, List.nil_append] at h
          have hpe : ParentOf w c e := (parentOf_iff w c e).mpr ⟨hf.1, by rw [he]; simp⟩
          obtain ⟨l, h3, h4, h5, h6, h7, h8⟩ := ih e _ mi' st' h (by rw [h2l.2]; exact hid) h2.1
          refine ⟨e :: l, ?_, ?_, ?_, h6, h2l.1.trans h7, ?_⟩
          · exact List.isChain_cons_cons.mpr ⟨hpe, h3⟩
          · intro d hd
            rw [List.getLast?_cons_cons] at hd
            exact h4 d hd
          · rw [h5]; simp
          · intro d hd i hi
            rw [List.mem_cons] at hd
            rcases hd with rfl | hd
            · exact h7.2 m.searched h2.1.next _ (h2.2 i hi)
            · exact h8 d hd i hi
      · rename_i hf
        rw [plainLoop_nil, Option.some.injEq] at h
        refine hstop r (by rw [← h]) (by rw [← h]) ?_
        intro e hp
        have hin' : c.ext ∈ st.sets m.searched := by
          by_contra hne
          exact hf ⟨hp.1, hne⟩
        rcases hst.only _ hin' with ⟨d, hd, hde⟩ | ⟨i, hi, hie⟩
        · simp at hd
        · exact absurd (by rw [hp.2.2, hie]) (ha e hp.2.1 i hi)

theorem chain_unique {w : World} (hw : Distinct w) (x : Cls) (s t : List Cls) (hs : (x :: s).IsChain (ParentOf w))
    (ht : (x :: t).IsChain (ParentOf w)) (hls : ∀ d, (x :: s).getLast? = some d → ∀ e, ¬ ParentOf w d e)
    (hlt : ∀ d, (x :: t).getLast? = some d → ∀ e, ¬ ParentOf w d e) : s = t := by
  induction s generalizing x t with
  | nil =>
    cases t with
    | nil => rfl
    | cons b t => exact absurd (List.isChain_cons_cons.mp ht).1 (hls x (by simp) b)
  | cons a s ih =>
    cases t with
    | nil => exact absurd (List.isChain_cons_cons.mp hs).1 (hlt x (by simp) a)
    | cons b t =>
      have h1 := List.isChain_cons_cons.mp hs
      have h2 := List.isChain_cons_cons.mp ht
      have hab := h1.1.unique hw h2.1
      subst hab
      rw [ih a t h1.2 h2.2 (fun d hd => hls d (by rw [List.getLast?_cons_cons]; exact hd))
        (fun d hd => hlt d (by rw [List.getLast?_cons_cons]; exact hd))]

theorem chain_nodup {w : World} (hw : Distinct w) (l : List Cls) (hl : l.IsChain (ParentOf w))
    (hlast : ∀ d, l.getLast? = some d → ∀ e, ¬ ParentOf w d e) : l.Nodup := by
  induction l with
  | nil => simp
  | cons x t ih =>
    have hlast' : ∀ d, t.getLast? = some d → ∀ e, ¬ ParentOf w d e := by
      intro d hd
      cases t with
      | nil => simp at hd
      | cons y t => exact hlast d (by rw [List.getLast?_cons_cons]; exact hd)
    rw [List.nodup_cons]
    refine ⟨fun hx => ?_, ih hl.tail hlast'⟩
    obtain ⟨a, b, hab⟩ := List.append_of_mem hx
    have hb : (x :: b).IsChain (ParentOf w) := by
      have := hl.tail
      simp only [List.tail_cons] at this
      rw [hab] at this
      exact (List.isChain_append.mp this).2.1
    have := chain_unique hw x b t hb hl (fun d hd => hlast' d (by rw [hab, List.getLast?_append, hd]; rfl)) hlast
    have := congrArg List.length this
    rw [hab] at this
    simp at this
    omega

theorem Inv.new (w : World) (k : Kind) (name : Bytes) : Inv w k name 0 St.new.newSet.2 [] [] [] := by
  refine ⟨by simp [St.new, St.newSet], ?_, ?_, ?_, ?_, ?_⟩
  all_goals simp [St.new, St.newSet, GoMap.get]

/-- Everything that the interfaces of the lineage have was collected. -/
theorem inv_complete {w : World} {k : Kind} {name : Bytes} {id : Nat} {st : St} {marks : List Cls} {A : List Found}
    (h : Inv w k name id st marks [] A) (i : Intf) (hi : i ∈ w.interfaces) (hs : i.name ∈ st.sets id) (f : Found)
    (hf : FromIntf w k name i f) : f ∈ A := by
  obtain ⟨s, ⟨j, hj, rfl⟩, hf⟩ := hf
  have : j ∈ w.interfaces ∧ j.name ∈ st.sets id := by
    clear hf
    induction hj with
    | self => exact ⟨hi, hs⟩
    | parent hj h1 h2 h3 ih =>
      refine ⟨h3, ?_⟩
      rcases (h.have_ _ ih.1 ih.2).2 _ ((mem_parents w _ _).mpr ⟨h1, h2, h3⟩) with h | h
      · exact h
      · simp at h
  exact (h.have_ j this.1 this.2).1 f hf

/-- The members collected from interfaces come from the interfaces of the classes that were looked at. -/
theorem methodLoop_intf (w : World) (hw : Distinct w) (name : Bytes) (ni n : Nat) (queue : List Cls)
    (m mi : Inherited) (st : St) (r : Inherited × Inherited × St) (h : methodLoop w name ni n queue m mi st = some r)
    (hst : CacheOk w st) (P : Cls → Prop) (hq : ∀ c ∈ queue, P c) (hP : ∀ d, P d → ∀ e, ParentOf w d e → P e)
    (hmi : ∀ f ∈ mi.members, ∃ d, P d ∧ ∃ i ∈ w.implemented d, FromIntf w .methods name i f) :
    ∀ f ∈ r.2.1.members, ∃ d, P d ∧ ∃ i ∈ w.implemented d, FromIntf w .methods name i f := by
  induction n generalizing queue m mi st with
  | zero =>
    cases queue with
    | nil => simp only [methodLoop, Option.some.injEq] at h; subst h; exact hmi
    | cons c q => simp [methodLoop] at h
  | succ n ih =>
    cases queue with
    | nil => simp only [methodLoop, Option.some.injEq] at h; subst h; exact hmi
    | cons c q =>
      simp only [methodLoop] at h
      split at h
      · exact ih _ _ _ _ h hst (fun x hx => hq x (by simp [hx])) hmi
      · have ht := mergeTraits_ok w name (w.used c) { m with members := m.members ++ w.found .methods c.name name }
          (st.mark m.searched [c.name]) (hst.of_eq rfl)
        cases hg : mergeInterfaces w .methods ni name (w.implemented c) mi
            (mergeTraits w name (w.used c) { m with members := m.members ++ w.found .methods c.name name }
              (st.mark m.searched [c.name])).2 with
        | none => rw [hg] at h; simp at h
        | some r' =>
          obtain ⟨mi', st'⟩ := r'
          rw [hg] at h
          have h2 := mergeInterfaces_ok w hw _ _ _ _ (fun i hi => ((mem_implemented w c i).mp hi).2.2) _ _ _ hg ht.1
          have hc := hq c (by simp)
          refine ih _ _ _ _ h h2.1 ?_ ?_
          · intro x hx
            split at hx
            · rename_i he
              rw [List.mem_append, mem_classesNamed] at hx
              rcases hx with hx | hx
              · exact hq x (by simp [hx])
              · exact hP c hc x ⟨he.1, hx.1, hx.2⟩
            · exact hq x (by simp [hx])
          · intro f hf
            rcases h2.2 f hf with hf | ⟨i, hi, hf⟩
            · exact hmi f hf
            · exact ⟨c, hc, i, hi, hf⟩

/-- The same for properties and constants. -/
theorem plainLoop_intf (w : World) (hw : Distinct w) (k : Kind) (name : Bytes) (ni n : Nat) (queue : List Cls)
    (m mi : Inherited) (st : St) (r : Inherited × Inherited × St) (h : plainLoop w k name ni n queue m mi st = some r)
    (hst : CacheOk w st) (P : Cls → Prop) (hq : ∀ c ∈ queue, P c) (hP : ∀ d, P d → ∀ e, ParentOf w d e → P e)
    (hmi : ∀ f ∈ mi.members, ∃ d, P d ∧ ∃ i ∈ w.implemented d, FromIntf w k name i f) :
    ∀ f ∈ r.2.1.members, ∃ d, P d ∧ ∃ i ∈ w.implemented d, FromIntf w k name i f := by
  induction n generalizing queue m mi st with
  | zero =>
    cases queue with
    | nil => simp only [plainLoop, Option.some.injEq] at h; subst h; exact hmi
    | cons c q => simp [plainLoop] at h
  | succ n ih =>
    cases queue with
    | nil => simp only [plainLoop, Option.some.injEq] at h; subst h; exact hmi
    | cons c q =>
      simp only [plainLoop] at h
      cases hg : mergeInterfaces w k ni name (w.implemented c) mi st with
      | none => rw [hg] at h; simp at h
      | some r' =>
        obtain ⟨mi', st'⟩ := r'
        rw [hg] at h
        have h2 := mergeInterfaces_ok w hw _ _ _ _ (fun i hi => ((mem_implemented w c i).mp hi).2.2) _ _ _ hg hst
        have hc := hq c (by simp)
        refine ih _ _ _ _ h h2.1 ?_ ?_
        · intro x hx
          split at hx
          · rename_i he
            rw [List.mem_append, mem_classesNamed] at hx
            rcases hx with hx | hx
            · exact hq x (by simp [hx])
            · exact hP c hc x ⟨he.1, hx.1, hx.2⟩
          · exact hq x (by simp [hx])
        · intro f hf
          rcases h2.2 f hf with hf | ⟨i, hi, hf⟩
          · exact hmi f hf
          · exact ⟨c, hc, i, hi, hf⟩

end Verif.Query
