import Verif.Query.Props

/-! What a lookup changes in the state of a query, and lookups of several kinds with one query. -/

namespace Verif.Query

/-- What a lookup of kind `k` with the set `id` leaves alone: the other sets and the cached results of other kinds;
results for traits that are new in the cache have a new set. -/
structure Frame (k : Kind) (id : Nat) (st st' : St) : Prop where
  next : st.next ≤ st'.next
  sets : ∀ i < st.next, i ≠ id → st'.sets i = st.sets i
  trt : ∀ k' fqn nm r, st'.cache.get (.trt, k', fqn, nm) = some r →
    st.cache.get (.trt, k', fqn, nm) = some r ∨ st.next ≤ r.searched
  other : ∀ o k' fqn nm, o ≠ .trt → k' ≠ k → st'.cache.get (o, k', fqn, nm) = st.cache.get (o, k', fqn, nm)

theorem Frame.refl (k : Kind) (id : Nat) (st : St) : Frame k id st st :=
  ⟨Nat.le_refl _, fun _ _ _ => rfl, fun _ _ _ _ h => .inl h, fun _ _ _ _ _ _ => rfl⟩

theorem Frame.trans {k : Kind} {id : Nat} {a b c : St} (h : Frame k id a b) (h' : Frame k id b c) : Frame k id a c := by
  refine ⟨Nat.le_trans h.next h'.next, fun i hi hne => ?_, fun k' fqn nm r hr => ?_, fun o k' fqn nm ho hk => ?_⟩
  · rw [h'.sets i (Nat.lt_of_lt_of_le hi h.next) hne, h.sets i hi hne]
  · rcases h'.trt _ _ _ _ hr with hr | hr
    · exact h.trt _ _ _ _ hr
    · exact .inr (Nat.le_trans h.next hr)
  · rw [h'.other o k' fqn nm ho hk, h.other o k' fqn nm ho hk]

theorem frame_mark (k : Kind) (id : Nat) (st : St) (l : List Bytes) : Frame k id st (st.mark id l) :=
  ⟨Nat.le_refl _, fun i _ hne => by simp [St.mark, hne], fun _ _ _ _ h => .inl h, fun _ _ _ _ _ _ => rfl⟩

theorem frame_set (k : Kind) (id : Nat) (st : St) (o : Of) (ho : o ≠ .trt) (fqn nm : Bytes) (m : Inherited) :
    Frame k id st { st with cache := st.cache.set (o, k, fqn, nm) m } := by
  refine ⟨Nat.le_refl _, fun _ _ _ => rfl, fun k' fqn' nm' r hr => .inl ?_, fun o' k' fqn' nm' _ hk => ?_⟩
  · simp only [GoMap.get_set] at hr
    rw [if_neg (by simp [Ne.symm ho])] at hr
    exact hr
  · simp only [GoMap.get_set]
    rw [if_neg (by simp [hk])]

theorem frame_merge (k : Kind) (m o : Inherited) (st : St) : Frame k m.searched st (merge m o st).2 := frame_mark k _ _ _

theorem frame_getInterface (w : World) (k : Kind) (n : Nat) (i : Intf) (name : Bytes) (id : Nat) (st : St)
    (r : Inherited × St) (h : getInterface w k n i name (some id) st = some r) : Frame k id st r.2 := by
  unfold getInterface at h
  simp only [St.searchedOr] at h
  split at h
  · simp only [Option.some.injEq] at h
    subst h
    exact .refl _ _ _
  · obtain ⟨⟨m, st'⟩, h1, rfl⟩ := Option.map_eq_some_iff.mp h
    have hk := intfLoop_keeps _ _ _ _ _ _ _ _ h1
    have h2 : Frame k id st st' := by
      refine ⟨hk.le.1, fun i _ hne => hk.others i hne, fun k' fqn nm r hr => .inl ?_, fun o k' fqn nm _ _ => ?_⟩
      · have := hk.cache; simp only at this; rw [this] at hr; exact hr
      · have := hk.cache; simp only at this; rw [this]
    exact h2.trans (frame_set k id st' .intf (by simp) _ _ _)

theorem frame_getTrait (w : World) (id : Nat) (t : Trt) (name : Bytes) (st : St) :
    Frame .methods id st (getTrait w t name st).2 := by
  unfold getTrait
  split
  · exact .refl _ _ _
  · refine ⟨Nat.le_succ _, fun i hi _ => ?_, fun k' fqn nm r hr => ?_, fun o k' fqn nm ho hk => ?_⟩
    · simp only [St.newSet]
      rw [if_neg (Nat.ne_of_lt hi)]
    · simp only [GoMap.get_set] at hr
      split at hr
      · simp only [Option.some.injEq] at hr
        subst hr
        exact .inr (Nat.le_refl _)
      · exact .inl hr
    · simp only [GoMap.get_set]
      rw [if_neg (by simp [hk])]
      rfl

theorem mergeTraits_searched (w : World) (name : Bytes) (ts : List Trt) (m : Inherited) (st : St) :
    (mergeTraits w name ts m st).1.searched = m.searched := by
  unfold mergeTraits
  induction ts generalizing m st with
  | nil => rfl
  | cons t ts ih =>
    rw [List.foldl_cons]
    exact ih (merge m (getTrait w t name st).1 (getTrait w t name st).2).1 (merge m (getTrait w t name st).1 (getTrait w t name st).2).2

theorem frame_mergeTraits (w : World) (name : Bytes) (ts : List Trt) (m : Inherited) (st : St) :
    Frame .methods m.searched st (mergeTraits w name ts m st).2 := by
  unfold mergeTraits
  induction ts generalizing m st with
  | nil => exact .refl _ _ _
  | cons t ts ih =>
    rw [List.foldl_cons]
    exact ((frame_getTrait w m.searched t name st).trans (frame_merge .methods m (getTrait w t name st).1 _)).trans
      (ih (merge m (getTrait w t name st).1 (getTrait w t name st).2).1 _)

theorem frame_mergeInterfaces (w : World) (k : Kind) (n : Nat) (name : Bytes) (is : List Intf) (m : Inherited) (st : St)
    (r : Inherited × St) (h : mergeInterfaces w k n name is m st = some r) :
    Frame k m.searched st r.2 ∧ r.1.searched = m.searched := by
  induction is generalizing m st with
  | nil =>
    simp only [mergeInterfaces, Option.some.injEq] at h
    subst h
    exact ⟨.refl _ _ _, rfl⟩
  | cons i is ih =>
    simp only [mergeInterfaces] at h
    cases hg : getInterface w k n i name (some m.searched) st with
    | none => rw [hg] at h; simp at h
    | some r' =>
      rw [hg] at h
      have h1 := ih (merge m r'.1 r'.2).1 _ h
      exact ⟨((frame_getInterface w k n i name _ _ _ hg).trans (frame_merge k m r'.1 r'.2)).trans h1.1, h1.2⟩

theorem frame_methodLoop (w : World) (name : Bytes) (ni n : Nat) (queue : List Cls) (m mi : Inherited) (st : St)
    (r : Inherited × Inherited × St) (h : methodLoop w name ni n queue m mi st = some r) (hid : mi.searched = m.searched) :
    Frame .methods m.searched st r.2.2 ∧ r.1.searched = m.searched ∧ r.2.1.searched = m.searched := by
  induction n generalizing queue m mi st with
  | zero =>
    cases queue with
    | nil => simp only [methodLoop, Option.some.injEq] at h; subst h; exact ⟨.refl _ _ _, rfl, hid⟩
    | cons c q => simp [methodLoop] at h
  | succ n ih =>
    cases queue with
    | nil => simp only [methodLoop, Option.some.injEq] at h; subst h; exact ⟨.refl _ _ _, rfl, hid⟩
    | cons c q =>
      simp only [methodLoop] at h
      split at h
      · exact ih _ _ _ _ h hid
      · split at h
        · simp at h
        · rename_i mi' st' hg
          have h1 := frame_mergeTraits w name (w.used c) { m with members := m.members ++ w.found .methods c.name name }
            (st.mark m.searched [c.name])
          have h2 := frame_mergeInterfaces _ _ _ _ _ _ _ _ hg
          have h3 := mergeTraits_searched w name (w.used c) { m with members := m.members ++ w.found .methods c.name name }
            (st.mark m.searched [c.name])
          have h4 := ih _ _ _ _ h (by rw [h2.2, hid, h3])
          rw [h3] at h4
          rw [hid] at h2
          exact ⟨(((frame_mark _ _ _ _).trans h1).trans h2.1).trans h4.1, h4.2⟩

theorem frame_plainLoop (w : World) (k : Kind) (name : Bytes) (ni n : Nat) (queue : List Cls) (m mi : Inherited) (st : St)
    (r : Inherited × Inherited × St) (h : plainLoop w k name ni n queue m mi st = some r) (hid : mi.searched = m.searched) :
    Frame k m.searched st r.2.2 ∧ r.1.searched = m.searched ∧ r.2.1.searched = m.searched := by
  induction n generalizing queue m mi st with
  | zero =>
    cases queue with
    | nil => simp only [plainLoop, Option.some.injEq] at h; subst h; exact ⟨.refl _ _ _, rfl, hid⟩
    | cons c q => simp [plainLoop] at h
  | succ n ih =>
    cases queue with
    | nil => simp only [plainLoop, Option.some.injEq] at h; subst h; exact ⟨.refl _ _ _, rfl, hid⟩
    | cons c q =>
      simp only [plainLoop] at h
      split at h
      · simp at h
      · rename_i mi' st' hg
        have h2 := frame_mergeInterfaces _ _ _ _ _ _ _ _ hg
        rw [hid] at h2
        have h4 := ih _ _ _ _ h (by rw [h2.2])
        exact ⟨h2.1.trans h4.1, h4.2⟩

/-- Nothing of the kind `k` was looked up yet and the set `id` is empty. -/
structure Ready (k : Kind) (id : Nat) (st : St) : Prop where
  next : id < st.next
  empty : st.sets id = []
  fresh : ∀ o fqn nm, o ≠ .trt → st.cache.get (o, k, fqn, nm) = none
  trt : ∀ k' fqn nm r, st.cache.get (.trt, k', fqn, nm) = some r →
    r.searched ≠ id ∧ r.searched < st.next ∧ st.sets r.searched = []

theorem Ready.inv {k : Kind} {id : Nat} {st : St} (h : Ready k id st) (w : World) (name : Bytes) :
    Inv w k name id st [] [] [] := by
  refine ⟨h.next, h.trt, fun fqn r hr => ?_, fun s hs => ?_, by simp, fun j _ hj => ?_⟩
  · rw [h.fresh _ _ _ (by simp)] at hr
    simp at hr
  · rw [h.empty] at hs
    simp at hs
  · rw [h.empty] at hj
    simp at hj

/-- The sets of the traits are empty. -/
def Clean (st : St) : Prop := ∀ k' fqn nm r, st.cache.get (.trt, k', fqn, nm) = some r →
  r.searched < st.next ∧ st.sets r.searched = []

theorem Ready.frame {k k' : Kind} {id id' : Nat} {st st' : St} (h : Ready k id st) (hf : Frame k' id' st st')
    (hk : k ≠ k') (hid : id ≠ id') (hc : Clean st') : Ready k id st' := by
  refine ⟨Nat.lt_of_lt_of_le h.next hf.next, by rw [hf.sets id h.next hid, h.empty],
    fun o fqn nm ho => by rw [hf.other o k fqn nm ho hk, h.fresh o fqn nm ho], fun k'' fqn nm r hr => ⟨?_, hc _ _ _ _ hr⟩⟩
  rcases hf.trt _ _ _ _ hr with hr | hr
  · exact (h.trt _ _ _ _ hr).1
  · exact Nat.ne_of_gt (Nat.lt_of_lt_of_le h.next hr)

theorem Inv.clean {w : World} {k : Kind} {name : Bytes} {id : Nat} {st : St} {marks : List Cls} {Q : List Intf}
    {A : List Found} (h : Inv w k name id st marks Q A) : Clean st := fun _ _ _ _ hr => (h.trt _ _ _ _ hr).2

/-- The members of a class that a lookup returns, in order: those of the classes of the lineage, with their traits for
methods, then those of the interfaces. -/
def InOrder (w : World) (k : Kind) (c : Cls) (name : Bytes) (members : List Found) : Prop :=
  ∃ l I, Lineage w c l ∧
    members = (l.flatMap fun d => w.found k d.name name ++
      if k = .methods then (w.used d).flatMap fun t => w.found .methods t.name name else []) ++ I ∧
    ∀ f, f ∈ I ↔ ∃ d ∈ l, ∃ i ∈ w.interfaces, i.name ∈ d.impls ∧ i.name ≠ [] ∧ IntfProvides w i f.scope ∧
      f ∈ w.found k f.scope name

theorem methods_order_at (w : World) (hw : Distinct w) (ha : Apart w) (c : Cls) (hc : c ∈ w.classes) (name : Bytes)
    (n ni id : Nat) (st : St) (hr : Ready .methods id st) (hok : CacheOk w st) (r : Inherited × St)
    (h : getClassMethods w n ni c name (some id) st = some r) :
    InOrder w .methods c name r.1.members ∧ Frame .methods id st r.2 ∧ Clean r.2 ∧ r.1.searched = id := by
  unfold getClassMethods at h
  simp only [St.searchedOr] at h
  rw [hr.fresh _ _ _ (by simp)] at h
  simp only at h
  split at h
  · simp at h
  · rename_i m mi st' hl
    simp only [Option.some.injEq] at h
    obtain ⟨l, h1, h2, h3, h4, h5, h6, h7⟩ := methodLoop_lineage w hw ha name ni n c _ _ _ _ hl hc rfl hok []
      (hr.inv w name) (by simp) (by simp) (by simp) (by simp) (by simp)
    have hlin : Lineage w c l := ⟨by simpa using h1, h2, h3, h4⟩
    have hs : ∀ f ∈ mi.members, ∃ d ∈ l, ∃ i ∈ w.implemented d, FromIntf w .methods name i f := by
      exact methodLoop_intf w hw name ni n [c] _ _ _ _ hl hok (fun d => d ∈ l)
        (by simpa using (lineage_ancestor hw hlin c).mpr .self)
        (fun d hd e he => (lineage_ancestor hw hlin e).mpr
          (.parent ((lineage_ancestor hw hlin d).mp hd) he.1 he.2.1 he.2.2)) (by simp)
    have hf := frame_methodLoop _ _ _ _ _ _ _ _ _ hl rfl
    simp only at h6 hf
    have h8 := merge_inv h6 m mi hf.2.1 (.inl hf.2.2)
    subst h
    refine ⟨⟨l, mi.members, hlin, ?_, ?_⟩, ?_, ?_, hf.2.1⟩
    · simp only [merge]
      rw [h5]
      rfl
    · intro f
      constructor
      · intro hf
        obtain ⟨d, hd, i, hi, hf⟩ := hs f hf
        have := (mem_implemented w d i).mp hi
        exact ⟨d, hd, i, this.2.2, this.1, this.2.1, fromIntf_scope.mp hf⟩
      · rintro ⟨d, hd, i, hi, h8, h9, h10⟩
        exact inv_complete h6 i hi (h7 d hd i ((mem_implemented w d i).mpr ⟨h8, h9, hi⟩)) f (fromIntf_scope.mpr h10)
    · have := frame_merge .methods m mi st'
      rw [hf.2.1] at this
      exact (hf.1.trans this).trans (frame_set .methods id _ .cls (by simp) _ _ _)
    · intro k' fqn nm r' hr'
      simp only [GoMap.get_set] at hr'
      rw [if_neg (by simp)] at hr'
      exact h8.clean _ _ _ _ hr'

theorem plain_order_at (w : World) (hw : Distinct w) (ha : Apart w) (k : Kind) (hk : k ≠ .methods) (c : Cls) (name : Bytes)
    (n ni id : Nat) (st : St) (hr : Ready k id st) (hok : CacheOk w st) (r : Inherited × St)
    (h : getClassPlain w k n ni c name (some id) st = some r) :
    InOrder w k c name r.1.members ∧ Frame k id st r.2 ∧ Clean r.2 ∧ r.1.searched = id := by
  unfold getClassPlain at h
  simp only [St.searchedOr] at h
  rw [hr.fresh _ _ _ (by simp)] at h
  simp only at h
  split at h
  · simp at h
  · rename_i m mi st' hl
    simp only [Option.some.injEq] at h
    obtain ⟨l, h1, h2, h3, h4, h5, h6⟩ := plainLoop_lineage w hw ha k name ni n c _ _ _ _ hl rfl (hr.inv w name)
    have hlin : Lineage w c (c :: l) :=
      ⟨rfl, h1, chain_nodup hw _ h1 h2, fun d hd e he => absurd he (h2 d hd e)⟩
    have hs := plainLoop_intf w hw k name ni n [c] _ _ _ _ hl hok (fun d => d ∈ c :: l) (by simp)
        (fun d hd e he => (lineage_ancestor hw hlin e).mpr
          (.parent ((lineage_ancestor hw hlin d).mp hd) he.1 he.2.1 he.2.2)) (by simp)
    have hf := frame_plainLoop _ _ _ _ _ _ _ _ _ _ hl rfl
    simp only at h4 hf
    have h8 := merge_inv h4 m mi hf.2.1 (.inl hf.2.2)
    subst h
    refine ⟨⟨c :: l, mi.members, hlin, ?_, ?_⟩, ?_, ?_, hf.2.1⟩
    · simp only [merge]
      rw [h3]
      simp [hk]
    · intro f
      constructor
      · intro hf
        obtain ⟨d, hd, i, hi, hf⟩ := hs f hf
        have := (mem_implemented w d i).mp hi
        exact ⟨d, hd, i, this.2.2, this.1, this.2.1, fromIntf_scope.mp hf⟩
      · rintro ⟨d, hd, i, hi, h8, h9, h10⟩
        exact inv_complete h4 i hi (h6 d hd i ((mem_implemented w d i).mpr ⟨h8, h9, hi⟩)) f (fromIntf_scope.mpr h10)
    · have := frame_merge k m mi st'
      rw [hf.2.1] at this
      exact (hf.1.trans this).trans (frame_set k id _ .cls (by simp) _ _ _)
    · intro k' fqn nm r' hr'
      simp only [GoMap.get_set] at hr'
      rw [if_neg (by simp)] at hr'
      exact h8.clean _ _ _ _ hr'

end Verif.Query
