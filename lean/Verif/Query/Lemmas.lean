import Verif.Query.Spec
import Verif.Common.Tactics

/-! Termination and bookkeeping of the loops of `query.go`. -/

namespace Verif.Query

/-- Sets only grow. -/
def St.Le (st st' : St) : Prop := st.next ≤ st'.next ∧ ∀ id < st.next, ∀ s ∈ st.sets id, s ∈ st'.sets id

theorem St.Le.refl (st : St) : st.Le st := ⟨Nat.le_refl _, fun _ _ _ h => h⟩

theorem St.Le.trans {a b c : St} (h : a.Le b) (h' : b.Le c) : a.Le c :=
  ⟨Nat.le_trans h.1 h'.1, fun id hid s hs => h'.2 id (Nat.lt_of_lt_of_le hid h.1) s (h.2 id hid s hs)⟩

theorem St.le_mark (st : St) (id : Nat) (l : List Bytes) : st.Le (st.mark id l) := by
  refine ⟨Nat.le_refl _, fun i _ s hs => ?_⟩
  simp only [St.mark]
  split
  · exact List.mem_append_right _ hs
  · exact hs

theorem St.mem_mark (st : St) (id i : Nat) (l : List Bytes) (s : Bytes) :
    s ∈ (st.mark id l).sets i ↔ s ∈ st.sets i ∨ i = id ∧ s ∈ l := by
  simp only [St.mark]
  split
  · rename_i h; simp [h, or_comm]
  · rename_i h; simp [h]

theorem St.le_newSet (st : St) : st.Le st.newSet.2 := by
  refine ⟨Nat.le_succ _, fun i hi s hs => ?_⟩
  have : i ≠ st.next := by omega
  simpa [St.newSet, this] using hs

theorem St.le_cache (st : St) (c : GoMap (Of × Kind × Bytes × Bytes) Inherited) : st.Le { st with cache := c } :=
  ⟨Nat.le_refl _, fun _ _ _ h => h⟩

theorem St.le_searchedOr (st : St) (o : Option Nat) : st.Le (st.searchedOr o).2 := by
  cases o with
  | none => exact st.le_newSet
  | some id => exact St.Le.refl st

theorem St.searchedOr_lt (st : St) (o : Option Nat) (h : ∀ id, o = some id → id < st.next) :
    (st.searchedOr o).1 < (st.searchedOr o).2.next := by
  cases o with
  | none => simp [St.searchedOr, St.newSet]
  | some id => exact h id rfl

theorem St.searchedOr_cache (st : St) (o : Option Nat) : (st.searchedOr o).2.cache = st.cache := by
  cases o <;> rfl

theorem filter_lt {α : Type} (l : List α) (p q : α → Bool) (hpq : ∀ x, q x = true → p x = true) (i : α) (hi : i ∈ l)
    (hp : p i = true) (hq : q i = false) : (l.filter q).length < (l.filter p).length := by
  have hle : ∀ l : List α, (l.filter q).length ≤ (l.filter p).length := by
    intro l
    induction l with
    | nil => simp
    | cons a l ih =>
      simp only [List.filter_cons]
      by_cases ha : q a = true
      · rw [if_pos ha, if_pos (hpq a ha)]; simpa using ih
      · rw [if_neg ha]
        split
        · simp; omega
        · exact ih
  induction l with
  | nil => simp at hi
  | cons a l ih =>
    rw [List.mem_cons] at hi
    simp only [List.filter_cons]
    rcases hi with rfl | hi
    · rw [if_neg (by simp [hq]), if_pos hp]
      simpa using Nat.lt_succ_of_le (hle l)
    · have := ih hi
      by_cases ha : q a = true
      · rw [if_pos ha, if_pos (hpq a ha)]; simpa using this
      · rw [if_neg ha]
        split
        · simp; omega
        · exact this

theorem filter_le {α : Type} (l : List α) (p q : α → Bool) (hpq : ∀ x, q x = true → p x = true) :
    (l.filter q).length ≤ (l.filter p).length := by
  induction l with
  | nil => simp
  | cons a l ih =>
    simp only [List.filter_cons]
    by_cases ha : q a = true
    · rw [if_pos ha, if_pos (hpq a ha)]; simpa using ih
    · rw [if_neg ha]
      split
      · simp; omega
      · exact ih

theorem le_sum {α : Type} (f : α → Nat) (l : List α) (a : α) (h : a ∈ l) : f a ≤ (l.map f).sum := by
  induction l with
  | nil => simp at h
  | cons b l ih =>
    rw [List.mem_cons] at h
    simp only [List.map_cons, List.sum_cons]
    rcases h with rfl | h
    · omega
    · have := ih h; omega

/-! ### Interfaces -/

/-- The interfaces that an interface extends. -/
def World.parents (w : World) (i : Intf) : List Intf := (i.exts.filter (· ≠ [])).flatMap w.interfacesNamed

theorem mem_parents (w : World) (i j : Intf) :
    j ∈ w.parents i ↔ j.name ∈ i.exts ∧ j.name ≠ [] ∧ j ∈ w.interfaces := by
  simp only [World.parents, World.interfacesNamed, List.mem_flatMap, List.mem_filter, decide_eq_true_eq,
    ne_eq, decide_not, Bool.not_eq_true', decide_eq_false_iff_not]
  constructor
  · rintro ⟨e, ⟨he, hne⟩, hj, rfl⟩; exact ⟨he, hne, hj⟩
  · rintro ⟨h1, h2, h3⟩; exact ⟨j.name, ⟨h1, h2⟩, h3, rfl⟩

/-- A bound on the number of interfaces that one interface extends. -/
def World.fanI (w : World) : Nat := (w.interfaces.map fun i => (w.parents i).length).sum

/-- Rounds that the loop over interfaces may still need. -/
def World.needI (w : World) (queue : List Intf) (S : List Bytes) : Nat :=
  (w.interfaces.filter fun i => i.name ∉ S).length * (w.fanI + 1) + queue.length

theorem needI_step (w : World) (i : Intf) (queue : List Intf) (S : List Bytes) (hi : i ∈ w.interfaces)
    (hS : i.name ∉ S) (next : List Intf) (hn : next.length ≤ (w.parents i).length) (S' : List Bytes)
    (hsub : ∀ s ∈ S, s ∈ S') (hin : i.name ∈ S') :
    w.needI (queue ++ next) S' < w.needI (i :: queue) S := by
  have h1 : (w.interfaces.filter fun i => i.name ∉ S').length < (w.interfaces.filter fun i => i.name ∉ S).length := by
    apply filter_lt _ _ _ _ i hi
    · simpa using hS
    · simpa using hin
    · intro x hx
      simp only [decide_not, Bool.not_eq_true', decide_eq_false_iff_not] at hx ⊢
      exact fun h => hx (hsub _ h)
  have h2 : (w.parents i).length ≤ w.fanI := le_sum (fun i => (w.parents i).length) w.interfaces i hi
  unfold World.needI
  rw [List.length_append, List.length_cons]
  generalize (w.interfaces.filter fun i => i.name ∉ S').length = a at *
  generalize (w.interfaces.filter fun i => i.name ∉ S).length = b at *
  have h3 : (a + 1) * (w.fanI + 1) ≤ b * (w.fanI + 1) := Nat.mul_le_mul_right _ h1
  rw [Nat.add_mul, Nat.one_mul] at h3
  omega

/-- What stays the same in a loop over interfaces. -/
structure Keeps (m : Inherited) (st : St) (r : Inherited × St) : Prop where
  searched : r.1.searched = m.searched
  cache : r.2.cache = st.cache
  next : r.2.next = st.next
  le : st.Le r.2
  others : ∀ id, id ≠ m.searched → r.2.sets id = st.sets id
  members : ∀ f ∈ m.members, f ∈ r.1.members

theorem intfLoop_keeps (w : World) (k : Kind) (name : Bytes) (n : Nat) (queue : List Intf) (m : Inherited) (st : St)
    (r : Inherited × St) (h : intfLoop w k name n queue m st = some r) : Keeps m st r := by
  induction n generalizing queue m st with
  | zero =>
    cases queue with
    | nil =>
      simp only [intfLoop, Option.some.injEq] at h
      subst h
      exact ⟨rfl, rfl, rfl, St.Le.refl _, fun _ _ => rfl, fun _ h => h⟩
    | cons i q => simp [intfLoop] at h
  | succ n ih =>
    cases queue with
    | nil =>
      simp only [intfLoop, Option.some.injEq] at h
      subst h
      exact ⟨rfl, rfl, rfl, St.Le.refl _, fun _ _ => rfl, fun _ h => h⟩
    | cons i q =>
      simp only [intfLoop] at h
      split at h
      · exact ih _ _ _ h
      · have := ih _ _ _ h
        refine ⟨this.searched, this.cache, this.next, (st.le_mark _ _).trans this.le, fun id hid => ?_,
          fun f hf => this.members f (List.mem_append_left _ hf)⟩
        rw [this.others id hid]
        simp [St.mark, hid]

theorem intfLoop_some (w : World) (k : Kind) (name : Bytes) (n : Nat) (queue : List Intf) (m : Inherited) (st : St)
    (hq : ∀ i ∈ queue, i ∈ w.interfaces) (hn : w.needI queue (st.sets m.searched) ≤ n) :
    ∃ r, intfLoop w k name n queue m st = some r := by
  induction n generalizing queue m st with
  | zero =>
    cases queue with
    | nil => exact ⟨_, rfl⟩
    | cons i q => simp [World.needI] at hn
  | succ n ih =>
    cases queue with
    | nil => exact ⟨_, rfl⟩
    | cons i q =>
      simp only [intfLoop]
      split
      · apply ih
        · exact fun x hx => hq x (by simp [hx])
        · simp only [World.needI, List.length_cons] at hn ⊢
          omega
      · rename_i hS
        apply ih
        · intro x hx
          rw [List.mem_append, List.mem_filter] at hx
          rcases hx with hx | ⟨hx, -⟩
          · exact hq x (by simp [hx])
          · exact ((mem_parents w i x).mp hx).2.2
        · have := needI_step w i q (st.sets m.searched) (hq i (by simp)) hS
            ((w.parents i).filter fun p => p.name ∉ (st.mark m.searched [i.name]).sets m.searched)
            (List.length_filter_le _ _) ((st.mark m.searched [i.name]).sets m.searched)
            (fun s hs => (st.mem_mark _ _ _ _).mpr (.inl hs)) ((st.mem_mark _ _ _ _).mpr (.inr ⟨rfl, by simp⟩))
          exact Nat.le_of_lt_succ (Nat.lt_of_lt_of_le this hn)

/-- More rounds do not change the result. -/
theorem intfLoop_mono (w : World) (k : Kind) (name : Bytes) (n : Nat) (queue : List Intf) (m : Inherited) (st : St)
    (r : Inherited × St) (h : intfLoop w k name n queue m st = some r) (n' : Nat) (hn : n ≤ n') :
    intfLoop w k name n' queue m st = some r := by
  induction n generalizing queue m st n' with
  | zero =>
    cases queue with
    | nil => cases n' <;> exact h
    | cons i q => simp [intfLoop] at h
  | succ n ih =>
    cases queue with
    | nil => cases n' <;> exact h
    | cons i q =>
      obtain ⟨n', rfl⟩ : ∃ x, n' = x + 1 := ⟨n' - 1, by omega⟩
      simp only [intfLoop] at h ⊢
      split at h
      · rename_i hS; rw [if_pos hS]; exact ih _ _ _ h _ (by omega)
      · rename_i hS; rw [if_neg hS]; exact ih _ _ _ h _ (by omega)

/-- A number of rounds that suffices for every interface in every state. -/
def World.boundI (w : World) : Nat := w.interfaces.length * (w.fanI + 1) + 1

theorem needI_le_bound (w : World) (i : Intf) (S : List Bytes) : w.needI [i] S ≤ w.boundI := by
  unfold World.needI World.boundI
  have := List.length_filter_le (fun i : Intf => i.name ∉ S) w.interfaces
  have := Nat.mul_le_mul_right (w.fanI + 1) this
  simp only [List.length_cons, List.length_nil]
  omega

theorem getInterface_le (w : World) (k : Kind) (n : Nat) (i : Intf) (name : Bytes) (o : Option Nat) (st : St)
    (r : Inherited × St) (h : getInterface w k n i name o st = some r) : st.Le r.2 := by
  unfold getInterface at h
  simp only at h
  split at h
  · simp only [Option.some.injEq] at h
    subst h
    exact st.le_searchedOr o
  · obtain ⟨⟨m, st'⟩, h1, rfl⟩ := Option.map_eq_some_iff.mp h
    exact (st.le_searchedOr o).trans ((intfLoop_keeps _ _ _ _ _ _ _ _ h1).le.trans (St.le_cache _ _))

theorem getInterface_some (w : World) (k : Kind) (n : Nat) (hn : w.boundI ≤ n) (i : Intf) (hi : i ∈ w.interfaces)
    (name : Bytes) (o : Option Nat) (st : St) : ∃ r, getInterface w k n i name o st = some r := by
  unfold getInterface
  simp only
  split
  · exact ⟨_, rfl⟩
  · obtain ⟨r, hr⟩ := intfLoop_some w k name n [i] { members := [], rel := [], searched := (st.searchedOr o).1 }
      (st.searchedOr o).2 (by simpa using hi) (Nat.le_trans (needI_le_bound w i _) hn)
    rw [hr]
    exact ⟨_, rfl⟩

theorem getInterface_mono (w : World) (k : Kind) (n : Nat) (i : Intf) (name : Bytes) (o : Option Nat) (st : St)
    (r : Inherited × St) (h : getInterface w k n i name o st = some r) (n' : Nat) (hn : n ≤ n') :
    getInterface w k n' i name o st = some r := by
  unfold getInterface at h ⊢
  simp only at h ⊢
  split at h
  · exact h
  · rename_i hc
    obtain ⟨⟨m, st'⟩, h1, rfl⟩ := Option.map_eq_some_iff.mp h
    rw [intfLoop_mono _ _ _ _ _ _ _ _ h1 n' hn]
    rfl

/-! ### Traits and the interfaces of a class -/

theorem getTrait_le (w : World) (t : Trt) (name : Bytes) (st : St) : st.Le (getTrait w t name st).2 := by
  unfold getTrait
  split
  · exact St.Le.refl _
  · exact st.le_newSet.trans (St.le_cache _ _)

theorem merge_le (m o : Inherited) (st : St) : st.Le (merge m o st).2 := st.le_mark _ _

theorem mergeTraits_le (w : World) (name : Bytes) (ts : List Trt) (m : Inherited) (st : St) :
    st.Le (mergeTraits w name ts m st).2 ∧ (mergeTraits w name ts m st).1.searched = m.searched := by
  unfold mergeTraits
  induction ts generalizing m st with
  | nil => exact ⟨St.Le.refl _, rfl⟩
  | cons t ts ih =>
    rw [List.foldl_cons]
    have := ih (merge m (getTrait w t name st).1 (getTrait w t name st).2).1
      (merge m (getTrait w t name st).1 (getTrait w t name st).2).2
    exact ⟨(getTrait_le w t name st).trans ((merge_le _ _ _).trans this.1), this.2⟩

theorem mergeInterfaces_le (w : World) (k : Kind) (n : Nat) (name : Bytes) (is : List Intf) (m : Inherited) (st : St)
    (r : Inherited × St) (h : mergeInterfaces w k n name is m st = some r) :
    st.Le r.2 ∧ r.1.searched = m.searched := by
  induction is generalizing m st with
  | nil =>
    simp only [mergeInterfaces, Option.some.injEq] at h
    subst h
    exact ⟨St.Le.refl _, rfl⟩
  | cons i is ih =>
    simp only [mergeInterfaces] at h
    cases hg : getInterface w k n i name (some m.searched) st with
    | none => rw [hg] at h; simp at h
    | some r' =>
      obtain ⟨r', st'⟩ := r'
      rw [hg] at h
      have := ih _ _ h
      exact ⟨(getInterface_le _ _ _ _ _ _ _ _ hg).trans ((merge_le _ _ _).trans this.1), this.2⟩

theorem mergeInterfaces_some (w : World) (k : Kind) (n : Nat) (hn : w.boundI ≤ n) (name : Bytes) (is : List Intf)
    (his : ∀ i ∈ is, i ∈ w.interfaces) (m : Inherited) (st : St) : ∃ r, mergeInterfaces w k n name is m st = some r := by
  induction is generalizing m st with
  | nil => exact ⟨_, rfl⟩
  | cons i is ih =>
    simp only [mergeInterfaces]
    obtain ⟨⟨r, st'⟩, hr⟩ := getInterface_some w k n hn i (his i (by simp)) name (some m.searched) st
    rw [hr]
    exact ih (fun j hj => his j (by simp [hj])) _ _

theorem mergeInterfaces_mono (w : World) (k : Kind) (n : Nat) (name : Bytes) (is : List Intf) (m : Inherited) (st : St)
    (r : Inherited × St) (h : mergeInterfaces w k n name is m st = some r) (n' : Nat) (hn : n ≤ n') :
    mergeInterfaces w k n' name is m st = some r := by
  induction is generalizing m st with
  | nil => exact h
  | cons i is ih =>
    simp only [mergeInterfaces] at h ⊢
    cases hg : getInterface w k n i name (some m.searched) st with
    | none => rw [hg] at h; simp at h
    | some r' =>
      rw [hg] at h
      rw [getInterface_mono _ _ _ _ _ _ _ _ hg n' hn]
      exact ih _ _ h

theorem mem_implemented (w : World) (c : Cls) (i : Intf) :
    i ∈ w.implemented c ↔ i.name ∈ c.impls ∧ i.name ≠ [] ∧ i ∈ w.interfaces := by
  simp only [World.implemented, World.interfacesNamed, List.mem_flatMap, List.mem_filter, decide_eq_true_eq,
    ne_eq, decide_not, Bool.not_eq_true', decide_eq_false_iff_not]
  constructor
  · rintro ⟨e, ⟨he, hne⟩, hj, rfl⟩; exact ⟨he, hne, hj⟩
  · rintro ⟨h1, h2, h3⟩; exact ⟨i.name, ⟨h1, h2⟩, h3, rfl⟩

theorem mem_used (w : World) (c : Cls) (t : Trt) :
    t ∈ w.used c ↔ t.name ∈ c.uses ∧ t.name ≠ [] ∧ t ∈ w.traits := by
  simp only [World.used, World.traitsNamed, List.mem_flatMap, List.mem_filter, decide_eq_true_eq,
    ne_eq, decide_not, Bool.not_eq_true', decide_eq_false_iff_not]
  constructor
  · rintro ⟨e, ⟨he, hne⟩, hj, rfl⟩; exact ⟨he, hne, hj⟩
  · rintro ⟨h1, h2, h3⟩; exact ⟨t.name, ⟨h1, h2⟩, h3, rfl⟩

theorem mem_classesNamed (w : World) (f : Bytes) (c : Cls) :
    c ∈ w.classesNamed f ↔ c ∈ w.classes ∧ w.key c.name = w.key f := by
  simp [World.classesNamed]

/-! ### Classes -/

/-- Rounds that the loop over classes may still need. -/
def World.needC (w : World) (queue : List Cls) (S : List Bytes) : Nat :=
  (w.classes.filter fun c => c.name ∉ S).length * (w.classes.length + 1) + queue.length

theorem needC_step (w : World) (c : Cls) (queue next : List Cls) (S S' : List Bytes) (hc : c ∈ w.classes)
    (hS : c.name ∉ S) (hn : next.length ≤ w.classes.length)
    (hsub : ∀ s ∈ S, s ∈ S') (hin : c.name ∈ S') :
    w.needC (queue ++ next) S' < w.needC (c :: queue) S := by
  have h1 : (w.classes.filter fun i => i.name ∉ S').length < (w.classes.filter fun i => i.name ∉ S).length := by
    apply filter_lt _ _ _ _ c hc
    · simpa using hS
    · simpa using hin
    · intro x hx
      simp only [decide_not, Bool.not_eq_true', decide_eq_false_iff_not] at hx ⊢
      exact fun h => hx (hsub _ h)
  unfold World.needC
  rw [List.length_append, List.length_cons]
  generalize (w.classes.filter fun i => i.name ∉ S').length = a at *
  generalize (w.classes.filter fun i => i.name ∉ S).length = b at *
  have h3 : (a + 1) * (w.classes.length + 1) ≤ b * (w.classes.length + 1) := Nat.mul_le_mul_right _ h1
  rw [Nat.add_mul, Nat.one_mul] at h3
  omega

theorem methodLoop_le (w : World) (name : Bytes) (ni n : Nat) (queue : List Cls) (m mi : Inherited) (st : St)
    (r : Inherited × Inherited × St) (h : methodLoop w name ni n queue m mi st = some r) :
    st.Le r.2.2 ∧ r.1.searched = m.searched ∧ r.2.1.searched = mi.searched := by
  induction n generalizing queue m mi st with
  | zero =>
    cases queue with
    | nil => simp only [methodLoop, Option.some.injEq] at h; subst h; exact ⟨St.Le.refl _, rfl, rfl⟩
    | cons c q => simp [methodLoop] at h
  | succ n ih =>
    cases queue with
    | nil => simp only [methodLoop, Option.some.injEq] at h; subst h; exact ⟨St.Le.refl _, rfl, rfl⟩
    | cons c q =>
      simp only [methodLoop] at h
      split at h
      · exact ih _ _ _ _ h
      · have ht := mergeTraits_le w name (w.used c) { m with members := m.members ++ w.found .methods c.name name }
          (st.mark m.searched [c.name])
        cases hm : mergeInterfaces w .methods ni name (w.implemented c) mi
            (mergeTraits w name (w.used c) { m with members := m.members ++ w.found .methods c.name name }
              (st.mark m.searched [c.name])).2 with
        | none => rw [hm] at h; simp at h
        | some r' =>
          obtain ⟨mi', st'⟩ := r'
          rw [hm] at h
          have h2 := mergeInterfaces_le _ _ _ _ _ _ _ _ hm
          have h3 := ih _ _ _ _ h
          exact ⟨(st.le_mark _ _).trans (ht.1.trans (h2.1.trans h3.1)), h3.2.1.trans ht.2, h3.2.2.trans h2.2⟩

theorem methodLoop_some (w : World) (name : Bytes) (ni : Nat) (hni : w.boundI ≤ ni) (n : Nat) (queue : List Cls)
    (m mi : Inherited) (st : St) (hid : m.searched < st.next)
    (hq : ∀ c ∈ queue, c ∈ w.classes) (hn : w.needC queue (st.sets m.searched) ≤ n) :
    ∃ r, methodLoop w name ni n queue m mi st = some r := by
  induction n generalizing queue m mi st with
  | zero =>
    cases queue with
    | nil => exact ⟨_, rfl⟩
    | cons c q => simp [World.needC] at hn
  | succ n ih =>
    cases queue with
    | nil => exact ⟨_, rfl⟩
    | cons c q =>
      simp only [methodLoop]
      split
      · apply ih _ _ _ _ hid
        · exact fun x hx => hq x (by simp [hx])
        · simp only [World.needC, List.length_cons] at hn ⊢
          omega
      · rename_i hS
        have ht := mergeTraits_le w name (w.used c) { m with members := m.members ++ w.found .methods c.name name }
          (st.mark m.searched [c.name])
        obtain ⟨⟨mi', st'⟩, hm⟩ := mergeInterfaces_some w .methods ni hni name (w.implemented c)
          (fun i hi => ((mem_implemented w c i).mp hi).2.2) mi
          (mergeTraits w name (w.used c) { m with members := m.members ++ w.found .methods c.name name }
            (st.mark m.searched [c.name])).2
        rw [hm]
        have h2 := mergeInterfaces_le _ _ _ _ _ _ _ _ hm
        have hle : (st.mark m.searched [c.name]).Le st' := ht.1.trans h2.1
        have hS' : ∀ s ∈ st.sets m.searched, s ∈ st'.sets m.searched := fun s hs =>
          hle.2 _ hid s ((st.mem_mark _ _ _ _).mpr (.inl hs))
        have hin : c.name ∈ st'.sets m.searched :=
          hle.2 _ hid _ ((st.mem_mark _ _ _ _).mpr (.inr ⟨rfl, by simp⟩))
        apply ih
        · rw [ht.2]; exact Nat.lt_of_lt_of_le hid hle.1
        · intro x hx
          split at hx
          · rw [List.mem_append, mem_classesNamed] at hx
            rcases hx with hx | hx
            · exact hq x (by simp [hx])
            · exact hx.1
          · exact hq x (by simp [hx])
        · rw [ht.2]
          show World.needC w _ (st'.sets m.searched) ≤ n
          apply Nat.le_of_lt_succ
          refine Nat.lt_of_lt_of_le ?_ hn
          split
          · exact needC_step w c q _ _ _ (hq c (by simp)) hS (List.length_filter_le _ _) hS' hin
          · have := needC_step w c q [] _ _ (hq c (by simp)) hS (by simp) hS' hin
            rwa [List.append_nil] at this

theorem methodLoop_mono (w : World) (name : Bytes) (ni n : Nat) (queue : List Cls) (m mi : Inherited) (st : St)
    (r : Inherited × Inherited × St) (h : methodLoop w name ni n queue m mi st = some r) (n' ni' : Nat)
    (hn : n ≤ n') (hni : ni ≤ ni') : methodLoop w name ni' n' queue m mi st = some r := by
  induction n generalizing queue m mi st n' with
  | zero =>
    cases queue with
    | nil => cases n' <;> exact h
    | cons c q => simp [methodLoop] at h
  | succ n ih =>
    cases queue with
    | nil => cases n' <;> exact h
    | cons c q =>
      obtain ⟨n', rfl⟩ : ∃ x, n' = x + 1 := ⟨n' - 1, by omega⟩
      simp only [methodLoop] at h ⊢
      split at h
      · rename_i hS; rw [if_pos hS]; exact ih _ _ _ _ h _ (by omega)
      · rename_i hS
        rw [if_neg hS]
        cases hm : mergeInterfaces w .methods ni name (w.implemented c) mi
            (mergeTraits w name (w.used c) { m with members := m.members ++ w.found .methods c.name name }
              (st.mark m.searched [c.name])).2 with
        | none => rw [hm] at h; simp at h
        | some r' =>
          rw [hm] at h
          rw [mergeInterfaces_mono _ _ _ _ _ _ _ _ hm ni' hni]
          exact ih _ _ _ _ h _ (by omega)

/-- A number of rounds that suffices for every class in every state. -/
def World.boundC (w : World) : Nat := w.classes.length * (w.classes.length + 1) + 1

theorem needC_le_bound (w : World) (c : Cls) (S : List Bytes) : w.needC [c] S ≤ w.boundC := by
  unfold World.needC World.boundC
  have := List.length_filter_le (fun i : Cls => i.name ∉ S) w.classes
  have := Nat.mul_le_mul_right (w.classes.length + 1) this
  simp only [List.length_cons, List.length_nil]
  omega

theorem getClassMethods_some (w : World) (n ni : Nat) (hn : w.boundC ≤ n) (hni : w.boundI ≤ ni) (c : Cls)
    (hc : c ∈ w.classes) (name : Bytes) (o : Option Nat) (st : St) (ho : ∀ id, o = some id → id < st.next) :
    ∃ r, getClassMethods w n ni c name o st = some r := by
  unfold getClassMethods
  simp only
  split
  · exact ⟨_, rfl⟩
  · obtain ⟨⟨m, mi, st'⟩, hr⟩ := methodLoop_some w name ni hni n [c]
      { members := [], rel := [], searched := (st.searchedOr o).1 }
      { members := [], rel := [], searched := (st.searchedOr o).1 } (st.searchedOr o).2
      (st.searchedOr_lt o ho) (by simpa using hc) (Nat.le_trans (needC_le_bound w c _) hn)
    rw [hr]
    exact ⟨_, rfl⟩

theorem getClassMethods_mono (w : World) (n ni : Nat) (c : Cls) (name : Bytes) (o : Option Nat) (st : St)
    (r : Inherited × St) (h : getClassMethods w n ni c name o st = some r) (n' ni' : Nat) (hn : n ≤ n')
    (hni : ni ≤ ni') : getClassMethods w n' ni' c name o st = some r := by
  unfold getClassMethods at h ⊢
  simp only at h ⊢
  split at h
  · exact h
  · split at h
    · simp at h
    · rename_i hl
      rw [methodLoop_mono _ _ _ _ _ _ _ _ _ hl n' ni' hn hni]
      exact h

end Verif.Query
