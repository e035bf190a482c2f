import Verif.Symbols.Args
import Verif.Symbols.PropsVars

/-! C46, C47. -/

namespace Verif.Symbols
open Verif.Position

theorem before_afterComma {p q : Pos} : Before p q ↔ ¬ Before q (afterComma p) := by
  unfold Before afterComma; simp only; omega

theorem argRanges_length (s e : Pos) (cs : List ArgChild) : (argRanges s e cs).length = (commas cs).length + 1 := by
  induction cs generalizing s with
  | nil => rfl
  | cons c cs ih => cases c <;> simp [argRanges, commas, ih]

/-- The range of the `i`-th argument. -/
theorem argRanges_get (s e : Pos) (cs : List ArgChild) (i : Nat) (r : Rng) (h : (argRanges s e cs)[i]? = some r) :
    (if i = 0 then r.start = s else ∃ p, (commas cs)[i - 1]? = some p ∧ r.start = afterComma p) ∧
    (match (commas cs)[i]? with | some p => r.stop = p | none => r.stop = e) := by
  induction cs generalizing s i with
  | nil =>
    simp only [argRanges] at h
    cases i with
    | zero => simp only [List.getElem?_cons_zero, Option.some.injEq] at h; subst h; simp [commas]
    | succ i => simp at h
  | cons c cs ih =>
    cases c with
    | other => exact ih s i h
    | comma p =>
      cases i with
      | zero =>
        simp only [argRanges, List.getElem?_cons_zero, Option.some.injEq] at h
        subst h
        simp [commas]
      | succ i =>
        simp only [argRanges, List.getElem?_cons_succ] at h
        obtain ⟨h1, h2⟩ := ih _ i h
        refine ⟨?_, by simpa [commas] using h2⟩
        rw [if_neg (by omega)]
        cases i with
        | zero => exact ⟨p, rfl, by simpa using h1⟩
        | succ i =>
          rw [if_neg (by omega)] at h1
          simpa [commas] using h1

theorem notAfter_iff (pos : Pos) (r : Rng) (h : ¬ Before r.stop r.start) : isInRange pos r ≤ 0 ↔ Before pos r.stop := by
  obtain ⟨h1, h2, h3⟩ := C50_in_range pos r
  have hall : isInRange pos r = -1 ∨ isInRange pos r = 0 ∨ isInRange pos r = 1 := by
    by_cases ha : Before pos r.start
    · exact .inl (h1.mpr ha)
    · by_cases hb : Before pos r.stop
      · exact .inr (.inl (h2.mpr ⟨ha, hb⟩))
      · exact .inr (.inr (h3.mpr ⟨ha, hb⟩))
  constructor
  · intro hle
    rcases hall with hh | hh | hh
    · have := h1.mp hh
      rcases before_or h with h' | h'
      · exact before_trans this h'
      · rw [h'] at this; exact this
    · exact (h2.mp hh).2
    · omega
  · intro hb
    rcases hall with hh | hh | hh
    · omega
    · omega
    · exact absurd hb (h3.mp hh).2

theorem count_split {α : Type} (l : List α) (f : α → Bool) (i : Nat) (h1 : ∀ c ∈ l.take i, f c = true)
    (h2 : ∀ c ∈ l.drop i, f c = false) (hi : i ≤ l.length) : (l.filter f).length = i := by
  rw [← List.take_append_drop i l, List.filter_append, List.filter_eq_self.mpr h1,
    List.filter_eq_nil_iff.mpr (by intro c hc; simp [h2 c hc])]
  simp [hi]

instance decBefore (a b : Pos) : Decidable (Before a b) := by unfold Before; infer_instance

theorem argRanges_ordered {list : Rng} {children : List ArgChild} (h : CommasInOrder list children)
    (hl : ¬ Before list.stop list.start) (i : Nat) (r : Rng)
    (hr : (argRanges list.start list.stop children)[i]? = some r) : ¬ Before r.stop r.start := by
  obtain ⟨h1, h2⟩ := argRanges_get _ _ _ _ _ hr
  have hm := List.pairwise_iff_getElem.mp h.1
  by_cases hi : i = 0
  · subst hi
    simp only [if_true] at h1
    rw [h1]
    cases hc : (commas children)[0]? with
    | none => rw [hc] at h2; simp only at h2; rw [h2]; exact hl
    | some p => rw [hc] at h2; simp only at h2; rw [h2]; exact (h.2 p (List.mem_of_getElem? hc)).1
  · rw [if_neg hi] at h1
    obtain ⟨p, hp, hs⟩ := h1
    rw [hs]
    rw [← before_afterComma]
    have hpl : i - 1 < (commas children).length := (List.getElem?_eq_some_iff.mp hp).1
    cases hc : (commas children)[i]? with
    | none => rw [hc] at h2; simp only at h2; rw [h2]; exact (h.2 p (List.mem_of_getElem? hp)).2
    | some q =>
      rw [hc] at h2; simp only at h2; rw [h2]
      have hql := (List.getElem?_eq_some_iff.mp hc).1
      have := hm (i - 1) i hpl hql (by omega)
      rw [(List.getElem?_eq_some_iff.mp hp).2, (List.getElem?_eq_some_iff.mp hc).2] at this
      exact this

/-- The active parameter, exactly: for a cursor in the argument list, the number of commas at or before the cursor. -/
theorem C46_commas (list : Rng) (children : List ArgChild) (pos : Pos) (h : CommasInOrder list children)
    (hin : ¬ Before pos list.start ∧ Before pos list.stop) :
    activeParameter list children pos = ((commas children).filter fun p => decide (¬ Before pos p)).length := by
  have hl : ¬ Before list.stop list.start := fun hb => hin.1 (before_trans hin.2 hb)
  have hlen := argRanges_length list.start list.stop children
  have hm := List.pairwise_iff_getElem.mp h.1
  -- the condition of the search on the i-th range
  have hcond : ∀ (i : Nat) (r : Rng), (argRanges list.start list.stop children)[i]? = some r →
      (decide (isInRange pos r ≤ 0) = true ↔ match (commas children)[i]? with | some p => Before pos p | none => True) := by
    intro i r hr
    rw [decide_eq_true_eq, notAfter_iff _ _ (argRanges_ordered h hl i r hr)]
    have := (argRanges_get _ _ _ _ _ hr).2
    cases hc : (commas children)[i]? with
    | none => rw [hc] at this; simp only at this ⊢; rw [this]; simp [hin.2]
    | some p => rw [hc] at this; simp only at this ⊢; rw [this]
  obtain ⟨h1, h2, h3⟩ := search_split (argRanges list.start list.stop children) (fun r => decide (isInRange pos r ≤ 0)) (by
    rw [List.pairwise_iff_getElem]
    intro i j hi hj hij ha
    have ha' := (hcond i _ (List.getElem?_eq_getElem hi)).mp ha
    apply (hcond j _ (List.getElem?_eq_getElem hj)).mpr
    cases hc : (commas children)[j]? with
    | none => trivial
    | some q =>
      have hql := (List.getElem?_eq_some_iff.mp hc).1
      have hil : i < (commas children).length := by omega
      rw [List.getElem?_eq_getElem hil] at ha'
      have := hm i j hil hql hij
      rw [(List.getElem?_eq_some_iff.mp hc).2] at this
      exact before_trans ha' this)
  unfold activeParameter
  generalize searchList (argRanges list.start list.stop children) (fun r => decide (isInRange pos r ≤ 0)) = k at h1 h2 h3
  -- the last range always satisfies the condition
  have hk : k ≤ (commas children).length := by
    by_contra hgt
    have hlast : (commas children).length < (argRanges list.start list.stop children).length := by omega
    have hc := hcond _ _ (List.getElem?_eq_getElem hlast)
    rw [List.getElem?_eq_none (Nat.le_refl _)] at hc
    have := h1 ((argRanges list.start list.stop children)[(commas children).length]) (by
      rw [List.mem_take_iff_getElem]
      exact ⟨(commas children).length, by omega, rfl⟩)
    rw [hc.mpr trivial] at this
    cases this
  symm
  apply count_split _ _ _ ?_ ?_ hk
  · intro p hp
    obtain ⟨i, hi, hpi⟩ := List.mem_take_iff_getElem.mp hp
    have hir : i < (argRanges list.start list.stop children).length := by omega
    have hf := h1 ((argRanges list.start list.stop children)[i]) (by
      rw [List.mem_take_iff_getElem]; exact ⟨i, by omega, rfl⟩)
    have hc := hcond i _ (List.getElem?_eq_getElem hir)
    rw [List.getElem?_eq_getElem (by omega : i < (commas children).length)] at hc
    rw [hf] at hc
    simp only [Bool.false_eq_true, false_iff] at hc
    rw [← hpi]
    simpa using hc
  · intro p hp
    obtain ⟨i, hi, hpi⟩ := List.mem_drop_iff_getElem.mp hp
    have hir : k + i < (argRanges list.start list.stop children).length := by omega
    have hf := h2 ((argRanges list.start list.stop children)[k + i]) (by
      rw [List.mem_drop_iff_getElem]; exact ⟨i, by omega, rfl⟩)
    have hc := hcond (k + i) _ (List.getElem?_eq_getElem hir)
    rw [List.getElem?_eq_getElem (by omega : k + i < (commas children).length), hpi] at hc
    have := hc.mp hf
    simpa using this

/-- C46, partial: the active parameter is the index of the argument whose text range contains the cursor: the number of
commas in front of the cursor. Missing: a cursor directly in front of a comma, at the end of an argument
(`C46_false_end_of_argument`). -/
theorem C46_active_partial (list : Rng) (children : List ArgChild) (pos : Pos) (h : CommasInOrder list children)
    (hin : ¬ Before pos list.start ∧ Before pos list.stop) (hc : pos ∉ commas children) :
    activeParameter list children pos = ((commas children).filter fun p => decide (Before p pos)).length ∧
    ∃ r, (argRanges list.start list.stop children)[activeParameter list children pos]? = some r ∧
      ¬ Before pos r.start ∧ Before pos r.stop := by
  have hcm := C46_commas list children pos h hin
  have hfe : ((commas children).filter fun p => decide (¬ Before pos p)) = ((commas children).filter fun p => decide (Before p pos)) := by
    apply List.filter_congr
    intro p hp
    rw [decide_eq_decide]
    constructor
    · intro hb
      rcases before_or hb with h' | h'
      · exact h'
      · rw [h'] at hp; exact absurd hp hc
    · intro hb hb'
      exact before_irrefl (before_trans hb hb')
  refine ⟨by rw [hcm, hfe], ?_⟩
  have hl : ¬ Before list.stop list.start := fun hb => hin.1 (before_trans hin.2 hb)
  have hlen := argRanges_length list.start list.stop children
  have hk : activeParameter list children pos < (argRanges list.start list.stop children).length := by
    rw [hcm, hlen]
    have := List.length_filter_le (fun p => decide (¬ Before pos p)) (commas children)
    omega
  refine ⟨_, List.getElem?_eq_getElem hk, ?_⟩
  have hget := List.getElem?_eq_getElem hk
  generalize (argRanges list.start list.stop children)[activeParameter list children pos] = r at hget
  obtain ⟨g1, g2⟩ := argRanges_get _ _ _ _ _ hget
  have hm := List.pairwise_iff_getElem.mp h.1
  -- the commas are split by the cursor at the active parameter
  have hsplit : ∀ i (hi : i < (commas children).length), Before (commas children)[i] pos ↔ i < activeParameter list children pos := by
    obtain ⟨s1, s2, s3⟩ := search_split (commas children) (fun p => decide (Before pos p)) (by
      refine h.1.imp ?_
      intro a b hab ha
      simp only [decide_eq_true_eq] at ha ⊢
      exact before_trans ha hab)
    have hcount := count_split (commas children) (fun p => decide (¬ Before pos p)) _ (by
      intro c hc; simpa using s1 c hc) (by intro c hc; simpa using s2 c hc) s3
    rw [← hcm] at hcount
    intro i hi
    rw [hcount]
    constructor
    · intro hb
      by_contra hge
      have := s2 (commas children)[i] (by
        rw [List.mem_drop_iff_getElem]
        exact ⟨i - searchList (commas children) (fun p => decide (Before pos p)), by omega, by congr 1; omega⟩)
      simp only [decide_eq_true_eq] at this
      exact before_irrefl (before_trans hb this)
    · intro hlt
      have := s1 (commas children)[i] (by
        rw [List.mem_take_iff_getElem]; exact ⟨i, by omega, rfl⟩)
      simp only [decide_eq_false_iff_not] at this
      rcases before_or this with h' | h'
      · exact h'
      · exact absurd (h' ▸ List.getElem_mem hi) hc
  constructor
  · by_cases h0 : activeParameter list children pos = 0
    · rw [if_pos h0] at g1
      rw [g1]
      exact hin.1
    · rw [if_neg h0] at g1
      obtain ⟨p, hp, hs⟩ := g1
      rw [hs, ← before_afterComma]
      obtain ⟨hpl, hpe⟩ := List.getElem?_eq_some_iff.mp hp
      rw [← hpe]
      exact (hsplit _ hpl).mpr (by omega)
  · cases hcc : (commas children)[activeParameter list children pos]? with
    | none => rw [hcc] at g2; simp only at g2; rw [g2]; exact hin.2
    | some q =>
      rw [hcc] at g2; simp only at g2; rw [g2]
      obtain ⟨hql, hqe⟩ := List.getElem?_eq_some_iff.mp hcc
      rw [← hqe]
      have hn : ¬ Before (commas children)[activeParameter list children pos] pos := by
        rw [hsplit _ hql]; omega
      rcases before_or hn with h' | h'
      · exact h'
      · exact absurd (h' ▸ List.getElem_mem hql) hc

/-- C46 does not hold at the end of an argument: in `f(ab|, c)` the second parameter is highlighted. -/
theorem C46_false_end_of_argument : ∃ list children pos, CommasInOrder list children ∧
    ¬ Before pos list.start ∧ Before pos list.stop ∧ (∀ p ∈ commas children, ¬ Before p pos) ∧
    activeParameter list children pos = 1 :=
  ⟨⟨⟨0, 1⟩, ⟨0, 8⟩⟩, [.other, .other, .comma ⟨0, 4⟩, .other, .other], ⟨0, 4⟩,
    ⟨by simp [commas], by simp [commas, Before]⟩, by simp [Before], by simp [Before], by simp [commas, Before],
    by decide +kernel⟩

-- f(ab, c|, d)
example : activeParameter ⟨⟨0, 1⟩, ⟨0, 11⟩⟩ [.other, .comma ⟨0, 4⟩, .other, .comma ⟨0, 7⟩, .other] ⟨0, 6⟩ = 1 := by decide +kernel

example : CommasInOrder ⟨⟨0, 1⟩, ⟨0, 11⟩⟩ [.other, .comma ⟨0, 4⟩, .other, .comma ⟨0, 7⟩, .other] ∧
    (⟨0, 6⟩ : Pos) ∉ commas [.other, .comma ⟨0, 4⟩, .other, .comma ⟨0, 7⟩, .other] := by
  refine ⟨⟨by simp [commas, Before], by simp [commas, Before]⟩, by decide⟩

/-! ### C47 -/

theorem swap_perm {α : Type} (l : List α) (i j : Nat) (a b : α) (hi : l[i]? = some a) (hj : l[j]? = some b) :
    ((l.set i b).set j a).Perm l := by
  obtain ⟨hi', rfl⟩ := List.getElem?_eq_some_iff.mp hi
  obtain ⟨hj', rfl⟩ := List.getElem?_eq_some_iff.mp hj
  exact List.set_set_perm hi' hj'

theorem swapped_perm {α : Type} {l l' : List α} (h : Swapped l l') : l'.Perm l := by
  induction h with
  | refl => exact List.Perm.refl _
  | swap i j a b _ hi hj ih => exact (swap_perm _ i j a b hi hj).trans ih

theorem sinkDown_swapped {α : Type} (less : Nat → Nat → Bool) (l0 items : List α) (j : Nat) (h : Swapped l0 items) :
    Swapped l0 (sinkDown less items j) := by
  induction j generalizing items with
  | zero => exact h
  | succ j ih =>
    rw [sinkDown]
    split
    · split
      · rename_i a b ha hb
        exact ih _ (.swap j (j + 1) a b h ha hb)
      · exact h
    · exact h

theorem insertionSort_swapped {α : Type} (less : Nat → Nat → Bool) (items : List α) : Swapped items (insertionSort less items) := by
  unfold insertionSort
  generalize List.range items.length = is
  have : ∀ (is : List Nat) (acc : List α), Swapped items acc → Swapped items (is.foldl (fun items i => sinkDown less items i) acc) := by
    intro is
    induction is with
    | nil => intro acc h; exact h
    | cons i is ih => intro acc h; exact ih _ (sinkDown_swapped less items acc i h)
  exact this is items (.refl _)

/-- C47, partial: ordering the items neither loses nor duplicates any, whatever the sort does as long as it swaps items
(lists of any length). Missing: the items are not ordered by score (`C47_false_order`). -/
theorem C47_permutation_partial {α : Type} (items result : List α) (h : Swapped items result) : result.Perm items :=
  swapped_perm h

/-- C47, partial: the same for the sort itself on a short list. -/
theorem C47_short_partial {α : Type} (items : List (α × Int)) : (orderItems items).Perm (items.map Prod.fst) :=
  swapped_perm (insertionSort_swapped _ _)

/-- C47 does not hold: three items with the scores 3, 1, 2 come out in the order 1, 3, 2, which is neither increasing
nor decreasing. -/
theorem C47_false_order : ∃ items : List (Int × Int), (∀ x ∈ items, x.1 = x.2) ∧
    ¬ (orderItems items).Pairwise (· ≤ ·) ∧ ¬ (orderItems items).Pairwise (· ≥ ·) :=
  ⟨[(3, 3), (1, 1), (2, 2)], by decide +kernel, by decide +kernel, by decide +kernel⟩

/-- C47, partial: a list that is already in increasing order of the scores is left as it is. -/
theorem C47_sorted_partial {α : Type} (items : List (α × Int)) (h : (items.map Prod.snd).Pairwise (· ≤ ·)) :
    orderItems items = items.map Prod.fst := by
  unfold orderItems insertionSort
  have hsink : ∀ (acc : List α) (i : Nat), i < items.length → sinkDown (fun i j =>
      decide (((items.map Prod.snd)[i]?).getD 0 < ((items.map Prod.snd)[j]?).getD 0)) acc i = acc := by
    intro acc i hi
    cases i with
    | zero => rfl
    | succ i =>
      rw [sinkDown, if_neg]
      have := List.pairwise_iff_getElem.mp h i (i + 1) (by simp; omega) (by simp; omega) (by omega)
      rw [List.getElem?_eq_getElem (by simp; omega), List.getElem?_eq_getElem (by simp; omega)]
      simp only [Option.getD_some, decide_eq_true_eq]
      omega
  have : ∀ (is : List Nat) (acc : List α), (∀ i ∈ is, i < items.length) → is.foldl (fun items' i => sinkDown (fun i j =>
      decide (((items.map Prod.snd)[i]?).getD 0 < ((items.map Prod.snd)[j]?).getD 0)) items' i) acc = acc := by
    intro is
    induction is with
    | nil => intro acc _; rfl
    | cons i is ih =>
      intro acc hall
      rw [List.foldl_cons, hsink acc i (hall i (by simp))]
      exact ih acc (fun j hj => hall j (List.mem_cons_of_mem _ hj))
  exact this _ _ (by intro i hi; simpa using hi)

example : orderItems [(b!"a", 1), (b!"b", 2), (b!"c", 2)] = [b!"a", b!"b", b!"c"] ∧
    orderItems [(b!"a", 2), (b!"b", 1)] = [b!"b", b!"a"] := by decide +kernel

example : Swapped [1, 2, 3] [3, 2, 1] := .swap 0 2 1 3 (.refl [1, 2, 3]) rfl rfl

end Verif.Symbols
