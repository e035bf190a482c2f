import Verif.Common.Position
import Verif.Common.Tactics

/-! C50: comparing positions. -/

namespace Verif.Position

/-- Specification: `a` is before `b` in the text: an earlier line, or earlier on the same line. -/
def Before (a b : Pos) : Prop := a.line < b.line ∨ (a.line = b.line ∧ a.character < b.character)

/-- C50: the comparison decides "before", "same" and "after". -/
theorem C50_compare (a b : Pos) :
    (comparePos a b = -1 ↔ Before a b) ∧ (comparePos a b = 0 ↔ a = b) ∧ (comparePos a b = 1 ↔ Before b a) := by
  obtain ⟨al, ac⟩ := a
  obtain ⟨bl, bc⟩ := b
  simp only [comparePos, Before, Pos.mk.injEq]
  repeat' split
  all_goals omega

theorem le_zero_iff (a b : Pos) : comparePos a b ≤ 0 ↔ ¬ Before b a := by
  obtain ⟨al, ac⟩ := a
  obtain ⟨bl, bc⟩ := b
  simp only [comparePos, Before]
  repeat' split
  all_goals omega

/-- C50: "before" is a strict total order, so the comparison is a total order: irreflexive, transitive,
any two different positions are comparable. -/
theorem C50_total_order : (∀ a, comparePos a a = 0) ∧
    (∀ a b, comparePos a b = -comparePos b a) ∧
    (∀ a b, comparePos a b = 0 → a = b) ∧
    (∀ a b c, comparePos a b ≤ 0 → comparePos b c ≤ 0 → comparePos a c ≤ 0) ∧
    (∀ a b, comparePos a b ≤ 0 ∨ comparePos b a ≤ 0) ∧
    (∀ a b, comparePos a b = -1 ∨ comparePos a b = 0 ∨ comparePos a b = 1) := by
  refine ⟨?_, ?_, ?_, ?_, ?_, ?_⟩
  · rintro ⟨l, c⟩; simp [comparePos]
  · rintro ⟨al, ac⟩ ⟨bl, bc⟩
    simp only [comparePos]
    repeat' split
    all_goals omega
  · intro a b h; exact (C50_compare a b).2.1.mp h
  · intro a b c
    rw [le_zero_iff, le_zero_iff, le_zero_iff]
    simp only [Before]
    omega
  · intro a b
    rw [le_zero_iff, le_zero_iff]
    simp only [Before]
    omega
  · rintro ⟨al, ac⟩ ⟨bl, bc⟩
    simp only [comparePos]
    repeat' split
    all_goals omega

/-- C50: the range test says "before" exactly for positions before the start, "inside" exactly for those
at or after the start and before the end, "after" for the others (start not after end). -/
theorem C50_in_range (p : Pos) (r : Rng) :
    (isInRange p r = -1 ↔ Before p r.start) ∧
    (isInRange p r = 0 ↔ ¬ Before p r.start ∧ Before p r.stop) ∧
    (isInRange p r = 1 ↔ ¬ Before p r.start ∧ ¬ Before p r.stop) := by
  obtain ⟨l, c⟩ := p
  obtain ⟨⟨sl, sc⟩, ⟨el, ec⟩⟩ := r
  simp only [isInRange, Before]
  repeat' split
  all_goals omega

/-- C50: comparing ranges says "before" exactly if the first ends before the second starts, and "after"
exactly if it starts at or after the second's end (ranges that are not reversed). -/
theorem C50_compare_range (a b : Rng) (ha : ¬ Before a.stop a.start) (hb : ¬ Before b.stop b.start) :
    (compareRange a b = -1 ↔ Before a.stop b.start) ∧
    (compareRange a b = 1 ↔ ¬ Before a.start b.stop ∧ ¬ Before a.stop b.start) ∧
    (compareRange a b = 0 ↔ ¬ Before a.stop b.start ∧ Before a.start b.stop) := by
  have key : Before a.start b.start → ¬ Before a.stop b.start → Before a.start b.stop := by
    revert ha hb
    simp only [Before]
    omega
  have e1 : isInRange a.stop b < 0 ↔ Before a.stop b.start := by
    simp only [isInRange, Before]
    repeat' split
    all_goals omega
  have e2 : isInRange a.start b > 0 ↔ ¬ Before a.start b.start ∧ ¬ Before a.start b.stop := by
    simp only [isInRange, Before]
    repeat' split
    all_goals omega
  unfold compareRange
  by_cases h1 : Before a.stop b.start
  · simp [e1, h1]
  · by_cases h2 : Before a.start b.start
    · simp [e1, e2, h1, h2, key h2 h1]
    · by_cases h3 : Before a.start b.stop <;> simp [e1, e2, h1, h2, h3]

example : ¬ Before ⟨3, 7⟩ ⟨3, 2⟩ ∧ compareRange ⟨⟨3, 2⟩, ⟨3, 7⟩⟩ ⟨⟨3, 8⟩, ⟨4, 0⟩⟩ = -1 ∧
    isInRange ⟨3, 7⟩ ⟨⟨3, 2⟩, ⟨3, 7⟩⟩ = 1 := by
  refine ⟨by simp [Before], by decide, by decide⟩

end Verif.Position
