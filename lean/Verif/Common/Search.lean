import Verif.Common.Bytes

/-! Go's `sort.Search`, used for every lookup by position. -/

namespace Verif

/-- The loop of `sort.Search` (Go standard library `sort/search.go`):
`for i < j { h := (i+j)/2; if !f(h) { i = h+1 } else { j = h } }; return i`. -/
def goSearchLoop (f : Nat → Bool) (i j : Nat) : Nat :=
  if i < j then
    let h := (i + j) / 2
    if !f h then goSearchLoop f (h + 1) j else goSearchLoop f i h
  else i
termination_by j - i

/-- `sort.Search(n, f)`. -/
def goSearch (n : Nat) (f : Nat → Bool) : Nat := goSearchLoop f 0 n

theorem goSearchLoop_spec (f : Nat → Bool) (i j : Nat) (hij : i ≤ j)
    (mono : ∀ a b, a ≤ b → b < j → f a = true → f b = true) (hi : ∀ a, a < i → f a = false) :
    (∀ a, a < goSearchLoop f i j → f a = false) ∧ i ≤ goSearchLoop f i j ∧ goSearchLoop f i j ≤ j ∧
      (goSearchLoop f i j < j → f (goSearchLoop f i j) = true) := by
  fun_induction goSearchLoop f i j with
  | case1 i j hlt h hf ih =>
    have hh : h = (i + j) / 2 := rfl
    simp only [Bool.not_eq_true'] at hf
    obtain ⟨a1, a2, a3, a4⟩ := ih (by omega) mono (by
      intro a ha
      cases hfa : f a with
      | false => rfl
      | true => have := mono a h (by omega) (by omega) hfa; rw [hf] at this; cases this)
    exact ⟨a1, by omega, a3, a4⟩
  | case2 i j hlt h hf ih =>
    have hh : h = (i + j) / 2 := rfl
    obtain ⟨a1, a2, a3, a4⟩ := ih (by omega) (fun a b h1 h2 h3 => mono a b h1 (by omega) h3) hi
    refine ⟨a1, a2, by omega, fun h5 => ?_⟩
    by_cases h6 : goSearchLoop f i h < h
    · exact a4 h6
    · have : goSearchLoop f i h = h := by omega
      rw [this]
      simpa using hf
  | case3 i j hlt => exact ⟨hi, Nat.le_refl _, by omega, fun h => absurd h (by omega)⟩

/-- On a predicate that stays true once true, `sort.Search` finds the first index where it holds. -/
theorem goSearch_spec (n : Nat) (f : Nat → Bool) (mono : ∀ a b, a ≤ b → b < n → f a = true → f b = true) :
    (∀ a, a < goSearch n f → f a = false) ∧ goSearch n f ≤ n ∧ (goSearch n f < n → f (goSearch n f) = true) := by
  obtain ⟨h1, -, h3, h4⟩ := goSearchLoop_spec f 0 n (Nat.zero_le _) mono (by simp)
  exact ⟨h1, h3, h4⟩

theorem goSearch_le (n : Nat) (f : Nat → Bool) : goSearch n f ≤ n := by
  have key : ∀ i j, i ≤ j → goSearchLoop f i j ≤ j := by
    intro i j
    fun_induction goSearchLoop f i j with
    | case1 i j hlt h hf ih => intro; exact ih (by omega)
    | case2 i j hlt h hf ih => intro; have := ih (by omega); omega
    | case3 i j hlt => exact id
  exact key 0 n (Nat.zero_le _)

end Verif
