import Verif.Rpc.Dispatch
import Verif.Rpc.StreamLemmas

/-! C58 (no message crashes the server) and C59 (a reply carries the id that the client chose). -/

namespace Verif.Rpc

/-! ### C58 -/

/-- C58 does not hold: every method that has parameters crashes the server if they are missing or `null`, for requests
and for notifications. -/
theorem C58_false_missing_params (m : Bytes) (isNotify : Bool) (h : m ∈ notifMethods ∨ m ∈ callMethods) :
    deliver m isNotify false .absent = none := by
  have h1 : m ≠ b!"exit" := by
    rintro rfl
    revert h; decide +kernel
  have h2 : m ≠ b!"shutdown" := by
    rintro rfl
    revert h; decide +kernel
  simp only [deliver, Bool.false_eq_true, if_false, if_neg h1, if_neg h2]
  by_cases hn : m ∈ notifMethods
  · rw [if_pos hn]
  · rw [if_neg hn, if_pos (h.resolve_left hn)]

/-- C58, as far as it holds: the dispatch crashes in no other case, whatever the name of the method and whatever the
parameters contain. (Crashes in the methods of the server are not covered.) -/
theorem C58_dispatch_partial (m : Bytes) (isNotify cancelled : Bool) (p : Params) :
    deliver m isNotify cancelled p = none ↔
      p = .absent ∧ cancelled = false ∧ (m ∈ notifMethods ∨ m ∈ callMethods) := by
  constructor
  · intro h
    unfold deliver at h
    split at h
    · cases h
    · rename_i hc
      have hc : cancelled = false := by simpa using hc
      split at h
      · cases h
      · split at h
        · split at h <;> cases h
        · split at h
          · rename_i hm
            cases p with
            | absent => exact ⟨rfl, hc, Or.inl hm⟩
            | bad => cases h
            | good => cases h
          · split at h
            · rename_i hm
              cases p with
              | absent => exact ⟨rfl, hc, Or.inr hm⟩
              | bad => cases h
              | good => cases h
            · cases h
  · rintro ⟨rfl, rfl, hm⟩
    exact C58_false_missing_params m isNotify hm

/-- C58: the method of the server that is called is the one that the message names, it is called at most once and only
with parameters it can read, and a message with an unknown method calls none. -/
theorem C58_right_method (m : Bytes) (isNotify cancelled : Bool) (p : Params) (acts : List Action)
    (h : deliver m isNotify cancelled p = some acts) :
    (∀ x, .serve x ∈ acts → x = m ∧ cancelled = false ∧
      (m = b!"exit" ∨ (m = b!"shutdown" ∧ p = .absent) ∨ ((m ∈ notifMethods ∨ m ∈ callMethods) ∧ p = .good))) ∧
    (acts.filter (· matches .serve _)).length ≤ 1 := by
  unfold deliver sendParseError at h
  split at h
  · simp only [Option.some.injEq] at h; subst h; simp
  · rename_i hc
    have hc : cancelled = false := by simpa using hc
    split at h
    · rename_i hm; simp only [Option.some.injEq] at h; subst h; simp [hc, hm]
    · split at h
      · rename_i hm
        split at h
        · simp only [Option.some.injEq] at h; subst h; simp
        · rename_i hp
          simp only [ne_eq, Decidable.not_not] at hp
          simp only [Option.some.injEq] at h; subst h; simp [hc, hm, hp]
      · split at h
        · rename_i hm
          cases p with
          | absent => cases h
          | bad => simp only [Option.some.injEq] at h; subst h; cases isNotify <;> simp
          | good => simp only [Option.some.injEq] at h; subst h; simp [hc, hm]
        · split at h
          · rename_i hm
            cases p with
            | absent => cases h
            | bad => simp only [Option.some.injEq] at h; subst h; cases isNotify <;> simp
            | good => simp only [Option.some.injEq] at h; subst h; simp [hc, hm]
          · simp only [Option.some.injEq] at h; subst h; cases isNotify <;> simp

/-- C58: a request whose method is known as a request, or not known at all, is answered once by the dispatch itself;
what is left to the end of the handler (`C35_exactly_once_partial`) are requests that use the name of a notification.
A cancelled request is answered with a context that lets the answer pass (`C35_detached_partial`). -/
theorem C58_answered (m : Bytes) (cancelled : Bool) (p : Params) (acts : List Action)
    (h : deliver m false cancelled p = some acts) :
    acts.filter (· matches .reply _) = [.reply cancelled] ∨
      (acts.filter (· matches .reply _) = [] ∧ cancelled = false ∧
        (m = b!"exit" ∨ (m ∈ notifMethods ∧ p = .good))) := by
  unfold deliver sendParseError at h
  split at h
  · rename_i hc; simp only [Option.some.injEq] at h; subst h; left; simp [hc]
  · rename_i hc
    have hc : cancelled = false := by simpa using hc
    subst hc
    split at h
    · rename_i hm; simp only [Option.some.injEq] at h; subst h; right; simp [hm]
    · split at h
      · split at h
        · simp only [Option.some.injEq] at h; subst h; left; simp
        · simp only [Option.some.injEq] at h; subst h; left; simp
      · split at h
        · rename_i hm
          cases p with
          | absent => cases h
          | bad => simp only [Option.some.injEq] at h; subst h; left; simp
          | good => simp only [Option.some.injEq] at h; subst h; right; simp [hm]
        · split at h
          · cases p with
            | absent => cases h
            | bad => simp only [Option.some.injEq] at h; subst h; left; simp
            | good => simp only [Option.some.injEq] at h; subst h; left; simp
          · simp only [Option.some.injEq] at h; subst h; left; simp

example : deliver b!"textDocument/hover" false false .absent = none := by decide +kernel
example : deliver b!"textDocument/hover" false false .bad = some [.reply false] := by decide +kernel
example : deliver b!"textDocument/hover" false false .good = some [.serve b!"textDocument/hover", .reply false] := by
  decide +kernel
example : deliver b!"textDocument/didOpen" true false .good = some [.serve b!"textDocument/didOpen"] := by
  decide +kernel
example : deliver b!"$/cancelRequest" true false .good = some [] := by decide +kernel

/-! ### C59 -/

theorem parseInt64_itoa (n : Int) (h1 : -9223372036854775808 ≤ n) (h2 : n ≤ 9223372036854775807) :
    parseInt64 (itoa n) = some n := by
  unfold parseInt64 itoa
  by_cases hn : n < 0
  · rw [if_pos hn]
    simp only [parseDigits_natDigits, Option.map_some]
    have : - Int.ofNat n.natAbs = n := by simp; omega
    rw [this]
    simp [h1, h2]
  · rw [if_neg hn]
    obtain ⟨c, t, hc, hc1, hc2⟩ := natDigits_cons n.natAbs
    have hne : c ≠ 45 := by rintro rfl; revert hc1; decide
    have hp := parseDigits_natDigits n.natAbs
    rw [hc] at hp ⊢
    have : Int.ofNat n.natAbs = n := by simp; omega
    split
    · rename_i heq
      simp only [List.cons.injEq] at heq
      exact absurd heq.1 hne
    · rw [hp, Option.map_some, this]
      simp [h1, h2]

/-- C59: an id that is a whole number comes back as it was written. -/
theorem C59_number (n : Int) (h1 : -9223372036854775808 ≤ n) (h2 : n ≤ 9223372036854775807) :
    ∃ id, readId (.num (itoa n)) = some (some id) ∧ writeId id = .num (itoa n) := by
  refine ⟨⟨[], n⟩, ?_, ?_⟩
  · simp only [readId, parseInt64_itoa n h1 h2, Option.map_some]
  · simp [writeId]

/-- C59: an id that is a string comes back as it was written, unless it is the empty string. -/
theorem C59_string_partial (s : Bytes) (h : s ≠ []) :
    ∃ id, readId (.str s) = some (some id) ∧ writeId id = .str s :=
  ⟨⟨s, 0⟩, rfl, by simp [writeId, h]⟩

/-- C59: different ids stay different. -/
theorem C59_distinct_partial (a b : JId) (x y : ID) (ha : readId a = some (some x)) (hb : readId b = some (some y))
    (hna : a ≠ .str []) (hnb : b ≠ .str [])
    (hca : ∀ l, a = .num l → ∃ n, l = itoa n) (hcb : ∀ l, b = .num l → ∃ n, l = itoa n) (hxy : writeId x = writeId y) :
    a = b := by
  have key : ∀ (a : JId) (x : ID), readId a = some (some x) → a ≠ .str [] → (∀ l, a = .num l → ∃ n, l = itoa n) →
      writeId x = a := by
    intro a x ha hna hca
    cases a with
    | null => cases ha
    | other => cases ha
    | str s =>
      simp only [readId, Option.some.injEq] at ha
      subst ha
      have : s ≠ [] := fun hs => hna (by rw [hs])
      simp [writeId, this]
    | num l =>
      obtain ⟨n, rfl⟩ := hca l rfl
      simp only [readId, Option.map_eq_some_iff, Option.some.injEq] at ha
      obtain ⟨m, hm, rfl⟩ := ha
      have hmn : m = n := by
        have hr : -9223372036854775808 ≤ n ∧ n ≤ 9223372036854775807 ∨
            ¬ (-9223372036854775808 ≤ n ∧ n ≤ 9223372036854775807) := Classical.em _
        rcases hr with hr | hr
        · rw [parseInt64_itoa n hr.1 hr.2] at hm
          simpa using hm.symm
        · exfalso
          unfold parseInt64 itoa at hm
          by_cases hn : n < 0
          · rw [if_pos hn] at hm
            simp only [parseDigits_natDigits, Option.map_some] at hm
            have : - Int.ofNat n.natAbs = n := by simp; omega
            rw [this, Option.filter_some] at hm
            split at hm
            · rename_i hd; exact hr (of_decide_eq_true hd)
            · cases hm
          · rw [if_neg hn] at hm
            obtain ⟨c, t, hc, hc1, hc2⟩ := natDigits_cons n.natAbs
            have hne : c ≠ 45 := by rintro rfl; revert hc1; decide
            have hp := parseDigits_natDigits n.natAbs
            rw [hc] at hp hm
            have : Int.ofNat n.natAbs = n := by simp; omega
            split at hm
            · rename_i heq
              simp only [List.cons.injEq] at heq
              exact absurd heq.1 hne
            · rw [hp, Option.map_some, this, Option.filter_some] at hm
              split at hm
              · rename_i hd; exact hr (of_decide_eq_true hd)
              · cases hm
      rw [hmn]
      simp [writeId]
  rw [← key a x ha hna hca, ← key b y hb hnb hcb, hxy]

/-- C59 does not hold for the empty string: the reply has the id 0. -/
theorem C59_false_empty : ∃ id, readId (.str []) = some (some id) ∧ writeId id = .num b!"0" :=
  ⟨⟨[], 0⟩, by decide +kernel, by decide +kernel⟩

/-- C59 does not hold for numbers with a fraction or an exponent: the message is dropped without an answer. -/
theorem C59_false_fraction : readId (.num b!"1.0") = none ∧ readId (.num b!"1e3") = none ∧
    readId (.num b!"9223372036854775808") = none := by decide +kernel

example : readId (.num b!"-42") = some (some ⟨[], -42⟩) ∧ writeId ⟨[], -42⟩ = .num b!"-42" := by decide +kernel
example : readId (.str b!"42") = some (some ⟨b!"42", 0⟩) ∧ writeId ⟨b!"42", 0⟩ = .str b!"42" := by decide +kernel

end Verif.Rpc
