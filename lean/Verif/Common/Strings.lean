import Verif.Common.Bytes

/-!
The functions of Go's `strings`/`strconv` packages used by the code, on byte lists.
-/

namespace Verif

/-- `strings.Split(s, sep)` for a one-byte separator: always at least one part. -/
def splitB (sep : UInt8) : Bytes → List Bytes
  | [] => [[]]
  | c :: cs =>
    if c = sep then [] :: splitB sep cs
    else match splitB sep cs with
      | [] => [[c]]          -- never reached
      | p :: ps => (c :: p) :: ps

/-- `strings.Join(parts, sep)` for a one-byte separator. -/
def joinB (sep : UInt8) : List Bytes → Bytes
  | [] => []
  | [p] => p
  | p :: q :: ps => p ++ sep :: joinB sep (q :: ps)

/-- `strings.LastIndex(s, sep)` for a one-byte separator: `none` is -1. -/
def lastIndexB (sep : UInt8) : Bytes → Option Nat
  | [] => none
  | c :: cs =>
    match lastIndexB sep cs with
    | some i => some (i + 1)
    | none => if c = sep then some 0 else none

/-- `strings.TrimPrefix(s, p)`. -/
def trimPrefix (s p : Bytes) : Bytes := if p.isPrefixOf s then s.drop p.length else s

/-- Decimal digits of a natural number. -/
def natDigits (n : Nat) : Bytes :=
  if n < 10 then [UInt8.ofNat (48 + n)] else natDigits (n / 10) ++ [UInt8.ofNat (48 + n % 10)]
termination_by n

/-- `strconv.Itoa`. -/
def itoa (i : Int) : Bytes := if i < 0 then 45 :: natDigits i.natAbs else natDigits i.natAbs

/-- ASCII part of `strings.ToLower`; used as a concrete instance of the `lower` parameter. -/
def asciiLower (s : Bytes) : Bytes := s.map fun c => if 65 ≤ c.toNat ∧ c.toNat ≤ 90 then c + 32 else c

/-! ### lemmas -/

theorem splitB_ne_nil (sep : UInt8) (s : Bytes) : splitB sep s ≠ [] := by
  cases s with
  | nil => simp [splitB]
  | cons c cs => simp only [splitB]; split
                 · simp
                 · split <;> simp

theorem joinB_splitB (sep : UInt8) (s : Bytes) : joinB sep (splitB sep s) = s := by
  induction s with
  | nil => rfl
  | cons c cs ih =>
    simp only [splitB]
    split
    · rename_i h
      subst h
      have := splitB_ne_nil c cs
      cases hs : splitB c cs with
      | nil => exact absurd hs this
      | cons p ps => rw [hs] at ih; simp [joinB, ih]
    · have := splitB_ne_nil sep cs
      cases hs : splitB sep cs with
      | nil => exact absurd hs this
      | cons p ps =>
        rw [hs] at ih
        cases ps with
        | nil => simp only [joinB] at *; simp [ih]
        | cons q qs => simp only [joinB] at *; simp [ih]

theorem splitB_no_sep (sep : UInt8) (s p : Bytes) (h : p ∈ splitB sep s) : sep ∉ p := by
  induction s generalizing p with
  | nil => simp [splitB] at h; subst h; simp
  | cons c cs ih =>
    simp only [splitB] at h
    split at h
    · simp only [List.mem_cons] at h
      rcases h with rfl | h
      · simp
      · exact ih p h
    · rename_i hc
      cases hs : splitB sep cs with
      | nil => exact absurd hs (splitB_ne_nil sep cs)
      | cons q qs =>
        rw [hs] at h ih
        simp only [List.mem_cons] at h
        rcases h with rfl | h
        · simp only [List.mem_cons, not_or]
          exact ⟨fun e => hc e.symm, ih q (by simp)⟩
        · exact ih p (by simp [h])

/-- Splitting `a ++ [sep] ++ b` with `a` free of separators. -/
theorem splitB_append (sep : UInt8) (a b : Bytes) (h : sep ∉ a) :
    splitB sep (a ++ sep :: b) = a :: splitB sep b := by
  induction a with
  | nil => simp [splitB]
  | cons c cs ih =>
    simp only [List.mem_cons, not_or] at h
    have hne : ¬ c = sep := fun e => h.1 e.symm
    simp [splitB, hne, ih h.2]

theorem splitB_of_no_sep (sep : UInt8) (a : Bytes) (h : sep ∉ a) : splitB sep a = [a] := by
  induction a with
  | nil => rfl
  | cons c cs ih =>
    simp only [List.mem_cons, not_or] at h
    have hne : ¬ c = sep := fun e => h.1 e.symm
    simp [splitB, hne, ih h.2]

/-- Two strings with a separator after a separator-free part: the parts agree. -/
theorem sep_inj {sep : UInt8} {a a' b b' : Bytes} (h : sep ∉ a) (h' : sep ∉ a')
    (e : a ++ sep :: b = a' ++ sep :: b') : a = a' ∧ b = b' := by
  induction a generalizing a' with
  | nil =>
    cases a' with
    | nil => simp at e; exact ⟨rfl, e⟩
    | cons c cs => simp at e h'; exact absurd e.1.symm (fun x => h'.1 x.symm)
  | cons c cs ih =>
    cases a' with
    | nil => simp at e h; exact absurd e.1 (fun x => h.1 x.symm)
    | cons c' cs' =>
      simp only [List.cons_append, List.cons.injEq, List.mem_cons, not_or] at e h h'
      obtain ⟨h1, h2⟩ := ih h.2 h'.2 e.2
      exact ⟨by rw [e.1, h1], h2⟩

/-- `a ++ [sep]` is a prefix of `a' ++ [sep] ++ b'` only if `a = a'`. -/
theorem sep_prefix {sep : UInt8} {a a' b' r : Bytes} (h : sep ∉ a) (h' : sep ∉ a') :
    (a ++ sep :: r) <+: (a' ++ sep :: b') ↔ a = a' ∧ r <+: b' := by
  constructor
  · rintro ⟨t, ht⟩
    rw [List.append_assoc, List.cons_append] at ht
    obtain ⟨h1, h2⟩ := sep_inj h h' ht
    exact ⟨h1, ⟨t, h2⟩⟩
  · rintro ⟨rfl, t, rfl⟩
    exact ⟨t, by simp⟩

theorem isPrefixOf_iff {p k : Bytes} : p.isPrefixOf k = true ↔ p <+: k := List.isPrefixOf_iff_prefix

theorem natDigits_mem (n : Nat) (c : UInt8) (h : c ∈ natDigits n) : 48 ≤ c.toNat ∧ c.toNat ≤ 57 := by
  induction n using Nat.strongRecOn with
  | ind n ih =>
    unfold natDigits at h
    split at h
    · rename_i hn
      simp only [List.mem_singleton] at h
      subst h
      simp only [UInt8.toNat_ofNat']
      omega
    · simp only [List.mem_append, List.mem_singleton] at h
      rcases h with h | h
      · exact ih (n / 10) (by omega) h
      · subst h
        simp only [UInt8.toNat_ofNat']
        omega

theorem itoa_mem (i : Int) (c : UInt8) (h : c ∈ itoa i) : c.toNat = 45 ∨ (48 ≤ c.toNat ∧ c.toNat ≤ 57) := by
  unfold itoa at h
  split at h
  · simp only [List.mem_cons] at h
    rcases h with rfl | h
    · left; rfl
    · right; exact natDigits_mem _ _ h
  · right; exact natDigits_mem _ _ h

end Verif
