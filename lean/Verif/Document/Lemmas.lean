import Verif.Document.Spec
import Verif.Common.Tactics

/-! The line table as a scan over bytes, and decoding of encoded characters. -/

namespace Verif.Document

/-! ### decoding -/

theorem decode_ascii (b : UInt8) (s : Bytes) (h : b.toNat < 0x80) : decodeRune (b :: s) = (b.toNat, 1) := by
  simp [decodeRune, h]

/-- A rune decoded from a first byte ≥ 0x80 is ≥ 0x80 and all its bytes are. -/
theorem decode_high (b : UInt8) (s : Bytes) (h : ¬ b.toNat < 0x80) :
    0x80 ≤ (decodeRune (b :: s)).1 ∧ ∀ x ∈ (b :: s).take (decodeRune (b :: s)).2, 0x80 ≤ x.toNat := by
  have hre : 0x80 ≤ runeError := by decide
  match s with
  | [] => simp only [decodeRune, h]; repeat' split
          all_goals simp_all
  | [b1] =>
    simp only [decodeRune, h]; repeat' split
    all_goals (simp_all; try omega)
  | [b1, b2] =>
    simp only [decodeRune, h]; repeat' split
    all_goals (simp_all [isCont]; try omega)
  | b1 :: b2 :: b3 :: r =>
    simp only [decodeRune, h]; repeat' split
    all_goals (simp_all [isCont]; try omega)

theorem toNat_ofNat {n : Nat} (h : n < 256) : (UInt8.ofNat n).toNat = n := by
  simp [Nat.mod_eq_of_lt h]

theorem decode_char (c : Char) (s : Bytes) :
    decodeRune (utf8Char c.toNat ++ s) = (c.toNat, (utf8Char c.toNat).length) := by
  have hv : c.toNat < 0xD800 ∨ (0xDFFF < c.toNat ∧ c.toNat < 0x110000) := by
    have := c.valid
    simpa [UInt32.isValidChar, Nat.isValidChar] using this
  generalize c.toNat = n at hv
  unfold utf8Char
  split
  · rename_i h
    rw [List.singleton_append, decode_ascii _ _ (by rw [toNat_ofNat (by omega)]; exact h), toNat_ofNat (by omega)]
    rfl
  split
  · have h0 : (UInt8.ofNat (0xC0 + n / 64)).toNat = 0xC0 + n / 64 := toNat_ofNat (by omega)
    have h1 : (UInt8.ofNat (0x80 + n % 64)).toNat = 0x80 + n % 64 := toNat_ofNat (by omega)
    simp only [decodeRune, List.cons_append, List.nil_append, h0, h1]
    rw [if_neg (by omega), if_neg (by simp only [Bool.or_eq_true, decide_eq_true_eq]; omega), if_pos (by omega), if_pos]
    · refine Prod.ext ?_ rfl
      dsimp only
      omega
    · simp only [Bool.and_eq_true, decide_eq_true_eq]
      constructor
      · split <;> (try split) <;> omega
      · split <;> (try split) <;> omega
  split
  · have h0 : (UInt8.ofNat (0xE0 + n / 4096)).toNat = 0xE0 + n / 4096 := toNat_ofNat (by omega)
    have h1 : (UInt8.ofNat (0x80 + n / 64 % 64)).toNat = 0x80 + n / 64 % 64 := toNat_ofNat (by omega)
    have h2 : (UInt8.ofNat (0x80 + n % 64)).toNat = 0x80 + n % 64 := toNat_ofNat (by omega)
    simp only [decodeRune, List.cons_append, List.nil_append, h0, h1, h2, isCont]
    rw [if_neg (by omega), if_neg (by simp only [Bool.or_eq_true, decide_eq_true_eq]; omega), if_neg (by omega),
      if_pos (by omega), if_pos]
    · refine Prod.ext ?_ rfl
      dsimp only
      omega
    · simp only [Bool.and_eq_true, decide_eq_true_eq]
      refine ⟨⟨?_, ?_⟩, ?_, ?_⟩
      · split <;> (try split) <;> omega
      · split <;> (try split) <;> omega
      · omega
      · omega
  · have h0 : (UInt8.ofNat (0xF0 + n / 262144)).toNat = 0xF0 + n / 262144 := toNat_ofNat (by omega)
    have h1 : (UInt8.ofNat (0x80 + n / 4096 % 64)).toNat = 0x80 + n / 4096 % 64 := toNat_ofNat (by omega)
    have h2 : (UInt8.ofNat (0x80 + n / 64 % 64)).toNat = 0x80 + n / 64 % 64 := toNat_ofNat (by omega)
    have h3 : (UInt8.ofNat (0x80 + n % 64)).toNat = 0x80 + n % 64 := toNat_ofNat (by omega)
    simp only [decodeRune, List.cons_append, List.nil_append, h0, h1, h2, h3, isCont]
    rw [if_neg (by omega), if_neg (by simp only [Bool.or_eq_true, decide_eq_true_eq]; omega), if_neg (by omega),
      if_neg (by omega), if_pos]
    · refine Prod.ext ?_ rfl
      dsimp only
      omega
    · simp only [Bool.and_eq_true, decide_eq_true_eq]
      refine ⟨⟨⟨?_, ?_⟩, ?_, ?_⟩, ?_, ?_⟩
      · split <;> (try split) <;> omega
      · split <;> (try split) <;> omega
      all_goals omega

/-! ### the scan -/

/-- The table without its first entry, as a scan over bytes. -/
def lineScan : Bytes → Nat → List Int
  | [], _ => []
  | c :: t, n =>
    if c = 13 then
      if t.head? = some 10 then lineScan t (n + 1) else (n : Int) :: lineScan t (n + 1)
    else if c = 10 then ((n + 1 : Nat) : Int) :: lineScan t (n + 1)
    else lineScan t (n + 1)

theorem lineScan_skip (x s : Bytes) (n : Nat) (h : ∀ b ∈ x, b ≠ 10 ∧ b ≠ 13) :
    lineScan (x ++ s) n = lineScan s (n + x.length) := by
  induction x generalizing n with
  | nil => simp
  | cons b x ih =>
    obtain ⟨h1, h2⟩ := h b (by simp)
    simp only [List.cons_append, lineScan, h1, h2, if_false]
    rw [ih _ fun b hb => h b (by simp [hb])]
    congr 1; simp; omega

theorem byte_eq {b : UInt8} {n : Nat} (h : b.toNat = n) : b = UInt8.ofNat n := by
  apply UInt8.toNat_inj.mp
  have := b.toNat_lt
  rw [toNat_ofNat (by omega), h]

theorem calcLoop_eq (offset : Nat) (text : Bytes) (n : Nat) (ls : Bool) (eol : Bytes) (stop : Bool) :
    (calcLoop offset text n ls eol stop).1 =
      (if ls then [(n : Int)] else []) ++ lineScan text (n + offset) := by
  induction hl : text.length using Nat.strongRecOn generalizing text n ls eol stop with
  | ind l ih =>
  subst hl
  cases text with
  | nil => simp [calcLoop, lineScan]
  | cons c cs =>
    unfold calcLoop
    by_cases hc : c.toNat < 0x80
    · rw [decode_ascii c cs hc]
      simp only [Nat.max_self, List.drop_succ_cons, List.drop_zero]
      by_cases h13 : c.toNat = 13
      · have hc13 : c = 13 := byte_eq h13
        simp only [h13, if_true]
        cases cs with
        | nil =>
          simp only [decodeRune]
          have hre : runeError ≠ 10 := by decide
          simp only [hre, if_false]
          rw [ih _ (by simp) _ _ _ _ _ rfl]
          simp [hc13, lineScan]
        | cons d ds =>
          by_cases hd : d = 10
          · subst hd
            have hdec : decodeRune ((10 : UInt8) :: ds) = (10, 1) := decode_ascii _ _ (by decide)
            simp only [hdec, if_true]
            rw [ih _ (by simp only [List.length_drop, List.length_cons]; omega) _ _ _ _ _ rfl]
            simp only [List.drop_succ_cons, List.drop_zero, hc13, lineScan, if_true, List.head?_cons,
              Bool.false_eq_true, if_false, List.nil_append]
            have h1013 : ¬ (10 : UInt8) = 13 := by decide
            simp only [h1013, if_false]
            have : n + (1 + 1) + offset = n + offset + 1 + 1 := by omega
            rw [this]
          · have hne : (decodeRune (d :: ds)).1 ≠ 10 := by
              by_cases hda : d.toNat < 0x80
              · rw [decode_ascii _ _ hda]
                exact fun e => hd (byte_eq e)
              · have := (decode_high d ds hda).1
                omega
            simp only [hne, if_false]
            rw [ih _ (by simp) _ _ _ _ _ rfl]
            have : n + 1 + offset = n + offset + 1 := by omega
            simp [lineScan, hc13, hd, this]
      · have hc13 : c ≠ 13 := fun e => h13 (by rw [e]; rfl)
        by_cases h10 : c.toNat = 10
        · have hc10 : c = 10 := byte_eq h10
          simp only [h10, if_true]
          have h1013 : ¬ 10 = 13 := by decide
          simp only [h1013, if_false]
          rw [ih _ (by simp) _ _ _ _ _ rfl]
          have : n + 1 + offset = n + offset + 1 := by omega
          simp [lineScan, hc10, this]
        · have hc10 : c ≠ 10 := fun e => h10 (by rw [e]; rfl)
          simp only [h13, h10, if_false]
          rw [ih _ (by simp) _ _ _ _ _ rfl]
          have : n + 1 + offset = n + offset + 1 := by omega
          simp [lineScan, hc10, hc13, this]
    · obtain ⟨h1, h2⟩ := decode_high c cs hc
      obtain ⟨h3, h4⟩ := decodeRune_size (c :: cs) (by simp)
      have hr13 : (decodeRune (c :: cs)).1 ≠ 13 := by omega
      have hr10 : (decodeRune (c :: cs)).1 ≠ 10 := by omega
      have hmax : max 1 (decodeRune (c :: cs)).2 = (decodeRune (c :: cs)).2 := by omega
      simp only [hr13, hr10, if_false, hmax]
      rw [ih _ (by simp only [List.length_drop]; omega) _ _ _ _ _ rfl]
      simp only [Bool.false_eq_true, if_false, List.nil_append]
      conv_rhs => rw [← List.take_append_drop (decodeRune (c :: cs)).2 (c :: cs)]
      rw [lineScan_skip _ _ _ (by
        intro b hb
        have := h2 b hb
        constructor <;> (rintro rfl; revert this; decide))]
      rw [List.length_take, Nat.min_eq_left h4]
      congr 2; omega

/-- The line table of a text. -/
theorem table_eq (text : Bytes) (offset : Nat) :
    (calculateLineOffsets text offset).1 = 0 :: lineScan text offset := by
  rw [calculateLineOffsets, calcLoop_eq]
  simp

theorem ofText_table (text : Bytes) : (ofText text).lineOffsets = 0 :: lineScan text 0 := table_eq text 0

theorem lineScan_append (a b : Bytes) (n : Nat) (h : ¬ (a.getLast? = some 13 ∧ b.head? = some 10)) :
    lineScan (a ++ b) n = lineScan a n ++ lineScan b (n + a.length) := by
  induction a generalizing n with
  | nil => simp [lineScan]
  | cons c a ih =>
    have hl : n + (c :: a).length = n + 1 + a.length := by simp; omega
    rw [hl]
    have ih' : lineScan (a ++ b) (n + 1) = lineScan a (n + 1) ++ lineScan b (n + 1 + a.length) := by
      apply ih
      rintro ⟨h1, h2⟩
      apply h
      refine ⟨?_, h2⟩
      rw [List.getLast?_cons, h1]; rfl
    simp only [List.cons_append, lineScan, ih']
    by_cases h13 : c = 13
    · subst h13
      simp only [if_true]
      cases a with
      | nil =>
        have : b.head? ≠ some 10 := fun e => h ⟨by simp, e⟩
        simp [this, lineScan]
      | cons d a => by_cases hd : d = 10 <;> simp [hd]
    · simp only [h13, if_false]
      split <;> simp

theorem lineScan_shift (s : Bytes) (n : Nat) (d : Int) (m : Nat) (h : (n : Int) + d = m) :
    (lineScan s n).map (· + d) = lineScan s m := by
  induction s generalizing n m with
  | nil => rfl
  | cons c s ih =>
    have ih' := ih (n + 1) (m + 1) (by omega)
    have e1 : ((n + 1 : Nat) : Int) + d = ((m + 1 : Nat) : Int) := by omega
    simp only [lineScan]
    repeat' split
    · exact ih'
    · simp only [List.map_cons, ih', h]
    · simp only [List.map_cons, ih', e1]
    · exact ih'

theorem lineScan_ge (s : Bytes) (n : Nat) : ∀ x ∈ lineScan s n, (n : Int) ≤ x := by
  induction s generalizing n with
  | nil => simp [lineScan]
  | cons c s ih =>
    intro x hx
    have ih' := ih (n + 1)
    simp only [lineScan] at hx
    have key : ∀ x ∈ lineScan s (n + 1), (n : Int) ≤ x := fun x hx => by have := ih' x hx; omega
    repeat' split at hx
    · exact key x hx
    · rcases List.mem_cons.mp hx with rfl | hx
      · exact Int.le_refl _
      · exact key x hx
    · rcases List.mem_cons.mp hx with rfl | hx
      · omega
      · exact key x hx
    · exact key x hx

theorem lineScan_gt (s : Bytes) (n : Nat) (hs : NoLone 13 10 s) : ∀ x ∈ lineScan s n, (n : Int) < x := by
  induction s generalizing n with
  | nil => simp [lineScan]
  | cons c s ih =>
    intro x hx
    have hs' : NoLone 13 10 s := fun i hi => hs (i + 1) (by simpa using hi)
    have ih' := ih (n + 1) hs'
    simp only [lineScan] at hx
    have key : ∀ x ∈ lineScan s (n + 1), (n : Int) < x := fun x hx => by have := ih' x hx; omega
    repeat' split at hx
    · exact key x hx
    · rename_i h1 h2
      have := hs 0 (by simp [h1])
      simp only [Nat.zero_add, List.getElem?_cons_succ] at this
      rw [List.head?_eq_getElem?] at h2
      exact absurd this h2
    · rcases List.mem_cons.mp hx with rfl | hx
      · omega
      · exact key x hx
    · exact key x hx

theorem lineScan_sorted (s : Bytes) (n : Nat) : (lineScan s n).Pairwise (· ≤ ·) := by
  induction s generalizing n with
  | nil => exact List.Pairwise.nil
  | cons c s ih =>
    have ge := lineScan_ge s (n + 1)
    simp only [lineScan]
    repeat' split
    · exact ih _
    · exact List.pairwise_cons.mpr ⟨fun x hx => by have := ge x hx; omega, ih _⟩
    · exact List.pairwise_cons.mpr ⟨fun x hx => by have := ge x hx; omega, ih _⟩
    · exact ih _

theorem lineScan_le (s : Bytes) (n : Nat) : ∀ x ∈ lineScan s n, x ≤ ((n + s.length : Nat) : Int) := by
  induction s generalizing n with
  | nil => simp [lineScan]
  | cons c s ih =>
    intro x hx
    have ih' := ih (n + 1)
    simp only [lineScan] at hx
    have key : ∀ x ∈ lineScan s (n + 1), x ≤ ((n + (c :: s).length : Nat) : Int) := fun x hx => by
      have := ih' x hx; simp only [List.length_cons]; omega
    repeat' split at hx
    · exact key x hx
    · rcases List.mem_cons.mp hx with rfl | hx
      · simp only [List.length_cons]; omega
      · exact key x hx
    · rcases List.mem_cons.mp hx with rfl | hx
      · simp only [List.length_cons]; omega
      · exact key x hx
    · exact key x hx

/-! ### encoded text -/

theorem utf8_cons (c : Char) (t : List Char) : utf8 (c :: t) = utf8Char c.toNat ++ utf8 t := rfl
theorem utf8_append (a b : List Char) : utf8 (a ++ b) = utf8 a ++ utf8 b := by simp [utf8]

theorem utf8Char_ne_nil (n : Nat) : utf8Char n ≠ [] := by
  unfold utf8Char
  split <;> (try split) <;> (try split) <;> simp

theorem char_eq_of_toNat {c : Char} {n : Nat} (h : c.toNat = n) (d : Char) (hd : d.toNat = n) : c = d := by
  have := Char.toNat_inj.mp (h.trans hd.symm)
  exact this

/-- The bytes of a character are its code if it is ASCII, and all ≥ 0x80 otherwise. -/
theorem utf8Char_bytes (c : Char) (b : UInt8) (h : b ∈ utf8Char c.toNat) : (b.toNat = c.toNat ∧ c.toNat < 0x80) ∨ 0x80 ≤ b.toNat := by
  have hv : c.toNat < 0x110000 := by
    have := c.valid
    simp only [UInt32.isValidChar, Nat.isValidChar] at this
    have e : c.toNat = c.val.toNat := rfl
    omega
  revert h
  generalize c.toNat = n at hv
  intro h
  unfold utf8Char at h
  split at h
  · simp only [List.mem_singleton] at h
    subst h
    left
    rw [toNat_ofNat (by omega)]; omega
  right
  split at h
  · simp only [List.mem_cons, List.not_mem_nil, or_false] at h
    rcases h with rfl | rfl <;> (rw [toNat_ofNat (by omega)]; omega)
  split at h
  · simp only [List.mem_cons, List.not_mem_nil, or_false] at h
    rcases h with rfl | rfl | rfl <;> (rw [toNat_ofNat (by omega)]; omega)
  · simp only [List.mem_cons, List.not_mem_nil, or_false] at h
    rcases h with rfl | rfl | rfl | rfl <;> (rw [toNat_ofNat (by omega)]; omega)

theorem utf8Char_ascii {c : Char} (h : c.toNat < 0x80) : utf8Char c.toNat = [UInt8.ofNat c.toNat] := by
  simp [utf8Char, h]

theorem byte_in_char {c d : Char} {b : UInt8} (hd : d.toNat < 0x80) (hb : b.toNat = d.toNat) :
    b ∈ utf8Char c.toNat ↔ c = d := by
  constructor
  · intro h
    rcases utf8Char_bytes c b h with ⟨h1, -⟩ | h1
    · exact char_eq_of_toNat (h1.symm.trans hb) d rfl
    · omega
  · rintro rfl
    rw [utf8Char_ascii hd, List.mem_singleton]
    exact byte_eq hb

theorem utf8_head (t : List Char) {d : Char} {b : UInt8} (hd : d.toNat < 0x80) (hb : b.toNat = d.toNat) :
    (utf8 t).head? = some b ↔ t.head? = some d := by
  cases t with
  | nil => simp [utf8]
  | cons c t =>
    rw [utf8_cons]
    have hne := utf8Char_ne_nil c.toNat
    cases hu : utf8Char c.toNat with
    | nil => exact absurd hu hne
    | cons x xs =>
      simp only [List.cons_append, List.head?_cons, Option.some.injEq]
      constructor
      · rintro rfl
        exact (byte_in_char hd hb).mp (by rw [hu]; simp)
      · rintro rfl
        rw [utf8Char_ascii hd] at hu
        cases hu
        exact (byte_eq hb).symm

theorem utf8_last (t : List Char) {d : Char} {b : UInt8} (hd : d.toNat < 0x80) (hb : b.toNat = d.toNat) :
    (utf8 t).getLast? = some b ↔ t.getLast? = some d := by
  rcases List.eq_nil_or_concat t with rfl | ⟨t, c, rfl⟩
  · simp [utf8]
  · rw [List.concat_eq_append, utf8_append, List.getLast?_append, List.getLast?_append]
    have e : utf8 [c] = utf8Char c.toNat := by simp [utf8]
    rw [e]
    have hne := utf8Char_ne_nil c.toNat
    cases hu : (utf8Char c.toNat).getLast? with
    | none => rw [List.getLast?_eq_none_iff] at hu; exact absurd hu hne
    | some x =>
      simp only [Option.some_or, List.getLast?_singleton, Option.some.injEq]
      constructor
      · rintro rfl
        exact (byte_in_char hd hb).mp (List.mem_of_getLast? hu)
      · rintro rfl
        rw [utf8Char_ascii hd] at hu
        simp only [List.getLast?_singleton, Option.some.injEq] at hu
        rw [← hu]
        exact (byte_eq hb).symm

theorem scan_char (c : Char) (t : List Char) (n : Nat) : lineScan (utf8 (c :: t)) n =
    if c = '\r' then
      if t.head? = some '\n' then lineScan (utf8 t) (n + 1) else (n : Int) :: lineScan (utf8 t) (n + 1)
    else if c = '\n' then ((n + 1 : Nat) : Int) :: lineScan (utf8 t) (n + 1)
    else lineScan (utf8 t) (n + (utf8Char c.toNat).length) := by
  rw [utf8_cons]
  by_cases h13 : c = '\r'
  · subst h13
    have : utf8Char '\r'.toNat = [13] := by decide
    rw [this]
    have hh := utf8_head t (d := '\n') (b := 10) (by decide) (by decide)
    simp only [List.singleton_append, lineScan, if_true]
    by_cases h : t.head? = some '\n'
    · rw [if_pos (hh.mpr h), if_pos h]
    · rw [if_neg (fun e => h (hh.mp e)), if_neg h]
  · rw [if_neg h13]
    by_cases h10 : c = '\n'
    · subst h10
      have : utf8Char '\n'.toNat = [10] := by decide
      rw [this]
      simp only [List.singleton_append, lineScan, if_true]
      rw [if_neg (by decide)]
    · rw [if_neg h10, lineScan_skip]
      intro b hb
      constructor
      · rintro rfl
        exact h10 ((byte_in_char (d := '\n') (by decide) (by decide)).mp hb)
      · rintro rfl
        exact h13 ((byte_in_char (d := '\r') (by decide) (by decide)).mp hb)

theorem scan_length (t : List Char) (n : Nat) : (lineScan (utf8 t) n).length = breaks t := by
  induction t generalizing n with
  | nil => rfl
  | cons c t ih =>
    rw [scan_char]
    simp only [breaks]
    by_cases h13 : c = '\r'
    · subst h13
      simp only [if_true]
      by_cases h : t.head? = some '\n'
      · simp [h, ih]
      · simp [h, ih]; omega
    · by_cases h10 : c = '\n'
      · subst h10
        simp [ih]; omega
      · simp [h13, h10, ih]

theorem lastLine_zero {t : List Char} (h : breaks t = 0) : lastLine t = t := by
  cases t with
  | nil => rfl
  | cons c t => simp [lastLine, h]

theorem NoLone.tail {α : Type} {cr lf c : α} {t : List α} (h : NoLone cr lf (c :: t)) : NoLone cr lf t :=
  fun i hi => h (i + 1) (by simpa using hi)

theorem NoLone.head {t : List Char} (h : NoLone '\r' '\n' ('\r' :: t)) : t.head? = some '\n' := by
  have := h 0 (by simp)
  simpa [List.head?_eq_getElem?] using this

/-- The last line start up to the end of `t`. -/
theorem scan_last (t : List Char) (n : Nat) (s : Int) (h : NoLone '\r' '\n' t) :
    (s :: lineScan (utf8 t) n)[breaks t]? =
      some (if breaks t = 0 then s else ((n + (utf8 t).length : Nat) : Int) - (utf8 (lastLine t)).length) := by
  induction t generalizing n s with
  | nil => simp [breaks]
  | cons c t ih =>
    have ht := h.tail
    by_cases h13 : c = '\r'
    · subst h13
      have hh := h.head
      rw [scan_char]
      have hb : breaks ('\r' :: t) = breaks t := by simp [breaks, hh]
      have hb0 : breaks t ≠ 0 := by
        cases t with
        | nil => simp at hh
        | cons d t => simp only [List.head?_cons, Option.some.injEq] at hh; subst hh; simp [breaks]
      simp only [if_true, hh, hb]
      rw [ih _ s ht, if_neg hb0, if_neg hb0]
      have hll : lastLine ('\r' :: t) = lastLine t := by simp [lastLine, hb, hb0]
      rw [hll, utf8_cons]
      have : utf8Char '\r'.toNat = [13] := by decide
      rw [this]
      simp only [List.singleton_append, List.length_cons]
      congr 1; omega
    · by_cases h10 : c = '\n'
      · subst h10
        rw [scan_char, if_neg h13, if_pos rfl]
        have hb : breaks ('\n' :: t) = breaks t + 1 := by simp [breaks]; omega
        have hll : lastLine ('\n' :: t) = lastLine t := by simp [lastLine, hb]
        rw [hb, hll, if_neg (by omega), List.getElem?_cons_succ, ih _ _ ht, utf8_cons]
        have : utf8Char '\n'.toNat = [10] := by decide
        rw [this]
        simp only [List.singleton_append, List.length_cons]
        congr 1
        split
        · rename_i hz; rw [lastLine_zero hz]; omega
        · omega
      · rw [scan_char, if_neg h13, if_neg h10]
        have hb : breaks (c :: t) = breaks t := by simp [breaks, h13, h10]
        rw [hb, ih _ s ht]
        congr 1
        split
        · rfl
        · rename_i hz
          have hll : lastLine (c :: t) = lastLine t := by simp [lastLine, hb, hz]
          rw [hll, utf8_cons, List.length_append]
          omega

/-- `lastLine t` is a suffix of `t`. -/
theorem lastLine_suffix (t : List Char) : ∃ p, t = p ++ lastLine t := by
  induction t with
  | nil => exact ⟨[], rfl⟩
  | cons c t ih =>
    obtain ⟨p, hp⟩ := ih
    simp only [lastLine]
    split
    · exact ⟨[], rfl⟩
    · exact ⟨c :: p, by rw [List.cons_append, ← hp]⟩

/-- Decoding the characters of `m` from the end of `a`. -/
theorem skip_chars (a : Bytes) (m b : List Char) :
    skipRunes (a ++ utf8 (m ++ b)) m.length a.length = some ((a.length + (utf8 m).length : Nat) : Int) := by
  induction m generalizing a with
  | nil => simp [skipRunes, utf8]
  | cons c m ih =>
    rw [List.length_cons, skipRunes, if_neg (by simp only [List.length_append]; omega)]
    rw [Int.toNat_natCast, List.drop_left, List.cons_append, utf8_cons, decode_char]
    have := ih (a ++ utf8Char c.toNat)
    rw [List.append_assoc, List.length_append] at this
    rw [show (a.length : Int) + ((utf8Char c.toNat).length : Nat) = ((a.length + (utf8Char c.toNat).length : Nat) : Int) by omega]
    rw [this, utf8_cons]
    congr 1
    simp only [List.length_append]
    omega

end Verif.Document
