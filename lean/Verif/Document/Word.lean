import Verif.Document.Props

/-!
C97, C98: the word before the cursor (`analysis/document.go` 19, 498-509), which completion looks for.
-/

namespace Verif.Document

/-! ### model -/

/-- The first class of `wordRegex` (`document.go:19`), `[\\a-zA-Z_\x80-\xff]`. In a Go regular expression `\x80-\xff` are
code points, not bytes. -/
def wordFirst (r : Nat) : Bool :=
  r = 92 || (97 ≤ r && r ≤ 122) || (65 ≤ r && r ≤ 90) || r = 95 || (0x80 ≤ r && r ≤ 0xFF)

/-- The second class, `[\\a-zA-Z0-9_\x80-\xff]`. -/
def wordNext (r : Nat) : Bool := wordFirst r || (48 ≤ r && r ≤ 57)

/-- The second class, repeated, and the end of the text: `[\\a-zA-Z0-9_\x80-\xff]*$`. -/
def matchRest (s : Bytes) : Bool :=
  match s with
  | [] => true
  | c :: cs => wordNext (decodeRune (c :: cs)).1 && matchRest ((c :: cs).drop (max 1 (decodeRune (c :: cs)).2))
termination_by s.length
decreasing_by simp only [List.length_drop, List.length_cons]; omega

/-- `wordRegex.FindString` (`document.go:508`): the leftmost match, empty if there is none. -/
def findWord (s : Bytes) : Bytes :=
  match s with
  | [] => []
  | c :: cs =>
    let rest := (c :: cs).drop (max 1 (decodeRune (c :: cs)).2)
    if wordFirst (decodeRune (c :: cs)).1 && matchRest rest then c :: cs else findWord rest
termination_by s.length
decreasing_by simp only [List.length_drop, List.length_cons]; omega

/-- `WordAtPos` (`document.go:498-509`); `sort.SearchInts` finds the first entry that is not smaller. An index out of range
panics. -/
def Doc.wordAtPos (d : Doc) (pos : Pos) : Option Bytes :=
  (d.offsetAtPosition pos).bind fun offset =>
    let lineNumber : Int := (goSearch d.lineOffsets.length fun i => decide (d.lineOffsets.getD i 0 ≥ offset) : Nat) - 1
    let lineNumber := if lineNumber < 0 then 0 else lineNumber
    let lineNumber := if lineNumber < (d.lineOffsets.length : Int) - 1 ∧ offset = d.lineOffsets.getD (lineNumber + 1).toNat 0
      then lineNumber + 1 else lineNumber
    match d.lineOffsets[lineNumber.toNat]? with
    | some start => if start < 0 ∨ offset < start then none else some (findWord ((d.text.take offset.toNat).drop start.toNat))
    | none => none

/-! ### specification -/

/-- The characters of names, with the backslash of qualified names. PHP takes every character outside of ASCII for a letter. -/
def NameChar (c : Char) : Prop :=
  c = '\\' ∨ c = '_' ∨ ('a' ≤ c ∧ c ≤ 'z') ∨ ('A' ≤ c ∧ c ≤ 'Z') ∨ ('0' ≤ c ∧ c ≤ '9') ∨ 0x80 ≤ c.toNat

/-- The same for the characters up to U+00FF only. -/
def LatinNameChar (c : Char) : Prop := NameChar c ∧ c.toNat ≤ 0xFF

/-- `w` is the longest end of `line` that consists of such characters and does not begin with a digit. -/
structure WordOf (ok : Char → Prop) (line w : List Char) : Prop where
  suffix : w <:+ line
  chars : ∀ c ∈ w, ok c
  first : ∀ c, w.head? = some c → ¬ ('0' ≤ c ∧ c ≤ '9')
  longest : ∀ w', w' <:+ line → (∀ c ∈ w', ok c) → (∀ c, w'.head? = some c → ¬ ('0' ≤ c ∧ c ≤ '9')) → w'.length ≤ w.length

theorem WordOf.unique {ok : Char → Prop} {line w w' : List Char} (h : WordOf ok line w) (h' : WordOf ok line w') : w = w' := by
  have h1 := h.longest w' h'.suffix h'.chars h'.first
  have h2 := h'.longest w h.suffix h.chars h.first
  have hl : w.length = w'.length := by omega
  exact (List.suffix_of_suffix_length_le h.suffix h'.suffix (by omega)).eq_of_length hl

/-! ### the match -/

theorem char_le (a b : Char) : a ≤ b ↔ a.toNat ≤ b.toNat := by
  rw [Char.le_def, UInt32.le_iff_toNat_le]; rfl

theorem char_eq (a b : Char) : a = b ↔ a.toNat = b.toNat :=
  ⟨fun h => by rw [h], fun h => Char.toNat_inj.mp h⟩

theorem wordNext_iff (c : Char) : wordNext c.toNat = true ↔ LatinNameChar c := by
  simp only [wordNext, wordFirst, LatinNameChar, NameChar, char_le, char_eq, Bool.or_eq_true, Bool.and_eq_true, decide_eq_true_eq,
    show ('\\' : Char).toNat = 92 from rfl, show ('_' : Char).toNat = 95 from rfl, show ('a' : Char).toNat = 97 from rfl,
    show ('z' : Char).toNat = 122 from rfl, show ('A' : Char).toNat = 65 from rfl, show ('Z' : Char).toNat = 90 from rfl,
    show ('0' : Char).toNat = 48 from rfl, show ('9' : Char).toNat = 57 from rfl]
  omega

theorem wordFirst_iff (c : Char) : wordFirst c.toNat = true ↔ LatinNameChar c ∧ ¬ ('0' ≤ c ∧ c ≤ '9') := by
  simp only [wordFirst, LatinNameChar, NameChar, char_le, char_eq, Bool.or_eq_true, Bool.and_eq_true, decide_eq_true_eq,
    show ('\\' : Char).toNat = 92 from rfl, show ('_' : Char).toNat = 95 from rfl, show ('a' : Char).toNat = 97 from rfl,
    show ('z' : Char).toNat = 122 from rfl, show ('A' : Char).toNat = 65 from rfl, show ('Z' : Char).toNat = 90 from rfl,
    show ('0' : Char).toNat = 48 from rfl, show ('9' : Char).toNat = 57 from rfl]
  omega

theorem utf8_shape (c : Char) (t : List Char) : ∃ b s, utf8 (c :: t) = b :: s ∧ (decodeRune (b :: s)).1 = c.toNat ∧
    (b :: s).drop (max 1 (decodeRune (b :: s)).2) = utf8 t := by
  obtain ⟨b, s, h⟩ : ∃ b s, utf8 (c :: t) = b :: s := by
    cases h : utf8 (c :: t) with
    | nil =>
      rw [utf8_cons] at h
      exact absurd (List.append_eq_nil_iff.mp h).1 (utf8Char_ne_nil _)
    | cons b s => exact ⟨b, s, rfl⟩
  refine ⟨b, s, h, ?_, ?_⟩
  · rw [← h, utf8_cons, decode_char]
  · rw [← h, utf8_cons, decode_char]
    have : 0 < (utf8Char c.toNat).length := List.length_pos_iff.mpr (utf8Char_ne_nil _)
    rw [Nat.max_eq_right (by omega), List.drop_left]

theorem matchRest_iff (t : List Char) : matchRest (utf8 t) = true ↔ ∀ c ∈ t, LatinNameChar c := by
  induction t with
  | nil => simp [utf8, matchRest]
  | cons c t ih =>
    obtain ⟨b, s, h, h1, h2⟩ := utf8_shape c t
    rw [h, matchRest, h1, h2, Bool.and_eq_true, ih, wordNext_iff]
    simp

theorem findWord_chars (t : List Char) : ∃ w, findWord (utf8 t) = utf8 w ∧ WordOf LatinNameChar t w := by
  induction t with
  | nil =>
    refine ⟨[], by simp [utf8, findWord], List.nil_suffix, by simp, by simp, ?_⟩
    intro w' h _ _
    exact h.length_le
  | cons c t ih =>
    obtain ⟨w, hw, ho⟩ := ih
    obtain ⟨b, s, h, h1, h2⟩ := utf8_shape c t
    by_cases hm : (wordFirst c.toNat && matchRest (utf8 t)) = true
    · refine ⟨c :: t, ?_, List.suffix_refl _, ?_, ?_, fun w' hs _ _ => hs.length_le⟩
      · rw [h, findWord, h1, h2]
        simp only [hm, if_true]
      · rw [Bool.and_eq_true, wordFirst_iff, matchRest_iff] at hm
        intro d hd
        rcases List.mem_cons.mp hd with rfl | hd
        · exact hm.1.1
        · exact hm.2 d hd
      · intro d hd
        rw [Bool.and_eq_true, wordFirst_iff] at hm
        simp only [List.head?_cons, Option.some.injEq] at hd
        subst hd
        exact hm.1.2
    · refine ⟨w, ?_, ho.suffix.trans (List.suffix_cons _ _), ho.chars, ho.first, ?_⟩
      · rw [h, findWord, h1, h2]
        simp only [hm, if_false, Bool.false_eq_true]
        exact hw
      · intro w' hs hc hf
        rcases List.suffix_cons_iff.mp hs with rfl | hs
        · exfalso
          apply hm
          rw [Bool.and_eq_true, wordFirst_iff, matchRest_iff]
          exact ⟨⟨hc c (by simp), hf c rfl⟩, fun d hd => hc d (by simp [hd])⟩
        · exact ho.longest w' hs hc hf

/-! ### the line -/

theorem table_strict {text : Bytes} (h : NoLone 13 10 text) : (ofText text).lineOffsets.Pairwise (· < ·) := by
  rw [C21_line_table_partial text h, List.pairwise_map]
  refine (List.Pairwise.filter _ List.pairwise_lt_range).imp ?_
  intro a b hab
  simpa using hab

theorem wordAtPos_chars {t : List Char} {p : Pos} {pre post : List Char} (h : At t p pre post)
    (ht : NoLone '\r' '\n' t) (hb : ∀ c ∈ lastLine pre, c.toNat < 0x10000) :
    (ofText (utf8 t)).wordAtPos p = some (findWord (utf8 (lastLine pre))) := by
  have hoff := offset_of_line h ht hb
  have hls := line_start h ht
  have hst := table_strict (noLone_bytes ht)
  have hbl : breaks pre < (ofText (utf8 t)).lineOffsets.length := (List.getElem?_eq_some_iff.mp hls).1
  obtain ⟨q, hq⟩ := lastLine_suffix pre
  have hlen : (utf8 pre).length = (utf8 q).length + (utf8 (lastLine pre)).length := by
    conv_lhs => rw [hq]
    rw [utf8_append, List.length_append]
  have hget : (ofText (utf8 t)).lineOffsets.getD (breaks pre) 0 = ((utf8 q).length : Int) := by
    rw [List.getD_eq_getElem?_getD, hls]; simp only [Option.getD_some]; omega
  have hlt : ∀ i j, i < j → j < (ofText (utf8 t)).lineOffsets.length →
      (ofText (utf8 t)).lineOffsets.getD i 0 < (ofText (utf8 t)).lineOffsets.getD j 0 := by
    intro i j hij hj
    have := List.pairwise_iff_getElem.mp hst i j (by omega) hj hij
    simpa [List.getD_eq_getElem?_getD, List.getElem?_eq_getElem, hj, show i < (ofText (utf8 t)).lineOffsets.length by omega] using this
  -- the lines after the cursor
  have hafter : ∀ j, breaks pre < j → j < (ofText (utf8 t)).lineOffsets.length →
      ((utf8 pre).length : Int) < (ofText (utf8 t)).lineOffsets.getD j 0 := by
    intro j hj hjl
    have hg : (ofText (utf8 t)).lineOffsets[j]? = some ((ofText (utf8 t)).lineOffsets.getD j 0) := by
      rw [List.getD_eq_getElem?_getD, List.getElem?_eq_getElem hjl]; rfl
    rw [table_split h, List.getElem?_append_right (by simp [scan_length]; omega)] at hg
    have := lineScan_gt _ _ (noLone_bytes (noLone_post h ht)) _ (List.mem_of_getElem? hg)
    rw [← table_split h] at this
    exact this
  unfold Doc.wordAtPos
  rw [hoff]
  simp only [Option.bind_some]
  obtain ⟨g1, g2, g3⟩ := goSearch_spec (ofText (utf8 t)).lineOffsets.length
    (fun i => decide ((ofText (utf8 t)).lineOffsets.getD i 0 ≥ ((utf8 pre).length : Int))) (by
      intro a b hab hb' ha
      simp only [decide_eq_true_eq] at ha ⊢
      rcases Nat.lt_or_eq_of_le hab with hl | rfl
      · have := hlt a b hl hb'; omega
      · exact ha)
  generalize goSearch (ofText (utf8 t)).lineOffsets.length
    (fun i => decide ((ofText (utf8 t)).lineOffsets.getD i 0 ≥ ((utf8 pre).length : Int))) = g at g1 g2 g3
  have hfin : ∀ n : Int, n = (breaks pre : Int) →
      (match (ofText (utf8 t)).lineOffsets[n.toNat]? with
      | some start => if start < 0 ∨ ((utf8 pre).length : Int) < start then none
          else some (findWord (((ofText (utf8 t)).text.take ((utf8 pre).length : Int).toNat).drop start.toNat))
      | none => none) = some (findWord (utf8 (lastLine pre))) := by
    rintro n rfl
    rw [Int.toNat_natCast, hls]
    simp only
    rw [if_neg (by omega)]
    congr 2
    show ((utf8 t).take _).drop _ = _
    rw [h.split, utf8_append, Int.toNat_natCast, List.take_left]
    have : (((utf8 pre).length : Int) - (utf8 (lastLine pre)).length).toNat = (utf8 q).length := by omega
    rw [this]
    conv_lhs => rw [hq]
    rw [utf8_append, List.drop_left]
  apply hfin
  by_cases he : (utf8 (lastLine pre)).length = 0
  · -- at the start of a line
    have hg : g = breaks pre := by
      rcases Nat.lt_trichotomy g (breaks pre) with hl | he' | hgt
      · have := g3 (by omega)
        simp only [decide_eq_true_eq] at this
        have h2 := hlt g (breaks pre) hl hbl
        omega
      · exact he'
      · have := g1 (breaks pre) hgt
        simp only [decide_eq_false_iff_not] at this
        omega
    subst hg
    by_cases hz : breaks pre = 0
    · rw [if_pos (show ((breaks pre : Nat) : Int) - 1 < 0 by omega), if_neg]
      · omega
      · rintro ⟨h1, h2⟩
        have := hafter 1 (by omega) (by omega)
        rw [show ((0 : Int) + 1).toNat = 1 from rfl] at h2
        omega
    · rw [if_neg (show ¬ ((breaks pre : Nat) : Int) - 1 < 0 by omega), if_pos]
      · omega
      · refine ⟨by omega, ?_⟩
        rw [show (((breaks pre : Nat) : Int) - 1 + 1).toNat = breaks pre by omega, hget]
        omega
  · have hg : g = breaks pre + 1 := by
      rcases Nat.lt_trichotomy g (breaks pre + 1) with hl | he' | hgt
      · have := g3 (by omega)
        simp only [decide_eq_true_eq] at this
        rcases Nat.lt_or_eq_of_le (show g ≤ breaks pre by omega) with hl' | rfl
        · have h2 := hlt g (breaks pre) hl' hbl
          omega
        · omega
      · exact he'
      · have := g1 (breaks pre + 1) hgt
        simp only [decide_eq_false_iff_not] at this
        have h2 := hafter (breaks pre + 1) (by omega) (by omega)
        omega
    subst hg
    rw [if_neg (show ¬ ((breaks pre + 1 : Nat) : Int) - 1 < 0 by omega), if_neg]
    · omega
    · rintro ⟨h1, h2⟩
      have := hafter (breaks pre + 1) (by omega) (by omega)
      rw [show (((breaks pre + 1 : Nat) : Int) - 1 + 1).toNat = breaks pre + 1 by omega] at h2
      omega

/-! ### C97 -/

/-- C97: the word that completion looks for is the longest word of letters up to U+00FF, digits, underscores and backslashes
that ends at the cursor, on the line of the cursor, and does not begin with a digit. The text has no CR without LF, and
before the cursor the line has no characters beyond U+FFFF. -/
theorem C97_word {t : List Char} {p : Pos} {pre post : List Char} (h : At t p pre post)
    (ht : NoLone '\r' '\n' t) (hb : ∀ c ∈ lastLine pre, c.toNat < 0x10000) :
    ∃ w, (ofText (utf8 t)).wordAtPos p = some (utf8 w) ∧ WordOf LatinNameChar (lastLine pre) w := by
  obtain ⟨w, h1, h2⟩ := findWord_chars (lastLine pre)
  exact ⟨w, by rw [wordAtPos_chars h ht hb, h1], h2⟩

/-- The cursor after `Bar1` in the second line of `<?php⏎$x = new Foo\Bar1;`; the word is `Foo\Bar1`. After `12ab` it is `ab`. -/
example : At "<?php\r\n$x = new Foo\\Bar1;".toList ⟨1, 17⟩ "<?php\r\n$x = new Foo\\Bar1".toList ";".toList ∧
    (ofText (utf8 "<?php\r\n$x = new Foo\\Bar1;".toList)).wordAtPos ⟨1, 17⟩ = some b!"Foo\\Bar1" ∧
    (ofText b!"<?php\n 12ab").wordAtPos ⟨1, 5⟩ = some b!"ab" ∧
    (ofText b!"<?php\nab").wordAtPos ⟨1, 0⟩ = some b!"" :=
  ⟨⟨by decide, by decide, by decide, by decide⟩, by decide +kernel, by decide +kernel, by decide +kernel⟩

/-! ### C98 -/

/-- C98 (partial: the line has no characters beyond U+00FF before the cursor). The word that completion looks for is the
longest name that ends at the cursor. -/
theorem C98_name_partial {t : List Char} {p : Pos} {pre post : List Char} (h : At t p pre post)
    (ht : NoLone '\r' '\n' t) (hb : ∀ c ∈ lastLine pre, c.toNat ≤ 0xFF) :
    ∃ w, (ofText (utf8 t)).wordAtPos p = some (utf8 w) ∧ WordOf NameChar (lastLine pre) w := by
  obtain ⟨w, h1, h2⟩ := C97_word h ht fun c hc => by have := hb c hc; omega
  refine ⟨w, h1, h2.suffix, fun c hc => (h2.chars c hc).1, h2.first, fun w' hs hc hf => ?_⟩
  exact h2.longest w' hs (fun c hc' => ⟨hc c hc', hb c (hs.subset hc')⟩) hf

/-- `Größe` is one word. -/
example : (ofText (utf8 "<?php\n$x = new Größe".toList)).wordAtPos ⟨1, 14⟩ = some (utf8 "Größe".toList) := by decide +kernel

/-- C98 is false: a letter beyond U+00FF ends the word, so after `Wałęsa` completion looks for `sa`, and after `日本` it
looks for the empty word. -/
theorem C98_false_letters : ¬ ∀ (t : List Char) (p : Pos) (pre post : List Char), At t p pre post → NoLone '\r' '\n' t →
    (∀ c ∈ lastLine pre, c.toNat < 0x10000) →
    ∃ w, (ofText (utf8 t)).wordAtPos p = some (utf8 w) ∧ WordOf NameChar (lastLine pre) w := by
  intro h
  obtain ⟨w, h1, h2⟩ := h "Wałęsa".toList ⟨0, 6⟩ "Wałęsa".toList [] ⟨by decide, by decide, by decide, by decide⟩ (by
    intro i hi
    have : '\r' ∈ "Wałęsa".toList := List.mem_of_getElem? hi
    exact absurd this (by decide)) (by decide)
  have h3 : (ofText (utf8 "Wałęsa".toList)).wordAtPos ⟨0, 6⟩ = some b!"sa" := by decide +kernel
  rw [h3, Option.some.injEq] at h1
  have h4 := h2.longest "Wałęsa".toList (by decide +kernel) (by
    intro c hc
    have : c = 'W' ∨ c = 'a' ∨ c = 'ł' ∨ c = 'ę' ∨ c = 's' := by
      have : c = 'W' ∨ c = 'a' ∨ c = 'ł' ∨ c = 'ę' ∨ c = 's' ∨ c = 'a' := by revert hc; simp +decide
      tauto
    rcases this with rfl | rfl | rfl | rfl | rfl <;> simp +decide [NameChar]) (by simp +decide)
  have h5 : (utf8 w).length = 2 := by rw [← h1]; rfl
  have h6 : w.length ≤ (utf8 w).length := by
    clear h1 h2 h4 h5
    induction w with
    | nil => simp
    | cons c w ih =>
      rw [utf8_cons, List.length_append]
      have : 0 < (utf8Char c.toNat).length := List.length_pos_iff.mpr (utf8Char_ne_nil _)
      simp only [List.length_cons]
      omega
  have h7 : ("Wałęsa".toList).length = 6 := by decide
  omega

end Verif.Document
