import Verif.Document.Lemmas

/-! C21, C22, C23: line table, positions, incremental changes. -/

namespace Verif.Document

/-! ### C21 -/

theorem isLineStart_succ (c : UInt8) (t : Bytes) (k : Nat) :
    IsLineStart (c :: t) (k + 2) ↔ IsLineStart t (k + 1) := by
  simp [IsLineStart]

theorem lineScan_filter (text : Bytes) (n : Nat) (h : NoLone 13 10 text) : lineScan text n =
    ((List.range text.length).filter fun k => IsLineStart text (k + 1)).map fun k => ((n + (k + 1) : Nat) : Int) := by
  induction text generalizing n with
  | nil => rfl
  | cons c t ih =>
    have ih' := ih (n + 1) h.tail
    have e1 : (List.map Nat.succ (List.range t.length)).filter (fun k => IsLineStart (c :: t) (k + 1)) =
        ((List.range t.length).filter fun k => IsLineStart t (k + 1)).map Nat.succ := by
      rw [List.filter_map]
      congr 1
      apply List.filter_congr
      intro k _
      simp only [Function.comp, Nat.succ_eq_add_one]
      exact decide_eq_decide.mpr (isLineStart_succ c t k)
    have e2 : lineScan t (n + 1) = (((List.range t.length).filter fun k => IsLineStart t (k + 1)).map Nat.succ).map
        fun k => ((n + (k + 1) : Nat) : Int) := by
      rw [ih', List.map_map]
      apply List.map_congr_left
      intro k _
      simp only [Function.comp, Nat.succ_eq_add_one]
      congr 1; omega
    rw [List.length_cons, List.range_succ_eq_map, List.filter_cons, e1]
    have h1 : IsLineStart (c :: t) (0 + 1) ↔ c = 10 := by
      simp only [IsLineStart]
      constructor
      · rintro (h' | ⟨-, h'⟩ | ⟨-, h', h''⟩)
        · omega
        · simpa using h'
        · have := h 0 (by simpa using h')
          exact absurd this h''
      · rintro rfl
        exact .inr (.inl ⟨by omega, by simp⟩)
    simp only [h1, decide_eq_true_eq]
    simp only [lineScan]
    by_cases h13 : c = 13
    · subst h13
      have : t.head? = some 10 := by
        have := h 0 (by simp)
        simpa [List.head?_eq_getElem?] using this
      rw [if_pos rfl, if_pos this, if_neg (by decide), e2]
    · rw [if_neg h13]
      by_cases h10 : c = 10
      · rw [if_pos h10, if_pos h10, List.map_cons, e2]
      · rw [if_neg h10, if_neg h10, e2]

/-- C21 (partial: every CR is part of a CRLF). The line table of a text lists exactly the offsets
where a line starts, in ascending order, each once. Missing: lone CR line breaks, for which the table
is wrong (`C21_false_lone_cr`). -/
theorem C21_line_table_partial (text : Bytes) (h : NoLone 13 10 text) :
    (ofText text).lineOffsets =
      ((List.range (text.length + 1)).filter fun k => IsLineStart text k).map Int.ofNat := by
  rw [ofText_table, lineScan_filter _ _ h, List.range_succ_eq_map, List.filter_cons,
    if_pos (by simp [IsLineStart]), List.map_cons, List.filter_map, List.map_map]
  congr 1
  simp [Function.comp_def]

/-- CRLF and LF mixed, multi-byte characters and an undecodable byte. -/
example : NoLone 13 10 (b!"a\r\n" ++ [0xC3, 0xA9, 10, 10, 0xFF] ++ b!"b\r\n") := by
  intro i hi
  have : i < 11 ∨ 11 ≤ i := by omega
  rcases this with h | h
  · revert hi; revert i; decide +kernel
  · rw [List.getElem?_eq_none (by simpa using h)] at hi; cases hi

/-- The same sentence without the restriction on CR fails: a line after a lone CR is recorded as
starting at the CR itself. -/
theorem C21_false_lone_cr : ¬ ∀ text : Bytes, (ofText text).lineOffsets =
    ((List.range (text.length + 1)).filter fun k => IsLineStart text k).map Int.ofNat := by
  intro h
  exact absurd (h b!"a\rb") (by decide +kernel)

theorem table_sorted (text : Bytes) : (ofText text).lineOffsets.Pairwise (· ≤ ·) := by
  rw [ofText_table]
  exact List.pairwise_cons.mpr ⟨fun x hx => by have := lineScan_ge text 0 x hx; omega, lineScan_sorted _ _⟩

theorem getD_mono {l : List Int} (h : l.Pairwise (· ≤ ·)) {a b : Nat} (hab : a ≤ b) (hb : b < l.length) :
    l.getD a 0 ≤ l.getD b 0 := by
  rcases Nat.lt_or_eq_of_le hab with hlt | rfl
  · have := List.pairwise_iff_getElem.mp h a b (by omega) hb hlt
    simpa [List.getD_eq_getElem?_getD, List.getElem?_eq_getElem, hb, show a < l.length by omega] using this
  · exact Int.le_refl _

/-- What `lineAt` finds in a table that starts with 0 and ascends. -/
theorem lineAt_spec (d : Doc) (hs : d.lineOffsets.Pairwise (· ≤ ·)) (h0 : d.lineOffsets.head? = some 0) (o : Nat) :
    ∃ k : Nat, d.lineAt o = k ∧ k < d.lineOffsets.length ∧ d.lineOffsets.getD k 0 ≤ (o : Int) ∧
      ∀ j, k < j → j < d.lineOffsets.length → (o : Int) < d.lineOffsets.getD j 0 := by
  obtain ⟨h1, h2, h3⟩ := goSearch_spec d.lineOffsets.length (fun i => decide (d.lineOffsets.getD i 0 > (o : Int))) (by
    intro a b hab hb ha
    simp only [decide_eq_true_eq] at ha ⊢
    have := getD_mono hs hab hb
    omega)
  have hlen : 0 < d.lineOffsets.length := by
    cases hl : d.lineOffsets with
    | nil => rw [hl] at h0; cases h0
    | cons a l => simp
  have hz : d.lineOffsets.getD 0 0 = 0 := by
    cases hl : d.lineOffsets with
    | nil => rfl
    | cons a l => rw [hl] at h0; simpa using h0
  unfold Doc.lineAt
  generalize goSearch d.lineOffsets.length (fun i => decide (d.lineOffsets.getD i 0 > (o : Int))) = g at h1 h2 h3
  have hg : 0 < g := by
    rcases Nat.eq_zero_or_pos g with rfl | h
    · have := h3 hlen
      rw [hz] at this
      simp only [decide_eq_true_eq] at this
      omega
    · exact h
  refine ⟨g - 1, by omega, by omega, ?_, fun j hj hjl => ?_⟩
  · have := h1 (g - 1) (by omega)
    simp only [decide_eq_false_iff_not] at this
    omega
  · have h4 := h3 (by omega)
    simp only [decide_eq_true_eq] at h4
    have := getD_mono hs (show g ≤ j by omega) hjl
    omega

/-- C21: for every text and every offset the line reported for the offset is the line whose recorded
start is the last one at or before the offset. -/
theorem C21_line_of_offset (text : Bytes) (o : Nat) :
    ∃ k : Nat, (ofText text).lineAt o = k ∧
      (∃ s, (ofText text).lineOffsets[k]? = some s ∧ s ≤ (o : Int)) ∧
      ∀ j s, k < j → (ofText text).lineOffsets[j]? = some s → (o : Int) < s := by
  obtain ⟨k, h1, h2, h3, h4⟩ := lineAt_spec (ofText text) (table_sorted text) (by rw [ofText_table]; rfl) o
  refine ⟨k, h1, ⟨_, List.getElem?_eq_getElem h2, ?_⟩, fun j s hj hs => ?_⟩
  · simpa [List.getD_eq_getElem?_getD, List.getElem?_eq_getElem h2] using h3
  · have hjl : j < (ofText text).lineOffsets.length := (List.getElem?_eq_some_iff.mp hs).1
    have := h4 j hj hjl
    simpa [List.getD_eq_getElem?_getD, hs] using this

example : (ofText b!"ab\ncd\r\ne").lineAt 4 = 1 ∧ (ofText b!"ab\ncd\r\ne").lineAt 7 = 2 := by decide +kernel

/-! ### C22 -/

theorem skip_ascii (text : Bytes) (k s : Nat) (hl : s + k ≤ text.length)
    (h : ∀ i b, s ≤ i → i < s + k → text[i]? = some b → b.toNat < 0x80) :
    skipRunes text k s = some ((s + k : Nat) : Int) := by
  induction k generalizing s with
  | zero => simp [skipRunes]
  | succ k ih =>
    rw [skipRunes, if_neg (by omega), Int.toNat_natCast]
    have hs : s < text.length := by omega
    have hd : text.drop s = text[s] :: text.drop (s + 1) := (List.getElem_cons_drop hs).symm
    rw [hd, decode_ascii _ _ (h s _ (Nat.le_refl _) (by omega) (List.getElem?_eq_getElem hs))]
    rw [show (s : Int) + ((1 : Nat) : Int) = ((s + 1 : Nat) : Int) by omega]
    rw [ih (s + 1) (by omega) fun i b h1 h2 h3 => h i b (by omega) (by omega) h3]
    congr 2; omega

/-- C22 (partial: the part of the line before the offset is ASCII). Converting an offset to a position
always succeeds, and converting that position back gives the offset. Missing: lines with multi-byte
characters before the offset (`C22_false_multibyte`). -/
theorem C22_round_trip_partial (text : Bytes) (o : Nat) (ho : o ≤ text.length) :
    ∃ p, (ofText text).positionAt o = some p ∧ 0 ≤ p.character ∧ p.character ≤ o ∧
      ((∀ (i : Nat) b, (o : Int) - p.character ≤ i → i < o → text[i]? = some b → b.toNat < 0x80) →
        (ofText text).offsetAtPosition p = some o) := by
  obtain ⟨k, h1, h2, h3, -⟩ := lineAt_spec (ofText text) (table_sorted text) (by rw [ofText_table]; rfl) o
  have hget : (ofText text).lineOffsets[k]? = some ((ofText text).lineOffsets.getD k 0) := by
    rw [List.getD_eq_getElem?_getD, List.getElem?_eq_getElem h2]; rfl
  have hge : 0 ≤ (ofText text).lineOffsets.getD k 0 := by
    have : (ofText text).lineOffsets.getD k 0 ∈ (ofText text).lineOffsets := List.mem_of_getElem? hget
    rw [ofText_table] at this
    rcases List.mem_cons.mp this with h | h
    · rw [ofText_table]; omega
    · rw [← ofText_table] at h
      have := lineScan_ge text 0 _ h
      omega
  obtain ⟨s, hs⟩ := Int.eq_ofNat_of_zero_le hge
  refine ⟨⟨k, (o : Int) - (ofText text).lineOffsets.getD k 0⟩, ?_, ?_, ?_, fun hascii => ?_⟩
  · unfold Doc.positionAt
    simp only [h1]
    rw [if_neg (by omega), Int.toNat_natCast, hget]
    rfl
  · dsimp only; omega
  · dsimp only; omega
  · rw [hs] at hascii h3 ⊢
    dsimp only at hascii
    have hline : (ofText text).offsetAtLine (k : Int) = (s : Int) := by
      unfold Doc.offsetAtLine
      by_cases hk : k = 0
      · subst hk
        rw [if_pos (by omega)]
        rw [← hs]
        rw [ofText_table]
        rfl
      · rw [if_neg (by omega), if_neg (by omega), Int.toNat_natCast, hs]
    unfold Doc.offsetAtPosition
    dsimp only
    rw [hline]
    have e : ((o : Int) - (s : Nat)).toNat = o - s := by omega
    have htext : (ofText text).text = text := rfl
    rw [e, htext, skip_ascii text (o - s) s (by omega) fun i b h1 h2 h3 => hascii i b (by omega) (by omega) h3]
    simp only [Option.map_some]
    have e2 : s + (o - s) = o := by omega
    rw [e2]
    congr 1
    split <;> split <;> omega

/-- C22: a position on a line after the last one is taken as the beginning of the last line, and does not make the
server fail. -/
theorem C22_line_past_end (text : Bytes) (line : Int) (h : ((ofText text).lineOffsets.length : Int) ≤ line) :
    ∃ s : Nat, (ofText text).lineOffsets.getLast? = some (s : Int) ∧ s ≤ text.length ∧
      (ofText text).offsetAtPosition ⟨line, 0⟩ = some (s : Int) := by
  have hne : (ofText text).lineOffsets ≠ [] := by rw [ofText_table]; simp
  have hlen : 0 < (ofText text).lineOffsets.length := List.length_pos_iff.mpr hne
  have hmem := List.getLast_mem hne
  have hs : ∃ s : Nat, (ofText text).lineOffsets.getLast hne = (s : Int) ∧ s ≤ text.length := by
    generalize (ofText text).lineOffsets.getLast hne = x at hmem
    rw [ofText_table] at hmem
    rcases List.mem_cons.mp hmem with rfl | hx
    · exact ⟨0, rfl, Nat.zero_le _⟩
    · have h1 := lineScan_ge text 0 _ hx
      have h2 := lineScan_le text 0 _ hx
      exact ⟨x.toNat, by omega, by omega⟩
  obtain ⟨s, hs, hle⟩ := hs
  refine ⟨s, by rw [List.getLast?_eq_some_getLast hne, hs], hle, ?_⟩
  have hl : (ofText text).offsetAtLine line = (s : Int) := by
    unfold Doc.offsetAtLine
    rw [if_neg (by omega), if_pos (by omega), List.getLastD_eq_getLast?, List.getLast?_eq_some_getLast hne, hs]
    rfl
  unfold Doc.offsetAtPosition
  dsimp only
  rw [hl]
  have htext : (ofText text).text = text := rfl
  simp only [Int.toNat_zero, skipRunes, Option.map_some, htext]
  congr 1
  split <;> split <;> omega

example : (ofText b!"a\nb\ncd").offsetAtPosition ⟨3, 0⟩ = some 4 ∧ (ofText b!"a\nb\ncd").offsetAtPosition ⟨9, 0⟩ = some 4 := by
  decide +kernel

example : (ofText b!"<?php\r\n$a = 1;\n").positionAt 9 = some ⟨1, 2⟩ ∧
    (ofText b!"<?php\r\n$a = 1;\n").offsetAtPosition ⟨1, 2⟩ = some 9 := by decide +kernel

/-- With a multi-byte character before the offset the round trip fails: positions are produced in bytes
but read in characters. -/
theorem C22_false_multibyte : ¬ ∀ (text : Bytes) (o : Nat), o ≤ text.length →
    ((ofText text).positionAt o).bind (ofText text).offsetAtPosition = some o := by
  intro h
  exact absurd (h ([0xC3, 0xA9] ++ b!"ab") 2 (by decide)) (by decide +kernel)

/-- Splitting a text between two characters that are not one line break. -/
theorem whole_bytes {pre post : List Char} (h : ¬ (pre.getLast? = some '\r' ∧ post.head? = some '\n')) :
    ¬ ((utf8 pre).getLast? = some 13 ∧ (utf8 post).head? = some 10) := by
  rintro ⟨h1, h2⟩
  exact h ⟨(utf8_last pre (d := '\r') (by decide) (by decide)).mp h1,
    (utf8_head post (d := '\n') (by decide) (by decide)).mp h2⟩

theorem table_split {t : List Char} {p : Pos} {pre post : List Char} (h : At t p pre post) :
    (ofText (utf8 t)).lineOffsets =
      (0 :: lineScan (utf8 pre) 0) ++ lineScan (utf8 post) (utf8 pre).length := by
  rw [ofText_table, h.split, utf8_append, lineScan_append _ _ _ (whole_bytes h.whole)]
  simp

theorem noLone_pre {t : List Char} {p : Pos} {pre post : List Char} (h : At t p pre post) (ht : NoLone '\r' '\n' t) :
    NoLone '\r' '\n' pre := by
  intro i hi
  have hlt : i < pre.length := (List.getElem?_eq_some_iff.mp hi).1
  have h1 := ht i (by rw [h.split, List.getElem?_append_left hlt]; exact hi)
  by_cases hl : i + 1 < pre.length
  · rwa [h.split, List.getElem?_append_left hl] at h1
  · exfalso
    rw [h.split, List.getElem?_append_right (by omega)] at h1
    have e : i + 1 - pre.length = 0 := by omega
    rw [e] at h1
    apply h.whole
    refine ⟨?_, by rw [List.head?_eq_getElem?]; exact h1⟩
    rw [List.getLast?_eq_getElem?]
    have : pre.length - 1 = i := by omega
    rw [this]; exact hi

theorem noLone_post {t : List Char} {p : Pos} {pre post : List Char} (h : At t p pre post) (ht : NoLone '\r' '\n' t) :
    NoLone '\r' '\n' post := by
  intro i hi
  have := ht (pre.length + i) (by rw [h.split, List.getElem?_append_right (by omega)]; simpa using hi)
  rw [h.split, List.getElem?_append_right (by omega)] at this
  rw [← this]; congr 1; omega

/-- The recorded start of the line of a position. -/
theorem line_start {t : List Char} {p : Pos} {pre post : List Char} (h : At t p pre post) (ht : NoLone '\r' '\n' t) :
    (ofText (utf8 t)).lineOffsets[breaks pre]? = some (((utf8 pre).length : Int) - (utf8 (lastLine pre)).length) := by
  rw [table_split h, List.getElem?_append_left (by simp [scan_length]), scan_last _ _ _ (noLone_pre h ht)]
  congr 1
  split
  · rename_i hz; rw [lastLine_zero hz]; omega
  · omega

theorem noLone_bytes {t : List Char} (h : NoLone '\r' '\n' t) : NoLone (13 : UInt8) 10 (utf8 t) := by
  induction t with
  | nil => intro i hi; simp [utf8] at hi
  | cons c t ih =>
    intro i hi
    rw [utf8_cons] at hi ⊢
    by_cases hlt : i < (utf8Char c.toNat).length
    · rw [List.getElem?_append_left hlt] at hi
      have := (byte_in_char (d := '\r') (b := 13) (by decide) (by decide)).mp (List.mem_of_getElem? hi)
      subst this
      have hh := h.head
      have e : utf8Char '\r'.toNat = [13] := by decide
      rw [e] at hlt ⊢
      have hi0 : i = 0 := by simpa using hlt
      subst hi0
      have := (utf8_head t (d := '\n') (b := 10) (by decide) (by decide)).mpr hh
      rw [List.head?_eq_getElem?] at this
      simpa using this
    · rw [List.getElem?_append_right (by omega)] at hi
      have := ih h.tail _ hi
      rw [List.getElem?_append_right (by omega), ← this]
      congr 1; omega

theorem utf16Len_bmp {t : List Char} (h : ∀ c ∈ t, c.toNat < 0x10000) : utf16Len t = t.length := by
  induction t with
  | nil => rfl
  | cons c t ih =>
    have := ih fun c hc => h c (by simp [hc])
    simp only [utf16Len] at this
    simp [utf16Len, h c (by simp), this]; omega

theorem utf8_ascii_length {t : List Char} (h : ∀ c ∈ t, c.toNat < 0x80) : (utf8 t).length = t.length := by
  induction t with
  | nil => rfl
  | cons c t ih =>
    rw [utf8_cons, utf8Char_ascii (h c (by simp)), List.length_append, ih fun c hc => h c (by simp [hc])]
    simp; omega

/-- C22 (partial: no lone CR, the line is ASCII before the position). The position the server reports
for an offset is the position the editor gives it. -/
theorem C22_reported_position_partial {t : List Char} {p : Pos} {pre post : List Char} (h : At t p pre post)
    (ht : NoLone '\r' '\n' t) (ha : ∀ c ∈ lastLine pre, c.toNat < 0x80) :
    (ofText (utf8 t)).positionAt (utf8 pre).length = some p := by
  have hls := line_start h ht
  obtain ⟨k, h1, h2, h3, h4⟩ := lineAt_spec (ofText (utf8 t)) (table_sorted _) (by rw [ofText_table]; rfl) (utf8 pre).length
  have hbl : breaks pre < (ofText (utf8 t)).lineOffsets.length := (List.getElem?_eq_some_iff.mp hls).1
  have hk : k = breaks pre := by
    rcases Nat.lt_trichotomy k (breaks pre) with hlt | he | hgt
    · have := h4 _ hlt hbl
      rw [List.getD_eq_getElem?_getD, hls] at this
      simp only [Option.getD_some] at this
      omega
    · exact he
    · exfalso
      have hget : (ofText (utf8 t)).lineOffsets[k]? = some ((ofText (utf8 t)).lineOffsets.getD k 0) := by
        rw [List.getD_eq_getElem?_getD, List.getElem?_eq_getElem h2]; rfl
      rw [table_split h, List.getElem?_append_right (by simp [scan_length]; omega)] at hget
      have := lineScan_gt _ _ (noLone_bytes (noLone_post h ht)) _ (List.mem_of_getElem? hget)
      rw [← table_split h] at this
      omega
  subst hk
  unfold Doc.positionAt
  simp only [h1]
  rw [if_neg (by omega), Int.toNat_natCast, hls]
  have : p = ⟨p.line, p.character⟩ := rfl
  rw [this, h.line, h.character, utf16Len_bmp fun c hc => by have := ha c hc; omega, ← utf8_ascii_length ha]
  simp only [Option.map_some]
  congr 2
  omega

/-- A position in the third line of a mixed text. -/
example : At "é\r\nb\nxyz".toList ⟨2, 2⟩ "é\r\nb\nxy".toList "z".toList :=
  ⟨by decide, by decide, by decide, by decide⟩
example : (ofText (utf8 "é\r\nb\nxyz".toList)).positionAt (utf8 "é\r\nb\nxy".toList).length = some ⟨2, 2⟩ := by decide +kernel

/-- Without "ASCII" the reported position is not the editor's: an `é` before the offset makes it one too
large. -/
theorem C22_false_reported_position : ¬ ∀ (t : List Char) (p : Pos) (pre post : List Char), At t p pre post →
    NoLone '\r' '\n' t → (ofText (utf8 t)).positionAt (utf8 pre).length = some p := by
  intro h
  have := h "éa".toList ⟨0, 1⟩ "é".toList "a".toList ⟨by decide, by decide, by decide, by decide⟩ (by
    intro i hi
    rcases i with _ | _ | i
    · revert hi; decide
    · revert hi; decide
    · simp at hi)
  exact absurd this (by decide +kernel)

/-! ### C23 -/

/-- The server finds the offset the editor means. -/
theorem offset_of_line {t : List Char} {p : Pos} {pre post : List Char} (h : At t p pre post)
    (ht : NoLone '\r' '\n' t) (hbmp : ∀ c ∈ lastLine pre, c.toNat < 0x10000) :
    (ofText (utf8 t)).offsetAtPosition p = some ((utf8 pre).length : Int) := by
  have hls := line_start h ht
  obtain ⟨q, hq⟩ := lastLine_suffix pre
  have hlen : (utf8 pre).length = (utf8 q).length + (utf8 (lastLine pre)).length := by
    conv_lhs => rw [hq]
    rw [utf8_append, List.length_append]
  have hbl : breaks pre < (ofText (utf8 t)).lineOffsets.length := (List.getElem?_eq_some_iff.mp hls).1
  have hline : (ofText (utf8 t)).offsetAtLine p.line = ((utf8 q).length : Int) := by
    unfold Doc.offsetAtLine
    rw [h.line]
    by_cases hz : breaks pre = 0
    · rw [if_pos (by omega)]
      rw [hz, ofText_table] at hls
      simp only [List.getElem?_cons_zero, Option.some.injEq] at hls
      omega
    · rw [if_neg (by omega), if_neg (by omega), Int.toNat_natCast, List.getD_eq_getElem?_getD, hls]
      simp only [Option.getD_some]
      omega
  unfold Doc.offsetAtPosition
  rw [hline, h.character, Int.toNat_natCast, utf16Len_bmp hbmp]
  have htext : (ofText (utf8 t)).text = utf8 q ++ utf8 (lastLine pre ++ post) := by
    show utf8 t = _
    rw [← utf8_append, h.split]
    conv_lhs => rw [hq]
    rw [List.append_assoc]
  rw [htext, skip_chars]
  simp only [Option.map_some]
  rw [← hlen]
  congr 1
  have : (utf8 pre).length ≤ (utf8 q ++ utf8 (lastLine pre ++ post)).length := by
    rw [List.length_append, utf8_append, List.length_append]; omega
  split <;> split <;> omega

theorem offset_of_position {t : List Char} {p : Pos} {pre post : List Char} (h : At t p pre post)
    (ht : NoLone '\r' '\n' t) (hb : ∀ c ∈ t, c.toNat < 0x10000) :
    (ofText (utf8 t)).offsetAtPosition p = some ((utf8 pre).length : Int) := by
  refine offset_of_line h ht fun c hc => hb c ?_
  obtain ⟨q, hq⟩ := lastLine_suffix pre
  rw [h.split, hq]
  simp [hc]

theorem noLone_append {a b : List Char} (ha : NoLone '\r' '\n' a) (hb : NoLone '\r' '\n' b) : NoLone '\r' '\n' (a ++ b) := by
  intro i hi
  by_cases hlt : i < a.length
  · rw [List.getElem?_append_left hlt] at hi
    have := ha i hi
    rw [List.getElem?_append_left (List.getElem?_eq_some_iff.mp this).1]
    exact this
  · rw [List.getElem?_append_right (by omega)] at hi
    have := hb _ hi
    rw [List.getElem?_append_right (by omega), ← this]
    congr 1; omega

/-- A text without lone CR does not end in CR. -/
theorem noLone_last {a : List Char} (ha : NoLone '\r' '\n' a) : a.getLast? ≠ some '\r' := by
  intro h
  rw [List.getLast?_eq_getElem?] at h
  have h1 := ha _ h
  have h2 := (List.getElem?_eq_some_iff.mp h).1
  have h3 := (List.getElem?_eq_some_iff.mp h1).1
  omega

theorem edit_step {t t' : List Char} {c : Change} (h : Edit t c t') (ht : NoLone '\r' '\n' t)
    (hb : ∀ c ∈ t, c.toNat < 0x10000) (d : Doc) (hd : d.text = utf8 t ∧ d.lineOffsets = (ofText (utf8 t)).lineOffsets)
    (hins : ∀ ins, c.text = utf8 ins → NoLone '\r' '\n' ins ∧ ∀ c ∈ ins, c.toNat < 0x10000) :
    (∃ d', d.applyChange c = some d' ∧ d'.text = utf8 t' ∧ d'.lineOffsets = (ofText (utf8 t')).lineOffsets) ∧
      NoLone '\r' '\n' t' ∧ ∀ c ∈ t', c.toNat < 0x10000 := by
  cases h with
  | full =>
    exact ⟨⟨_, rfl, rfl, rfl⟩, (hins _ rfl).1, (hins _ rfl).2⟩
  | incremental p q pre mid post ins hp hq =>
    obtain ⟨hi1, hi2⟩ := hins ins rfl
    have off : ∀ p', d.offsetAtPosition p' = (ofText (utf8 t)).offsetAtPosition p' := by
      intro p'
      simp only [Doc.offsetAtPosition, Doc.offsetAtLine, hd.1, hd.2]
      rfl
    have ho1 := offset_of_position hp ht hb
    have ho2 := offset_of_position hq ht hb
    have hpre := noLone_pre hp ht
    have hpost := noLone_post hq ht
    refine ⟨?_, noLone_append (noLone_append hpre hi1) hpost, ?_⟩
    · have hsplit := hp.split
      have htake : (utf8 t).take (utf8 pre).length = utf8 pre := by
        rw [hsplit, utf8_append, List.take_left]
      have hdrop : (utf8 t).drop (utf8 (pre ++ mid)).length = utf8 post := by
        have e := utf8_append (pre ++ mid) post
        rw [hq.split, e, List.drop_left]
      have htab1 := table_split hp
      have htab2 := table_split hq
      have hl1 : (0 :: lineScan (utf8 pre) 0).length = breaks pre + 1 := by simp [scan_length]
      have hl2 : (0 :: lineScan (utf8 (pre ++ mid)) 0).length = breaks (pre ++ mid) + 1 := by simp [scan_length]
      have htl : (ofText (utf8 t)).lineOffsets.take (breaks pre + 1) = 0 :: lineScan (utf8 pre) 0 := by
        rw [htab1, ← hl1, List.take_left]
      have hdl : (ofText (utf8 t)).lineOffsets.drop (breaks (pre ++ mid) + 1) =
          lineScan (utf8 post) (utf8 (pre ++ mid)).length := by
        rw [htab2, ← hl2, List.drop_left]
      have hnew : (ofText (utf8 (pre ++ ins ++ post))).lineOffsets =
          (0 :: lineScan (utf8 pre) 0) ++ lineScan (utf8 ins) (utf8 pre).length ++
            lineScan (utf8 post) ((utf8 pre).length + (utf8 ins).length) := by
        rw [ofText_table, utf8_append, lineScan_append _ _ _ (whole_bytes fun h => noLone_last (noLone_append hpre hi1) h.1),
          utf8_append, lineScan_append _ _ _ (whole_bytes fun h => noLone_last hpre h.1)]
        simp
      have hge : breaks pre + 1 ≤ (ofText (utf8 t)).lineOffsets.length := by rw [htab1, List.length_append]; omega
      have htl' : (calculateLineOffsets (utf8 ins) (utf8 pre).length).1.tail = lineScan (utf8 ins) (utf8 pre).length := by
        rw [table_eq]; rfl
      have hlq : (utf8 (pre ++ mid)).length = (utf8 pre).length + (utf8 mid).length := by
        rw [utf8_append, List.length_append]
      unfold Doc.applyChange
      simp only [off, ho1, ho2, hd.1, hd.2, Option.bind_eq_bind, Option.bind_some, Int.toNat_natCast, htake, hdrop,
        hp.line, hq.line]
      have hm : ¬ ((breaks pre : Int) + 1 > ((ofText (utf8 t)).lineOffsets.length : Int)) := by omega
      have hm2 : ¬ ((breaks pre : Int) + 1 < 0) := by omega
      simp only [if_neg hm, if_neg hm2]
      have e1 : ((breaks pre : Int) + 1).toNat = breaks pre + 1 := by omega
      have e2 : ((breaks (pre ++ mid) : Int) + 1).toNat = breaks (pre ++ mid) + 1 := by omega
      rw [e1, e2, htl, htl', hdl]
      split
      · rw [if_neg (by omega)]
        refine ⟨_, rfl, by simp only [utf8_append], ?_⟩
        rw [hnew]
        dsimp only
        rw [lineScan_shift _ _ _ ((utf8 pre).length + (utf8 ins).length) (by omega)]
      · refine ⟨_, rfl, by simp only [utf8_append], ?_⟩
        rw [hnew]
        dsimp only
        have : lineScan (utf8 post) ((utf8 pre).length + (utf8 ins).length) = [] := by
          apply List.length_eq_zero_iff.mp
          have h1 : (lineScan (utf8 post) ((utf8 pre).length + (utf8 ins).length)).length =
              (lineScan (utf8 post) (utf8 (pre ++ mid)).length).length := by
            rw [scan_length, scan_length]
          rw [h1, ← hdl, List.length_drop]
          omega
        rw [this, List.append_nil]
    · intro c hc
      simp only [List.mem_append] at hc
      rcases hc with (hc | hc) | hc
      · exact hb c (by rw [hp.split]; simp [hc])
      · exact hi2 c hc
      · exact hb c (by rw [hq.split]; simp [hc])

/-- A text the server handles: no lone CR, and no character outside the Basic Multilingual Plane. -/
def Plain (t : List Char) : Prop := NoLone '\r' '\n' t ∧ ∀ c ∈ t, c.toNat < 0x10000

/-- The full claim: after any changes the server has the editor's text and the line table that text
would get afresh. -/
def MirrorsEditor (ok : List Char → Prop) : Prop :=
  ∀ (t t' : List Char) (cs : List Change), Edits t cs t' → ok t →
    (∀ c ∈ cs, ∀ ins, c.text = utf8 ins → ok ins) →
    ∃ d, (ofText (utf8 t)).applyChanges cs = some d ∧ d.text = utf8 t' ∧
      d.lineOffsets = (ofText (utf8 t')).lineOffsets

/-- C23 (partial: no lone CR, no characters beyond U+FFFF, in the text and in what is inserted). After
any sequence of full and incremental changes the server's text is the editor's text and its line table
is the one computed afresh. -/
theorem C23_mirrors_editor_partial : MirrorsEditor Plain := by
  intro t t' cs hs
  have key : ∀ (t : List Char) (cs : List Change) (t' : List Char), Edits t cs t' → Plain t →
      (∀ c ∈ cs, ∀ ins, c.text = utf8 ins → Plain ins) → ∀ d : Doc,
      (d.text = utf8 t ∧ d.lineOffsets = (ofText (utf8 t)).lineOffsets) →
      ∃ d', d.applyChanges cs = some d' ∧ d'.text = utf8 t' ∧ d'.lineOffsets = (ofText (utf8 t')).lineOffsets := by
    intro t cs t' hs
    induction hs with
    | nil t => intro _ _ d hd; exact ⟨d, rfl, hd.1, hd.2⟩
    | cons h hs ih =>
      intro ht hc d hd
      obtain ⟨⟨d', h1, h2, h3⟩, h4, h5⟩ := edit_step h ht.1 ht.2 d hd fun ins hi => hc _ (by simp) ins hi
      obtain ⟨d'', h6⟩ := ih ⟨h4, h5⟩ (fun c hc' => hc c (by simp [hc'])) d' ⟨h2, h3⟩
      exact ⟨d'', by simp only [Doc.applyChanges, h1, Option.bind_some]; exact h6.1, h6.2⟩
  intro ht hc
  exact key t cs t' hs ht hc _ ⟨rfl, rfl⟩

/-- Replace `b\r\né` by `x\ny` in `ab\r\néc`, then everything. -/
example : Edits "ab\r\néc".toList [⟨some (⟨0, 1⟩, ⟨1, 1⟩), utf8 "x\ny".toList⟩, ⟨none, utf8 "z".toList⟩] "z".toList :=
  .cons (.incremental _ _ _ "a".toList "b\r\né".toList "c".toList "x\ny".toList
    ⟨by decide, by decide, by decide, by decide⟩ ⟨by decide, by decide, by decide, by decide⟩)
    (.cons (.full _ _) (.nil _))

theorem noLone_of_not_mem {t : List Char} (h : '\r' ∉ t) : NoLone '\r' '\n' t :=
  fun _ hi => absurd (List.mem_of_getElem? hi) h

/-- Beyond U+FFFF the server miscounts: the editor counts such a character as two. -/
theorem C23_false_astral : ¬ MirrorsEditor (NoLone '\r' '\n') := by
  intro h
  have := h "😀ab".toList "😀b".toList [⟨some (⟨0, 2⟩, ⟨0, 3⟩), utf8 []⟩]
    (.cons (.incremental _ _ _ "😀".toList "a".toList "b".toList []
      ⟨by decide, by decide, by decide, by decide⟩ ⟨by decide, by decide, by decide, by decide⟩) (.nil _))
    (noLone_of_not_mem (by decide)) (by
      intro c hc ins hi
      simp only [List.mem_singleton] at hc
      subst hc
      cases ins with
      | nil => intro i hi; simp at hi
      | cons x xs =>
        have := congrArg List.length hi
        rw [utf8_cons, List.length_append] at this
        have h0 := List.length_pos_iff.mpr (utf8Char_ne_nil x.toNat)
        simp [utf8] at this
        omega)
  obtain ⟨d, h1, h2, -⟩ := this
  have e : ((ofText (utf8 "😀ab".toList)).applyChanges [⟨some (⟨0, 2⟩, ⟨0, 3⟩), utf8 []⟩]).map Doc.text =
      some (utf8 "😀a".toList) := by decide +kernel
  rw [h1] at e
  simp only [Option.map_some, Option.some.injEq] at e
  rw [h2] at e
  revert e
  decide +kernel

/-- With lone CR line breaks the server edits the wrong place. -/
theorem C23_false_lone_cr : ¬ MirrorsEditor (fun t => ∀ c ∈ t, c.toNat < 0x80) := by
  intro h
  have := h "a\rbc".toList "a\rbxc".toList [⟨some (⟨1, 1⟩, ⟨1, 1⟩), utf8 "x".toList⟩]
    (.cons (.incremental _ _ _ "a\rb".toList [] "c".toList "x".toList
      ⟨by decide, by decide, by decide, by decide⟩ ⟨by decide, by decide, by decide, by decide⟩) (.nil _))
    (by decide) (by
      intro c hc ins hi x hx
      simp only [List.mem_singleton] at hc
      subst hc
      obtain ⟨a, b, rfl⟩ := List.append_of_mem hx
      dsimp only at hi
      rw [utf8_append, utf8_cons] at hi
      have hl := congrArg List.length hi
      have h0 := List.length_pos_iff.mpr (utf8Char_ne_nil x.toNat)
      simp only [List.length_append] at hl
      have e1 : (utf8 "x".toList).length = 1 := by decide
      rw [e1] at hl
      have ha : utf8 a = [] := List.length_eq_zero_iff.mp (by omega)
      have hb : utf8 b = [] := List.length_eq_zero_iff.mp (by omega)
      rw [ha, hb, List.append_nil, List.nil_append] at hi
      by_contra hge
      have hm : (120 : UInt8) ∈ utf8Char x.toNat := by rw [← hi]; decide
      rcases utf8Char_bytes x _ hm with ⟨-, h2⟩ | h2
      · exact hge h2
      · revert h2; decide)
  obtain ⟨d, h1, h2, -⟩ := this
  have e : ((ofText (utf8 "a\rbc".toList)).applyChanges [⟨some (⟨1, 1⟩, ⟨1, 1⟩), utf8 "x".toList⟩]).map Doc.text =
      some (utf8 "a\rxbc".toList) := by decide +kernel
  rw [h1] at e
  simp only [Option.map_some, Option.some.injEq] at e
  rw [h2] at e
  revert e
  decide +kernel

/-- A change whose range ends on the line after the last one, as editors send to replace a whole text, leaves the last
line in place, unless the text ends in a line break. -/
theorem C23_false_past_end : ¬ ∀ (text new : Bytes) (n : Nat), n = (ofText text).lineOffsets.length →
    ((ofText text).applyChange ⟨some (⟨0, 0⟩, ⟨n, 0⟩), new⟩).map Doc.text = some new := by
  intro h
  have := h b!"a\nb" b!"x" 2 (by decide +kernel)
  revert this
  decide +kernel

end Verif.Document
