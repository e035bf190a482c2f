import Verif.Uri.Model
import Verif.Uri.Spec
import Verif.Common.Tactics

/-! Lemmas about escaping and parsing of URIs. -/

namespace Verif.Uri

theorem forall_byte {P : UInt8 → Prop} (h : ∀ n < 256, P (UInt8.ofNat n)) (c : UInt8) : P c := by
  have := h c.toNat c.toNat_lt
  rwa [UInt8.ofNat_toNat] at this

theorem isAlnum_iff (c : UInt8) : isAlnum c = true ↔
    (97 ≤ c.toNat ∧ c.toNat ≤ 122) ∨ (65 ≤ c.toNat ∧ c.toNat ≤ 90) ∨ (48 ≤ c.toNat ∧ c.toNat ≤ 57) := by
  simp [isAlnum, or_assoc]

theorem unreserved_iff (c : UInt8) : unreserved c ↔ isAlnum c = true ∨ c ∈ b!"-_.~" := by
  rw [isAlnum_iff, unreserved]; tauto

/-- The characters that `net/url` leaves as they are in a path and an editor does not. -/
def kept (c : UInt8) : Prop := c ∈ b!"$&+,:;=@"

instance (c : UInt8) : Decidable (kept c) := by unfold kept; infer_instance

theorem percent_eq (c : UInt8) : percent c = [37, hexDigit (c.toNat / 16), hexDigit (c.toNat % 16)] := by
  refine forall_byte (P := fun c => percent c = [37, hexDigit (c.toNat / 16), hexDigit (c.toNat % 16)]) ?_ c
  decide +kernel

/-- What `QueryEscape` makes of a byte. -/
theorem query_byte (c : UInt8) : escapeByte .query c = if unreserved c then [c] else if c = 32 then [43] else percent c := by
  refine forall_byte (P := fun c => escapeByte .query c = if unreserved c then [c] else if c = 32 then [43] else percent c) ?_ c
  decide +kernel

theorem path_byte (c : UInt8) : escapeByte .path c = if kept c then [c] else editorByte c := by
  refine forall_byte (P := fun c => escapeByte .path c = if kept c then [c] else editorByte c) ?_ c
  decide +kernel

theorem editor_byte (c : UInt8) : editorByte c = if unreserved c ∨ c = 47 then [c] else percent c := by
  rw [percent_eq]; rfl

theorem unhex_hex : ∀ n < 16, unhex (hexDigit n) = some n := by decide

theorem unescape_percent (m : Mode) (c : UInt8) (s : Bytes) :
    unescape m (percent c ++ s) = (unescape m s).map (c :: ·) := by
  have h1 : c.toNat / 16 < 16 := by have := c.toNat_lt; omega
  have h2 : c.toNat % 16 < 16 := by omega
  rw [percent_eq]
  simp only [List.cons_append, List.nil_append, unescape, if_true, unhex_hex _ h1, unhex_hex _ h2]
  congr 2
  rw [show c.toNat / 16 * 16 + c.toNat % 16 = c.toNat by omega, UInt8.ofNat_toNat]

theorem unescape_plain (m : Mode) (c : UInt8) (s : Bytes) (h1 : c ≠ 37) (h2 : c ≠ 43 ∨ m ≠ .query) :
    unescape m (c :: s) = (unescape m s).map (c :: ·) := by
  have : ¬ (c = 43 ∧ m = .query) := by tauto
  rw [unescape.eq_def]
  simp only [h1, if_false, this]

theorem unescape_flatMap {m : Mode} {f g : UInt8 → Bytes} (q r : Bytes)
    (h : ∀ c ∈ q, ∀ s, unescape m (f c ++ s) = (unescape m s).map (g c ++ ·)) :
    unescape m (q.flatMap f ++ r) = (unescape m r).map (q.flatMap g ++ ·) := by
  induction q with
  | nil => simp
  | cons c q ih =>
    rw [List.flatMap_cons, List.append_assoc, h c (List.mem_cons_self ..), ih fun c hc => h c (List.mem_cons_of_mem _ hc),
      Option.map_map]
    simp [Function.comp_def]

theorem unreserved_ne {c : UInt8} (h : unreserved c) : c ≠ 37 ∧ c ≠ 43 ∧ c ≠ 32 ∧ c ≠ 47 ∧ c ≠ 63 ∧ c ≠ 35 ∧ c ≠ 58 := by
  refine ⟨?_, ?_, ?_, ?_, ?_, ?_, ?_⟩ <;> rintro rfl <;> revert h <;> decide

/-- Reading back what an editor writes. -/
theorem unescape_editorByte (m : Mode) (c : UInt8) (s : Bytes) :
    unescape m (editorByte c ++ s) = (unescape m s).map ([c] ++ ·) := by
  rw [editor_byte]
  split
  · next h =>
    have : c ≠ 37 ∧ c ≠ 43 := by
      rcases h with h | h
      · exact ⟨(unreserved_ne h).1, (unreserved_ne h).2.1⟩
      · subst h; decide
    exact unescape_plain m c s this.1 (.inl this.2)
  · exact unescape_percent m c s

theorem flatMap_single (q : Bytes) : (q.flatMap fun c => [c]) = q := by
  induction q with
  | nil => rfl
  | cons c q ih => rw [List.flatMap_cons, ih]; rfl

theorem unescape_editor (m : Mode) (q : Bytes) : unescape m (q.flatMap editorByte) = some q := by
  have := unescape_flatMap (m := m) (f := editorByte) (g := fun c => [c]) q [] fun c _ s => unescape_editorByte m c s
  rw [List.append_nil] at this
  rw [this]
  simp [unescape]

theorem unescape_none_plain {m : Mode} {s : Bytes} (h1 : 37 ∉ s) (h2 : 43 ∉ s ∨ m ≠ .query) : unescape m s = some s := by
  induction s with
  | nil => rfl
  | cons c s ih =>
    simp only [List.mem_cons, not_or] at h1 h2
    rw [unescape_plain m c s (Ne.symm h1.1) (h2.imp (fun h => Ne.symm h.1) id), ih h1.2 (h2.imp (·.2) id)]
    rfl

/-! ### Walking through a directory -/

/-- What `PathToURI` makes of a byte of the path. -/
def listedByte (c : UInt8) : Bytes := if c = 47 then [47] else escapeByte .query c

theorem join_split (q : Bytes) : joinB 47 ((splitB 47 q).map (escape .query)) = q.flatMap listedByte := by
  induction q with
  | nil => rfl
  | cons c q ih =>
    obtain ⟨p, ps, hp⟩ : ∃ p ps, splitB 47 q = p :: ps := by
      cases h : splitB 47 q with
      | nil => exact absurd h (splitB_ne_nil _ _)
      | cons p ps => exact ⟨p, ps, rfl⟩
    rw [List.flatMap_cons, ← ih]
    simp only [splitB, hp]
    by_cases h : c = 47
    · simp only [h, if_true, List.map_cons, listedByte]
      rfl
    · simp only [h, if_false, List.map_cons, listedByte]
      cases ps with
      | nil => simp [joinB, escape]
      | cons p' ps => simp [joinB, escape]

theorem split_head (q : Bytes) : ∃ ps, splitB 47 q = q.takeWhile (· ≠ 47) :: ps := by
  induction q with
  | nil => exact ⟨[], rfl⟩
  | cons c q ih =>
    obtain ⟨ps, h⟩ := ih
    by_cases hc : c = 47
    · exact ⟨splitB 47 q, by simp [splitB, hc]⟩
    · exact ⟨ps, by simp [splitB, hc, h]⟩

theorem trimSlashes_listed {q : Bytes} (h1 : q.head? ≠ some 47) (h2 : q.getLast? ≠ some 47) : trimSlashes (47 :: q) = q := by
  have e1 : ∀ l : Bytes, l.head? ≠ some 47 → l.dropWhile (· == 47) = l := by
    intro l hl
    cases l with
    | nil => rfl
    | cons c l =>
      rw [List.dropWhile_cons_of_neg]
      simpa using hl
  unfold trimSlashes
  rw [List.dropWhile_cons_of_pos (by simp), e1 q h1, e1 q.reverse (by rwa [List.head?_reverse]), List.reverse_reverse]

theorem replaceB_none {a b : UInt8} {s : Bytes} (h : a ∉ s) : replaceB a b s = s := by
  unfold replaceB
  conv => rhs; rw [← List.map_id s]
  exact List.map_congr_left fun c hc => by
    have : c ≠ a := fun e => h (e ▸ hc)
    simp [this]

theorem toBytes_file (r : Bytes) : Url.toBytes { scheme := b!"file", path := 47 :: r } = b!"file://" ++ escape .path (47 :: r) := by
  unfold Url.toBytes Url.escapedPath
  simp

theorem pathToURI_listed {q : Bytes} (h1 : q.head? ≠ some 47) (h2 : q.getLast? ≠ some 47)
    (h3 : (q.takeWhile (· ≠ 47)).getLast? ≠ some 58) (h4 : 92 ∉ q) :
    pathToURI (47 :: q) = b!"file://" ++ escape .path (47 :: q.flatMap listedByte) := by
  obtain ⟨ps, hp⟩ := split_head q
  unfold pathToURI
  rw [trimSlashes_listed h1 h2, replaceB_none h4]
  simp only [hp, if_neg h3]
  rw [toBytes_file, ← join_split, hp, List.map_cons]

/-- And what is left of it after one reading. -/
def onceByte (c : UInt8) : Bytes := if c = 32 then [32] else editorByte c

theorem escape_percent (c : UInt8) : escape .path (percent c) = 37 :: 50 :: 53 :: (percent c).tail := by
  refine forall_byte (P := fun c => escape .path (percent c) = 37 :: 50 :: 53 :: (percent c).tail) ?_ c
  decide +kernel

theorem unescape_25 (s : Bytes) : unescape .query (37 :: 50 :: 53 :: s) = (unescape .query s).map (37 :: ·) := by
  simp [unescape, unhex]

theorem percent_tail_plain (c : UInt8) : ∀ d ∈ (percent c).tail, d ≠ 37 ∧ d ≠ 43 := by
  refine forall_byte (P := fun c => ∀ d ∈ (percent c).tail, d ≠ 37 ∧ d ≠ 43) ?_ c
  decide +kernel

theorem unescape_plains (m : Mode) (l s : Bytes) (h : ∀ d ∈ l, d ≠ 37 ∧ d ≠ 43) :
    unescape m (l ++ s) = (unescape m s).map (l ++ ·) := by
  induction l with
  | nil => simp
  | cons c l ih =>
    have hc := h c (List.mem_cons_self ..)
    rw [List.cons_append, unescape_plain m c _ hc.1 (.inl hc.2), ih fun d hd => h d (List.mem_cons_of_mem _ hd),
      Option.map_map]
    rfl

theorem percent_cons (c : UInt8) : percent c = 37 :: (percent c).tail := rfl

theorem listed_once (c : UInt8) (s : Bytes) :
    unescape .query (escape .path (listedByte c) ++ s) = (unescape .query s).map (onceByte c ++ ·) := by
  unfold listedByte onceByte
  by_cases h47 : c = 47
  · subst h47
    simp only [if_true]
    rw [show escape .path [47] = [47] from by decide, show editorByte 47 = [47] from by decide]
    exact unescape_plain _ _ _ (by decide) (.inl (by decide))
  · simp only [h47, if_false]
    rw [query_byte, editor_byte]
    by_cases hu : unreserved c
    · have hn := unreserved_ne hu
      simp only [hu, if_true, hn.2.2.1, if_false, true_or]
      have : escape .path [c] = [c] := by
        have h := path_byte c
        rw [editor_byte, if_pos (Or.inl hu : unreserved c ∨ c = 47), ite_self] at h
        simp [escape, h]
      rw [this]
      exact unescape_plain _ _ _ hn.1 (.inl hn.2.1)
    · by_cases h32 : c = 32
      · subst h32
        simp only [hu, if_true, if_false]
        rw [show escape .path [43] = [43] from by decide]
        change unescape .query (43 :: s) = _
        rw [unescape.eq_def]
        simp
      · simp only [hu, h32, h47, if_false, or_self]
        rw [escape_percent, List.cons_append, List.cons_append, List.cons_append, unescape_25,
          unescape_plains _ _ _ (percent_tail_plain c), Option.map_map]
        rfl

theorem decode_listed_query (q : Bytes) : unescape .query (b!"file://" ++ escape .path (47 :: q.flatMap listedByte)) =
    some (b!"file://" ++ 47 :: q.flatMap onceByte) := by
  have e : escape .path (47 :: q.flatMap listedByte) = 47 :: q.flatMap fun c => escape .path (listedByte c) := by
    unfold escape
    rw [List.flatMap_cons, List.flatMap_assoc]
    rfl
  rw [e]
  have : ∀ s : Bytes, b!"file://" ++ 47 :: s = b!"file:///" ++ s := fun s => rfl
  rw [this, this, unescape_plains _ _ _ (by decide)]
  have := unescape_flatMap (m := .query) (f := fun c => escape .path (listedByte c)) (g := onceByte) q []
    fun c _ s => listed_once c s
  rw [List.append_nil] at this
  rw [this]
  simp [unescape]

/-! ### Parsing -/

theorem cut_none {sep : UInt8} {s : Bytes} (h : sep ∉ s) : cut sep s = (s, []) := by
  induction s with
  | nil => rfl
  | cons c s ih =>
    simp only [List.mem_cons, not_or] at h
    simp [cut, Ne.symm h.1, ih h.2]

theorem parse_file {via : Bool} {t : Bytes} (h1 : ∀ c ∈ t, isCtl c = false) (h2 : 63 ∉ t) :
    parse via (b!"file://" ++ 47 :: t) = Url.setPath { scheme := b!"file" } (47 :: t) := by
  have hc : (b!"file://" ++ 47 :: t).any isCtl = false := by
    rw [List.any_eq_false]
    intro c hc
    simp only [List.mem_append, List.mem_cons, List.not_mem_nil, or_false] at hc
    rcases hc with (rfl | rfl | rfl | rfl | rfl | rfl | rfl) | rfl | hc
    all_goals first | decide | skip
    rw [h1 c hc]; simp
  have hs : getScheme (b!"file://" ++ 47 :: t) 0 (b!"file://" ++ 47 :: t) = some (b!"file", b!"//" ++ 47 :: t) := by
    simp [getScheme]
  have hq : 63 ∉ b!"//" ++ 47 :: t := by simp [h2]
  have hl : (b!"//" ++ 47 :: t).getLast? ≠ some 63 := fun h => hq (List.mem_of_getLast? h)
  unfold parse
  rw [hc, hs]
  simp only [Bool.false_eq_true, if_false]
  rw [if_neg (by simp), if_neg (by simp)]
  simp only [hl, false_and, if_false, cut_none hq]
  rw [if_neg (by simp)]
  unfold parseRest
  rw [if_pos]
  · simp [asciiLower]
  · refine ⟨.inl ?_, by simp⟩
    simp [asciiLower]

theorem urlParse_file {t : Bytes} (h1 : ∀ c ∈ t, isCtl c = false) (h2 : 63 ∉ t) (h3 : 35 ∉ t) :
    urlParse (b!"file://" ++ 47 :: t) = Url.setPath { scheme := b!"file" } (47 :: t) := by
  unfold urlParse
  rw [cut_none (by simp [h3]), parse_file h1 h2]
  simp

theorem toBytes_setPath {p t : Bytes} (h : unescape .path (47 :: t) = some (47 :: p)) :
    (Url.setPath { scheme := b!"file" } (47 :: t)).map Url.toBytes =
      some (b!"file://" ++ if validEncoded .path (47 :: t) then 47 :: t else escape .path (47 :: p)) := by
  unfold Url.setPath
  rw [h, Option.map_some, Option.map_some]
  congr 1
  have key : ∀ u : Url, u.scheme = b!"file" → u.path = 47 :: p → u.opaq = [] → u.host = [] → u.forceQuery = false →
      u.rawQuery = [] → u.fragment = [] → u.toBytes = b!"file://" ++ u.escapedPath := by
    intro u h1 h2 h3 h4 h5 h6 h7
    unfold Url.toBytes
    simp [h1, h2, h3, h4, h5, h6, h7]
  rw [key _ rfl rfl rfl rfl rfl rfl rfl]
  congr 1
  unfold Url.escapedPath
  by_cases he : escape .path (47 :: p) = 47 :: t
  · simp only [he, if_true, ite_self]
    simp
  · simp only [he, if_false, h]
    by_cases hv : validEncoded .path (47 :: t) = true
    · simp [hv]
    · simp [hv]

end Verif.Uri
