import Verif.Tokeniser.Model
import Verif.Store.PropsNamespaces

/-! Properties C17 and C52: splitting names into words. -/

namespace Verif.Tokeniser

/-! ### offsets of runes -/

/-- The offsets increase, start at `lo` or later and stay below `len`. -/
def Offs {κ} (len : Nat) : Nat → List (Nat × κ) → Prop
  | _, [] => True
  | lo, (i, _) :: rs => lo ≤ i ∧ i < len ∧ Offs len (i + 1) rs

theorem Offs.weaken {κ} {len lo lo' : Nat} {rs : List (Nat × κ)} (h : Offs len lo rs) (hl : lo' ≤ lo) : Offs len lo' rs := by
  cases rs with
  | nil => trivial
  | cons r rs => exact ⟨Nat.le_trans hl h.1, h.2⟩

theorem runesFrom_offs (s : Bytes) (off : Nat) : Offs (off + s.length) off (runesFrom off s) := by
  induction hn : s.length using Nat.strongRecOn generalizing s off with
  | ind n ih =>
    cases s with
    | nil => unfold runesFrom; trivial
    | cons c cs =>
      unfold runesFrom
      subst hn
      refine ⟨Nat.le_refl _, by simp, ?_⟩
      have hs := (decodeRune_size (c :: cs) (by simp))
      have hm : max 1 (decodeRune (c :: cs)).2 = (decodeRune (c :: cs)).2 := by omega
      rw [hm]
      have := ih ((c :: cs).drop (decodeRune (c :: cs)).2).length (by
        simp only [List.length_drop]; simp only [List.length_cons] at hs ⊢; omega) _
        (off + (decodeRune (c :: cs)).2) rfl
      have hl : off + (decodeRune (c :: cs)).2 + ((c :: cs).drop (decodeRune (c :: cs)).2).length = off + (c :: cs).length := by
        simp only [List.length_drop]; omega
      rw [hl] at this
      exact this.weaken (by omega)

theorem Offs.map {κ κ'} {len lo : Nat} {rs : List (Nat × κ)} (f : κ → κ') (h : Offs len lo rs) :
    Offs len lo (rs.map fun p => (p.1, f p.2)) := by
  induction rs generalizing lo with
  | nil => trivial
  | cons r rs ih => exact ⟨h.1, h.2.1, ih h.2.2⟩

theorem Offs.append {κ} {len lo : Nat} {a b : List (Nat × κ)} (h : Offs len lo (a ++ b)) :
    ∃ lo', lo ≤ lo' ∧ Offs len lo' b ∧ ∀ p ∈ a, p.1 < lo' := by
  induction a generalizing lo with
  | nil => exact ⟨lo, Nat.le_refl _, h, by simp⟩
  | cons r a ih =>
    obtain ⟨lo', h1, h2, h3⟩ := ih h.2.2
    refine ⟨lo', by have := h.1; omega, h2, ?_⟩
    intro p hp
    rcases List.mem_cons.mp hp with rfl | hp
    · have : p.1 + 1 ≤ lo' := h1
      omega
    · exact h3 p hp

/-! ### slices -/

theorem slice_some {name : Bytes} {a b : Nat} (h : a ≤ b) (h' : b ≤ name.length) :
    slice name a b = some ((name.take b).drop a) := if_pos ⟨h, h'⟩

theorem slice_infix {name w : Bytes} {a b : Nat} (h : slice name a b = some w) : w <:+: name := by
  unfold slice at h
  split at h
  · cases h
    exact (List.drop_suffix _ _).isInfix.trans (List.take_prefix _ _).isInfix
  · cases h

theorem slice_prefix {name : Bytes} {a b : Nat} (h : a < b) (h' : b ≤ name.length) :
    (name.take b).drop a ≠ [] ∧ (name.take b).drop a <+: name.drop a := by
  constructor
  · intro e
    have := congrArg List.length e
    simp only [List.length_drop, List.length_take, List.length_nil] at this
    omega
  · rw [List.drop_take]
    exact List.take_prefix _ _

/-! ### every word is a part of the name -/

theorem step_words {name : Bytes} {st st' : St} {ir : Nat × RK} (h : step name st ir = some st')
    (hw : ∀ w ∈ st.words, w <:+: name) : ∀ w ∈ st'.words, w <:+: name := by
  obtain ⟨i, r⟩ := ir
  have happ : ∀ (st : St) (w : Bytes), (∀ w ∈ st.words, w <:+: name) → w <:+: name →
      ∀ w' ∈ (st.append w).words, w' <:+: name := by
    intro st w h1 h2 w' hw'
    unfold St.append at hw'
    split at hw'
    · exact h1 _ hw'
    · simp only [List.mem_append, List.mem_singleton] at hw'
      rcases hw' with hw' | rfl
      · exact h1 _ hw'
      · exact h2
  cases r with
  | under =>
    simp only [step] at h
    split at h
    · cases hs : slice name st.start (st.lastTokenIndex + 1) with
      | none => rw [hs] at h; cases h
      | some w =>
        rw [hs] at h
        cases h
        intro w' hw'
        simp only [List.mem_append, List.mem_singleton] at hw'
        rcases hw' with hw' | rfl
        · exact hw _ hw'
        · exact slice_infix hs
    · cases h; exact hw
  | err =>
    simp only [step] at h
    generalize hst : (if st.mark = true then
      { words := st.words, lastClass := st.lastClass, start := i, prev := st.prev, lastTokenIndex := i, mark := false }
      else { words := st.words, lastClass := st.lastClass, start := st.start, prev := st.prev, lastTokenIndex := i,
             mark := st.mark } : St) = st1 at h
    have hw1 : ∀ w ∈ st1.words, w <:+: name := by
      rw [← hst]; split <;> exact hw
    obtain ⟨st2, h3, rfl⟩ := Option.map_eq_some_iff.mp h
    show ∀ w ∈ st2.words, w <:+: name
    split at h3
    · cases hs : slice name st1.start i with
      | none => rw [hs] at h3; cases h3
      | some w =>
        rw [hs] at h3
        cases h3
        exact happ _ _ hw1 (slice_infix hs)
    · cases h3; exact hw1
  | cls c =>
    simp only [step] at h
    generalize hst : (if st.mark = true then
      { words := st.words, lastClass := st.lastClass, start := i, prev := st.prev, lastTokenIndex := i, mark := false }
      else { words := st.words, lastClass := st.lastClass, start := st.start, prev := st.prev, lastTokenIndex := i,
             mark := st.mark } : St) = st1 at h
    have hw1 : ∀ w ∈ st1.words, w <:+: name := by
      rw [← hst]; split <;> exact hw
    split at h
    · split at h
      · split at h
        · cases hs : slice name st1.start st1.prev with
          | none => rw [hs] at h; cases h
          | some w =>
            rw [hs] at h
            cases h
            exact happ _ _ hw1 (slice_infix hs)
        · cases h; exact hw1
      · cases hs : slice name st1.start i with
        | none => rw [hs] at h; cases h
        | some w =>
          rw [hs] at h
          cases h
          exact happ _ _ hw1 (slice_infix hs)
    · cases h; exact hw1

theorem loop_none (name : Bytes) (rs : List (Nat × RK)) : loop name none rs = none := by cases rs <;> rfl

@[simp] theorem append_start (st : St) (w : Bytes) : (st.append w).start = st.start := by unfold St.append; split <;> rfl
@[simp] theorem append_prev (st : St) (w : Bytes) : (st.append w).prev = st.prev := by unfold St.append; split <;> rfl
@[simp] theorem append_mark (st : St) (w : Bytes) : (st.append w).mark = st.mark := by unfold St.append; split <;> rfl
@[simp] theorem append_last (st : St) (w : Bytes) : (st.append w).lastTokenIndex = st.lastTokenIndex := by
  unfold St.append; split <;> rfl

theorem loop_words {name : Bytes} {rs : List (Nat × RK)} {st st' : St} (h : loop name (some st) rs = some st')
    (hw : ∀ w ∈ st.words, w <:+: name) : ∀ w ∈ st'.words, w <:+: name := by
  induction rs generalizing st with
  | nil => cases h; exact hw
  | cons r rs ih =>
    simp only [loop] at h
    cases hs : step name st r with
    | none => rw [hs, loop_none] at h; cases h
    | some st1 => rw [hs] at h; exact ih h (step_words hs hw)

theorem casing_words {u : Uni} {name : Bytes} {ws : List Bytes} (h : casing u name = some ws) : ∀ w ∈ ws, w <:+: name := by
  unfold casing at h
  obtain ⟨st, hl, rfl⟩ := Option.map_eq_some_iff.mp h
  have hw := loop_words hl (by simp)
  split
  · unfold St.append
    split
    · exact hw
    · intro w hm
      simp only [List.mem_append, List.mem_singleton] at hm
      rcases hm with hm | rfl
      · exact hw _ hm
      · exact (List.drop_suffix _ _).isInfix
  · exact hw

theorem mem_removeDup {seen ws : List Bytes} {w : Bytes} : w ∈ removeDup seen ws ↔ w ∈ ws ∧ w ∉ seen := by
  induction ws generalizing seen with
  | nil => simp [removeDup]
  | cons a ws ih =>
    simp only [removeDup]
    split
    · rename_i ha
      rw [ih, List.mem_cons]
      constructor
      · rintro ⟨h1, h2⟩; exact ⟨.inr h1, h2⟩
      · rintro ⟨rfl | h1, h2⟩
        · exact absurd ha h2
        · exact ⟨h1, h2⟩
    · rename_i ha
      rw [List.mem_cons, ih, List.mem_cons, List.mem_cons]
      constructor
      · rintro (rfl | ⟨h1, h2⟩)
        · exact ⟨.inl rfl, ha⟩
        · exact ⟨.inr h1, fun h => h2 (.inr h)⟩
      · rintro ⟨h1, h2⟩
        by_cases e : w = a
        · exact .inl e
        · exact .inr ⟨h1.resolve_left e, fun h => (h.elim e h2)⟩

theorem removeDup_nodup (seen ws : List Bytes) : (removeDup seen ws).Nodup := by
  induction ws generalizing seen with
  | nil => exact List.nodup_nil
  | cons a ws ih =>
    simp only [removeDup]
    split
    · exact ih _
    · refine List.nodup_cons.mpr ⟨?_, ih _⟩
      rw [mem_removeDup]; simp

theorem trimUnderscores_infix (name : Bytes) : trimUnderscores name <:+: name := by
  unfold trimUnderscores
  have h1 := List.dropWhile_suffix (fun c : UInt8 => c == 95) (l := name)
  have h2 := List.dropWhile_suffix (fun c : UInt8 => c == 95) (l := (name.dropWhile (fun c => c == 95)).reverse)
  rw [← List.reverse_prefix, List.reverse_reverse] at h2
  exact h2.isInfix.trans h1.isInfix

/-! ### names without undecodable bytes -/

/-- Invariant of the loop while no undecodable byte was met. -/
structure Good (lo : Nat) (st : St) : Prop where
  start : st.start ≤ st.prev
  prev : st.prev ≤ lo
  last : st.lastTokenIndex ≤ lo
  mark : st.mark = false

theorem step_good {name : Bytes} {lo i : Nat} {r : RK} {st : St} (g : Good lo st) (h1 : lo ≤ i) (h2 : i < name.length)
    (hr : r ≠ .err) : ∃ st', step name st (i, r) = some st' ∧ Good (i + 1) st' := by
  have := g.start; have := g.prev; have := g.last
  cases r with
  | err => exact absurd rfl hr
  | under =>
    simp only [step]
    split
    · rw [slice_some (by omega) (by omega)]
      exact ⟨_, rfl, by constructor <;> simp <;> first | omega | exact g.mark⟩
    · exact ⟨_, rfl, by constructor <;> simp <;> first | omega | exact g.mark⟩
  | cls c =>
    have hm := g.mark
    simp only [step, hm, Bool.false_eq_true, if_false]
    split
    · split
      · split
        · rw [slice_some (by omega) (by omega)]
          refine ⟨_, rfl, ?_⟩
          constructor <;> simp <;> omega
        · refine ⟨_, rfl, ?_⟩
          constructor <;> simp <;> omega
      · rw [slice_some (by omega) (by omega)]
        refine ⟨_, rfl, ?_⟩
        constructor <;> simp <;> omega
    · refine ⟨_, rfl, ?_⟩
      constructor <;> simp <;> omega

theorem loop_good {name : Bytes} {rs : List (Nat × RK)} {lo : Nat} {st : St} (g : Good lo st)
    (ho : Offs name.length lo rs) (hr : ∀ p ∈ rs, p.2 ≠ .err) :
    ∃ st' lo', loop name (some st) rs = some st' ∧ Good lo' st' := by
  induction rs generalizing lo st with
  | nil => exact ⟨st, lo, rfl, g⟩
  | cons r rs ih =>
    obtain ⟨i, r⟩ := r
    obtain ⟨st1, h1, g1⟩ := step_good g ho.1 ho.2.1 (hr (i, r) (by simp))
    simp only [loop, h1]
    exact ih g1 ho.2.2 fun p hp => hr p (by simp [hp])

/-- No byte of the name is undecodable (and there is no literal U+FFFD in it). -/
def ValidText (name : Bytes) : Prop := ∀ p ∈ runes name, p.2 ≠ runeError

theorem kindOf_err {u : Uni} {r : Nat} : kindOf u r = .err ↔ r = runeError := by
  unfold kindOf
  constructor
  · intro h
    split at h
    · cases h
    · split at h
      · assumption
      · split at h
        · cases h
        · split at h <;> cases h
  · rintro rfl
    simp [runeError]

theorem kinds_valid {u : Uni} {name : Bytes} (h : ValidText name) :
    ∀ p ∈ (runes name).map (fun p => (p.1, kindOf u p.2)), p.2 ≠ .err := by
  intro p hp
  obtain ⟨q, hq, rfl⟩ := List.mem_map.mp hp
  exact fun e => h q hq (kindOf_err.mp e)

theorem runes_offs (u : Uni) (name : Bytes) :
    Offs name.length 0 ((runes name).map fun p => (p.1, kindOf u p.2)) := by
  have := runesFrom_offs name 0
  rw [Nat.zero_add] at this
  exact this.map _

theorem init_good : Good 0 ⟨[], 0, 0, 0, 0, false⟩ := by constructor <;> simp

/-! ## C17 -/

/-- C17, first half: splitting a name of valid text never fails. Missing: names with undecodable bytes,
for which it can panic (`C17_false_panic`). -/
theorem C17_total_partial (u : Uni) (name : Bytes) (h : ValidText name) : ∃ ws, tokenise u name = some ws := by
  obtain ⟨st, lo, hl, -⟩ := loop_good init_good (runes_offs u name) (kinds_valid h)
  unfold tokenise casing
  rw [hl]
  exact ⟨_, rfl⟩

/-- C17, second half, for every byte string: the whole name comes first, there are no duplicates and
every word is a contiguous part of the name. -/
theorem C17_faithful (u : Uni) (name : Bytes) (ws : List Bytes) (h : tokenise u name = some ws) :
    ws.head? = some name ∧ ws.Nodup ∧ ∀ w ∈ ws, w <:+: name := by
  unfold tokenise at h
  obtain ⟨cs, hc, rfl⟩ := Option.map_eq_some_iff.mp h
  refine ⟨by simp [removeDup], removeDup_nodup _ _, fun w hw => ?_⟩
  rw [mem_removeDup] at hw
  have hw := hw.1
  simp only [List.cons_append, List.mem_cons, List.mem_append] at hw
  rcases hw with rfl | hw | hw
  · exact List.infix_refl _
  · split at hw
    · rw [List.mem_singleton] at hw; subst hw; exact trimUnderscores_infix name
    · simp at hw
  · exact casing_words hc w hw

/-- ASCII classification. -/
def asciiUni : Uni := ⟨fun r => 65 ≤ r && r ≤ 90, fun r => 48 ≤ r && r ≤ 57⟩

/-- A name of valid text (the example of the tests in `/repo`), and its words. -/
example : ValidText b!"SimpleXMLParser" ∧ tokenise asciiUni b!"SimpleXMLParser" =
    some [b!"SimpleXMLParser", b!"XML", b!"Parser"] := by
  unfold ValidText
  decide +kernel

/-- C17 is false for arbitrary bytes: an upper-case letter, an undecodable byte and a lower-case letter
make the splitter slice from 2 to 0. -/
theorem C17_false_panic (u : Uni) (hA : u.isUpper 65 = true) (hb : u.isUpper 98 = false) (hd : u.isDigit 98 = false) :
    tokenise u [65, 255, 98] = none := by
  have hr : runes [65, 255, 98] = [(0, 65), (1, 0xFFFD), (2, 98)] := by decide +kernel
  simp [tokenise, casing, hr, kindOf, runeError, hA, hb, hd, loop, step, slice]

/-- The assumptions that the search properties (C16, C48, C51) make about splitting into words hold of
the modelled splitter: it keeps NUL bytes and backslashes out, and a name is one of its own words. -/
theorem C17_meets_search_assumptions (u : Uni) (name : Bytes) (ws : List Bytes) (h : tokenise u name = some ws) :
    name ∈ ws ∧ ∀ c : UInt8, c ∉ name → ∀ w ∈ ws, c ∉ w := by
  obtain ⟨h1, -, h3⟩ := C17_faithful u name ws h
  exact ⟨List.mem_of_head? h1, fun c hc w hw hm => hc ((h3 w hw).subset hm)⟩

/-! ## C52 -/

theorem loop_append (name : Bytes) (st : Option St) (a b : List (Nat × RK)) :
    loop name st (a ++ b) = loop name (loop name st a) b := by
  induction a generalizing st with
  | nil => cases st <;> rfl
  | cons r a ih =>
    cases st with
    | none => cases b <;> rfl
    | some st => exact ih _

/-- A word that starts at offset `i` was found, or is being collected. -/
def Pending (name : Bytes) (i : Nat) (st : St) : Prop :=
  (∃ w ∈ st.words, w ≠ [] ∧ w <+: name.drop i) ∨ (st.start = i ∧ i < st.lastTokenIndex)

theorem append_mem {st : St} {w : Bytes} (h : st.start ≠ 0) : w ∈ (st.append w).words := by
  simp [St.append, h]

theorem append_mono {st : St} {w w' : Bytes} (h : w' ∈ st.words) : w' ∈ (st.append w).words := by
  unfold St.append
  split
  · exact h
  · simp [h]

/-- One more round keeps a pending word, and makes a fresh one pending. -/
theorem step_pending {name : Bytes} {lo i j : Nat} {r : RK} {st st' : St} (hi : 0 < i) (g : Good lo st) (h1 : lo ≤ j)
    (h2 : j < name.length) (hr : r ≠ .err) (hs : step name st (j, r) = some st')
    (hp : Pending name i st ∨ (st.start = i ∧ i < j ∧ r ≠ .under)) : Pending name i st' := by
  have := g.start; have := g.prev; have := g.last
  -- words found stay found
  have hkeep : (∃ w ∈ st.words, w ≠ [] ∧ w <+: name.drop i) → ∃ w ∈ st'.words, w ≠ [] ∧ w <+: name.drop i := by
    rintro ⟨w, hw, h⟩
    refine ⟨w, ?_, h⟩
    revert hs
    cases r with
    | err => exact absurd rfl hr
    | under =>
      simp only [step]
      split
      · rw [slice_some (by omega) (by omega)]
        rintro ⟨⟩
        simp [hw]
      · rintro ⟨⟩; exact hw
    | cls c =>
      have hm := g.mark
      simp only [step, hm, Bool.false_eq_true, if_false]
      split
      · split
        · split
          · rw [slice_some (by omega) (by omega)]
            rintro ⟨⟩
            exact append_mono hw
          · rintro ⟨⟩; exact hw
        · rw [slice_some (by omega) (by omega)]
          rintro ⟨⟩
          exact append_mono hw
      · rintro ⟨⟩; exact hw
  have hcur : st.start = i → (i < st.lastTokenIndex ∨ (i < j ∧ r ≠ .under)) → Pending name i st' := by
    intro hst hor
    revert hs
    cases r with
    | err => exact absurd rfl hr
    | under =>
      have hlt : i < st.lastTokenIndex := by
        rcases hor with h | ⟨-, h⟩
        · exact h
        · exact absurd rfl h
      simp only [step]
      rw [if_pos (by omega), slice_some (by omega) (by omega)]
      rintro ⟨⟩
      refine .inl ⟨_, List.mem_append.mpr (.inr (List.mem_singleton.mpr rfl)), ?_⟩
      rw [hst]
      exact slice_prefix (by omega) (by omega)
    | cls c =>
      have hij : i < j := by rcases hor with h | ⟨h, -⟩ <;> omega
      have hm := g.mark
      simp only [step, hm, Bool.false_eq_true, if_false]
      split
      · split
        · split
          · rename_i hne
            rw [slice_some (by omega) (by omega)]
            rintro ⟨⟩
            refine .inl ⟨_, append_mem (by simp only; omega), ?_⟩
            rw [hst]
            exact slice_prefix (by omega) (by omega)
          · rename_i hne
            rintro ⟨⟩
            exact .inr ⟨by simp only; omega, hij⟩
        · rw [slice_some (by omega) (by omega)]
          rintro ⟨⟩
          refine .inl ⟨_, append_mem (by simp only; omega), ?_⟩
          rw [hst]
          exact slice_prefix (by omega) (by omega)
      · rintro ⟨⟩
        exact .inr ⟨hst, hij⟩
  rcases hp with (hp | ⟨h3, h4⟩) | ⟨h3, h4, h5⟩
  · exact .inl (hkeep hp)
  · exact hcur h3 (.inl h4)
  · exact hcur h3 (.inr ⟨h4, h5⟩)

theorem loop_pending {name : Bytes} {rs : List (Nat × RK)} {lo i : Nat} {st : St} (hi : 0 < i) (g : Good lo st)
    (ho : Offs name.length lo rs) (hr : ∀ p ∈ rs, p.2 ≠ .err) (hp : Pending name i st) :
    ∃ st', loop name (some st) rs = some st' ∧ Pending name i st' := by
  induction rs generalizing lo st with
  | nil => exact ⟨st, rfl, hp⟩
  | cons r rs ih =>
    obtain ⟨j, r⟩ := r
    obtain ⟨st1, h1, g1⟩ := step_good g ho.1 ho.2.1 (hr (j, r) (by simp))
    have hp1 := step_pending hi g ho.1 ho.2.1 (hr (j, r) (by simp)) h1 (.inl hp)
    simp only [loop, h1]
    exact ih g1 ho.2.2 (fun p hp => hr p (by simp [hp])) hp1

/-- Once the loop starts a word at `i` and does not meet an underscore right after its first character,
`casing` returns a word that starts there. -/
theorem casing_start {u : Uni} {name : Bytes} (hv : ValidText name) {pre post : List (Nat × RK)} {i lo : Nat} {st : St}
    (hi : 0 < i) (hlen : i < name.length)
    (hrunes : ((runes name).map fun p => (p.1, kindOf u p.2)) = pre ++ post)
    (hl : loop name (some ⟨[], 0, 0, 0, 0, false⟩) pre = some st) (g : Good lo st) (ho : Offs name.length lo post)
    (hs : st.start = i) (hlo : i < lo) (hpost : ∀ p, post.head? = some p → p.2 ≠ .under) :
    ∃ ws, casing u name = some ws ∧ ∃ w ∈ ws, w ≠ [] ∧ w <+: name.drop i := by
  have herr := kinds_valid (u := u) hv
  rw [hrunes] at herr
  unfold casing
  rw [hrunes, loop_append, hl]
  have final : ∀ st : St, Pending name i st ∨ st.start = i →
      ∃ w ∈ (if st.start < name.length then (st.append (name.drop st.start)).words else st.words),
        w ≠ [] ∧ w <+: name.drop i := by
    intro st hp
    have hdrop : name.drop i ≠ [] := by
      intro e
      have := congrArg List.length e
      simp at this
      omega
    have hend : st.start = i → ∃ w ∈ (if st.start < name.length then (st.append (name.drop st.start)).words else st.words),
        w ≠ [] ∧ w <+: name.drop i := by
      intro e
      rw [if_pos (by omega)]
      exact ⟨_, append_mem (by omega), by rw [e]; exact ⟨hdrop, List.prefix_refl _⟩⟩
    rcases hp with (⟨w, hw, h⟩ | ⟨e, -⟩) | e
    · refine ⟨w, ?_, h⟩
      split
      · exact append_mono hw
      · exact hw
    · exact hend e
    · exact hend e
  cases post with
  | nil => exact ⟨_, rfl, final st (.inr hs)⟩
  | cons r rs =>
    obtain ⟨j, r⟩ := r
    have hre : r ≠ .err := herr (j, r) (by simp)
    have hlj : lo ≤ j := ho.1
    obtain ⟨st1, h1, g1⟩ := step_good g ho.1 ho.2.1 hre
    have hp1 := step_pending hi g ho.1 ho.2.1 hre h1 (.inr ⟨hs, by omega, hpost _ rfl⟩)
    obtain ⟨st2, h2, hp2⟩ := loop_pending hi g1 ho.2.2 (fun p hp => herr p (by simp [hp])) hp1
    simp only [loop, h1, h2]
    exact ⟨_, rfl, final st2 (.inl hp2)⟩

/-- The character at byte offset `i` begins a new part of the name: the character before it is an
underscore; or it is of another class (letters that are not upper case, upper-case letters, digits) than
the one before, except for a lower-case letter after an upper-case one; or it is the last of several
upper-case letters before a lower-case letter (as `P` in `XMLParser`). And it is not a lone character
before an underscore. -/
def PartStart (u : Uni) (name : Bytes) (i : Nat) : Prop :=
  ∃ pre i0 r0 r post, runes name = pre ++ (i0, r0) :: (i, r) :: post ∧ kindOf u r ≠ .under ∧
    (∀ j r', post.head? = some (j, r') → kindOf u r' ≠ .under) ∧
    (kindOf u r0 = .under ∨
      (kindOf u r0 ≠ kindOf u r ∧ ¬ (kindOf u r0 = .cls 2 ∧ kindOf u r = .cls 1)) ∨
      (kindOf u r0 = .cls 2 ∧ kindOf u r = .cls 2 ∧ ∃ j r', post.head? = some (j, r') ∧ kindOf u r' = .cls 1))

theorem decode_underscore {s : Bytes} (h : (decodeRune s).1 = 95) : (decodeRune s).2 ≤ 1 := by
  match s with
  | [] => simp [decodeRune]
  | [b0] => revert h; simp only [decodeRune]; repeat' split
            all_goals simp_all
  | [b0, b1] =>
    revert h; simp only [decodeRune]; repeat' split
    all_goals first | (intro h; simp; done) | (simp_all; done) | (simp_all; omega)
  | [b0, b1, b2] =>
    revert h; simp only [decodeRune]; repeat' split
    all_goals first | (intro h; simp; done) | (simp_all; done) | (simp_all; omega)
  | b0 :: b1 :: b2 :: b3 :: r =>
    revert h; simp only [decodeRune]; repeat' split
    all_goals first | (intro h; simp; done) | (simp_all; done) | (simp_all; omega)

theorem runes_next {s : Bytes} {off : Nat} {pre post : List (Nat × Nat)} {i0 i r : Nat}
    (h : runesFrom off s = pre ++ (i0, 95) :: (i, r) :: post) : i = i0 + 1 := by
  induction hn : s.length using Nat.strongRecOn generalizing s off pre with
  | ind n ih =>
    cases s with
    | nil => unfold runesFrom at h; simp at h
    | cons c cs =>
      have hd := decodeRune_size (c :: cs) (by simp)
      unfold runesFrom at h
      simp only at h
      cases pre with
      | cons p pre =>
        simp only [List.cons_append, List.cons.injEq] at h
        refine ih _ ?_ h.2 rfl
        subst hn
        simp only [List.length_drop, List.length_cons] at hd ⊢
        omega
      | nil =>
        simp only [List.nil_append, List.cons.injEq, Prod.mk.injEq] at h
        obtain ⟨⟨h1, h2⟩, h3⟩ := h
        have := decode_underscore h2
        cases hs : (c :: cs).drop (max 1 (decodeRune (c :: cs)).2) with
        | nil => rw [hs] at h3; unfold runesFrom at h3; simp at h3
        | cons c' cs' =>
          rw [hs] at h3
          unfold runesFrom at h3
          simp only [List.cons.injEq, Prod.mk.injEq] at h3
          have := h3.1.1
          omega

theorem kindOf_under {u : Uni} {r : Nat} : kindOf u r = .under ↔ r = 95 := by
  unfold kindOf
  constructor
  · intro h
    split at h
    · assumption
    · split at h
      · cases h
      · split at h
        · cases h
        · split at h <;> cases h
  · rintro rfl; simp

theorem kindOf_cls {u : Uni} {r : Nat} (h1 : kindOf u r ≠ .under) (h2 : kindOf u r ≠ .err) :
    ∃ c, kindOf u r = .cls c ∧ c ≠ 0 := by
  revert h1 h2
  unfold kindOf
  split
  · simp
  · split
    · simp
    · split
      · simp
      · split <;> simp

/-- C52: every part of a name is searchable: a word starts at every place where a part starts. -/
theorem C52_parts_are_words (u : Uni) (name : Bytes) (hv : ValidText name) (i : Nat) (hp : PartStart u name i) :
    ∃ ws, tokenise u name = some ws ∧ ∃ w ∈ ws, w ≠ [] ∧ w <+: name.drop i := by
  suffices h : ∃ ws, casing u name = some ws ∧ ∃ w ∈ ws, w ≠ [] ∧ w <+: name.drop i by
    obtain ⟨ws, h1, w, hw, h2⟩ := h
    unfold tokenise
    rw [h1]
    refine ⟨_, rfl, w, ?_, h2⟩
    rw [mem_removeDup]
    exact ⟨by simp [hw], by simp⟩
  obtain ⟨pre, i0, r0, r, post, hr, hru, hpost, hkind⟩ := hp
  have hk : (runes name).map (fun p => (p.1, kindOf u p.2)) =
      pre.map (fun p => (p.1, kindOf u p.2)) ++ (i0, kindOf u r0) :: (i, kindOf u r) ::
        post.map (fun p => (p.1, kindOf u p.2)) := by rw [hr]; simp
  have hoffs := runes_offs u name
  have herr := kinds_valid (u := u) hv
  rw [hk] at hoffs herr
  obtain ⟨lo, -, ho, -⟩ := hoffs.append
  have ho1 : lo ≤ i0 := ho.1
  have ho2 : i0 < name.length := ho.2.1
  have ho3 : i0 + 1 ≤ i := ho.2.2.1
  have ho4 : i < name.length := ho.2.2.2.1
  have ho5 : Offs name.length (i + 1) (post.map fun p => (p.1, kindOf u p.2)) := ho.2.2.2.2
  have hall := hoffs
  -- the loop up to i0
  have hpre : ∃ st, loop name (some ⟨[], 0, 0, 0, 0, false⟩) (pre.map fun p => (p.1, kindOf u p.2)) = some st ∧ Good i0 st := by
    have key : ∀ (a b : List (Nat × RK)) (lo : Nat) (st : St), Good lo st → ∀ j k, Offs name.length lo (a ++ (j, k) :: b) →
        (∀ p ∈ a, p.2 ≠ .err) → ∃ st', loop name (some st) a = some st' ∧ Good j st' := by
      intro a
      induction a with
      | nil =>
        intro b lo st g j k h _
        have := h.1; have := g.prev; have := g.last
        exact ⟨st, rfl, ⟨g.start, by omega, by omega, g.mark⟩⟩
      | cons x a ih =>
        intro b lo st g j k h he
        obtain ⟨j', x⟩ := x
        obtain ⟨st1, h1, g1⟩ := step_good g h.1 h.2.1 (he (j', x) (by simp))
        simp only [loop, h1]
        exact ih b _ st1 g1 j k h.2.2 fun p hp => he p (by simp [hp])
    exact key _ _ 0 _ init_good i0 (kindOf u r0) hoffs fun p hp => herr p (List.mem_append.mpr (.inl hp))
  obtain ⟨st, hl, g⟩ := hpre
  have hr0e : kindOf u r0 ≠ .err := herr (i0, kindOf u r0) (by simp)
  have hre : kindOf u r ≠ .err := herr (i, kindOf u r) (by simp)
  obtain ⟨c, hc, hc0⟩ := kindOf_cls hru hre
  obtain ⟨st1, hs1, g1⟩ := step_good g (Nat.le_refl _) ho2 hr0e
  obtain ⟨st2, hs2, g2⟩ := step_good g1 ho3 ho4 hre
  have hl2 : loop name (some ⟨[], 0, 0, 0, 0, false⟩)
      (pre.map (fun p => (p.1, kindOf u p.2)) ++ [(i0, kindOf u r0), (i, kindOf u r)]) = some st2 := by
    rw [loop_append, hl]
    simp only [loop, hs1, hs2]
  have hk2 : (runes name).map (fun p => (p.1, kindOf u p.2)) =
      (pre.map (fun p => (p.1, kindOf u p.2)) ++ [(i0, kindOf u r0), (i, kindOf u r)]) ++
        post.map (fun p => (p.1, kindOf u p.2)) := by rw [hk]; simp
  have hpu : ∀ p, (post.map fun p => (p.1, kindOf u p.2)).head? = some p → p.2 ≠ .under := by
    intro p hp
    rw [List.head?_map] at hp
    obtain ⟨⟨j, r'⟩, h1, rfl⟩ := Option.map_eq_some_iff.mp hp
    exact hpost j r' h1
  have conclude : st2.start = i → ∃ ws, casing u name = some ws ∧ ∃ w ∈ ws, w ≠ [] ∧ w <+: name.drop i := fun hs =>
    casing_start hv (by omega) ho4 hk2 hl2 g2 ho5 hs (by omega) hpu
  have hm1 := g1.mark
  rw [hc] at hs2
  rcases hkind with hu | ⟨hne, hn⟩ | ⟨hu, hu2, j, r', hj, hl1⟩
  · -- after an underscore
    have h95 := kindOf_under.mp hu
    subst h95
    have hi := runes_next (off := 0) hr
    apply conclude
    have hst1 : st1.start = i0 + 1 ∧ st1.lastClass = 0 := by
      rw [hu] at hs1
      simp only [step] at hs1
      obtain ⟨x, -, rfl⟩ := Option.map_eq_some_iff.mp hs1
      exact ⟨rfl, rfl⟩
    simp only [step, hm1, Bool.false_eq_true, if_false, hst1.2, ne_eq, not_true, false_and, Option.map_some,
      Option.some.injEq] at hs2
    rw [← hs2]
    simp only
    rw [hst1.1, hi]
  · -- a change of class
    by_cases hu : kindOf u r0 = .under
    · have h95 := kindOf_under.mp hu
      subst h95
      have hi := runes_next (off := 0) hr
      apply conclude
      have hst1 : st1.start = i0 + 1 ∧ st1.lastClass = 0 := by
        rw [hu] at hs1
        simp only [step] at hs1
        obtain ⟨x, -, rfl⟩ := Option.map_eq_some_iff.mp hs1
        exact ⟨rfl, rfl⟩
      simp only [step, hm1, Bool.false_eq_true, if_false, hst1.2, ne_eq, not_true, false_and, Option.map_some,
        Option.some.injEq] at hs2
      rw [← hs2]
      simp only
      rw [hst1.1, hi]
    · obtain ⟨c0, hc0', hc00⟩ := kindOf_cls hu hr0e
      rw [hc0', hc] at hne hn
      apply conclude
      have hst1 : st1.lastClass = c0 := by
        rw [hc0'] at hs1
        simp only [step] at hs1
        obtain ⟨x, -, rfl⟩ := Option.map_eq_some_iff.mp hs1
        rfl
      have hne' : c0 ≠ c := fun e => hne (by rw [e])
      have hn' : ¬ (c0 = 2 ∧ c = 1) := fun ⟨a, b⟩ => hn ⟨by rw [a], by rw [b]⟩
      simp only [step, hm1, Bool.false_eq_true, if_false, hst1] at hs2
      rw [if_pos ⟨hc00, hne'.symm⟩, if_neg hn'] at hs2
      obtain ⟨x, hx, rfl⟩ := Option.map_eq_some_iff.mp hs2
      obtain ⟨w, -, rfl⟩ := Option.map_eq_some_iff.mp hx
      rfl
  · -- the last upper-case letter before a lower-case one
    obtain ⟨post', rfl⟩ : ∃ post', post = (j, r') :: post' := by
      cases post with
      | nil => simp at hj
      | cons p post => simp only [List.head?_cons, Option.some.injEq] at hj; exact ⟨post, by rw [hj]⟩
    rw [hu2] at hc
    simp only [RK.cls.injEq] at hc
    have ho6 : i + 1 ≤ j := ho5.1
    have ho7 : j < name.length := ho5.2.1
    have ho8 : Offs name.length (j + 1) (post'.map fun p => (p.1, kindOf u p.2)) := ho5.2.2
    have hst1 : st1.lastClass = 2 := by
      rw [hu] at hs1
      simp only [step] at hs1
      obtain ⟨x, -, rfl⟩ := Option.map_eq_some_iff.mp hs1
      rfl
    have hst2 : st2.lastClass = 2 ∧ st2.prev = i := by
      simp only [step] at hs2
      obtain ⟨x, -, rfl⟩ := Option.map_eq_some_iff.mp hs2
      exact ⟨hc.symm, rfl⟩
    have hpe : kindOf u r' ≠ .err := by rw [hl1]; simp
    obtain ⟨st3, hs3, g3⟩ := step_good g2 ho6 ho7 hpe
    have hst3 : st3.start = i ∧ i < st3.lastTokenIndex := by
      have hm2 := g2.mark
      rw [hl1] at hs3
      simp only [step, hm2, Bool.false_eq_true, if_false, hst2.1, hst2.2] at hs3
      rw [if_pos (by decide), if_pos (by decide)] at hs3
      obtain ⟨x, hx, rfl⟩ := Option.map_eq_some_iff.mp hs3
      split at hx
      · obtain ⟨w, -, rfl⟩ := Option.map_eq_some_iff.mp hx
        simp; omega
      · cases hx; simp; omega
    obtain ⟨st4, hs4, hp4⟩ := loop_pending (i := i) (by omega) g3 ho8 (fun p hp => herr p (by
      rw [List.map_cons]
      exact List.mem_append.mpr (.inr (by simp only [List.mem_cons]; exact .inr (.inr (.inr hp)))))) (.inr hst3)
    unfold casing
    rw [hk2, loop_append, hl2]
    simp only [List.map_cons, loop, hs3, hs4]
    refine ⟨_, rfl, ?_⟩
    simp only
    rcases hp4 with ⟨w, hw, h⟩ | ⟨e, -⟩
    · refine ⟨w, ?_, h⟩
      split
      · exact append_mono hw
      · exact hw
    · rw [if_pos (by omega)]
      refine ⟨_, append_mem (by omega), ?_⟩
      rw [e]
      refine ⟨?_, List.prefix_refl _⟩
      intro e
      have := congrArg List.length e
      simp at this
      omega

/-- `P` starts a part of `XMLParser` and so does `x` of `my_xml`. -/
example : PartStart asciiUni b!"XMLParser" 3 ∧ PartStart asciiUni b!"my_xml" 3 :=
  ⟨⟨[(0, 88), (1, 77)], 2, 76, 80, [(4, 97), (5, 114), (6, 115), (7, 101), (8, 114)], by decide +kernel, by decide,
    by simp; decide, .inr (.inr ⟨by decide, by decide, 4, 97, rfl, by decide⟩)⟩,
   ⟨[(0, 109), (1, 121)], 2, 95, 120, [(4, 109), (5, 108)], by decide +kernel, by decide, by simp; decide, .inl (by decide)⟩⟩

/-! ## C51, negative -/

open Verif.Store in
/-- The demo environment with the modelled splitter. -/
def env : Store.Env := { Demo.env with tokenise := fun n => (tokenise asciiUni n).getD [] }

open Verif.Store in
/-- `class FooBar`, later renamed to `class Foobar` -/
def v1 : Doc := ⟨Demo.uA, b!"1", [Demo.cla Demo.uA b!"FooBar"], [], []⟩
open Verif.Store in
def v2 : Doc := ⟨Demo.uA, b!"2", [Demo.cla Demo.uA b!"Foobar"], [], []⟩

open Verif.Store in
/-- C51 is false for the words of the current name: after `FooBar` was renamed to `Foobar`, a search for
`bar` still returns it. -/
theorem C51_false_stale_word :
    ∃ s c n, run env Demo.root [.index v1, .index v2] = some s ∧
      s.searchClasses env b!"bar" (fun _ => true) none 0 = some (⟨[c], n⟩, true) ∧
      c.name.original = b!"Foobar" ∧ ¬ Matches env b!"bar" c.name.original := by
  obtain ⟨s, h1, h2⟩ := Demo.observe (env := env) (root := Demo.root) (h := [.index v1, .index v2])
    (fun s => (s.searchClasses env b!"bar" (fun _ => true) none 0).map fun r => (r.1.results, r.1.count, r.2))
    (some ([⟨Demo.loc Demo.uA 1, Demo.loc Demo.uA 1, 0, [], Demo.ty b!"Foobar", Demo.ty b!"Base", [], [], none⟩], 0, true))
    (by decide +kernel)
  obtain ⟨⟨⟨r, n⟩, b⟩, hr, e⟩ := Option.map_eq_some_iff.mp h2
  simp only [Prod.mk.injEq] at e
  obtain ⟨rfl, rfl, rfl⟩ := e
  refine ⟨s, _, _, h1, hr, rfl, ?_⟩
  have hd : ¬ ∃ w ∈ env.tokenise b!"bar", ∃ t ∈ env.tokenise b!"Foobar", env.lower w <+: env.lower t := by decide +kernel
  exact hd

end Verif.Tokeniser
