import Verif.Rpc.StreamLemmas

/-! C33 (framing round trip) and C34 (malformed frames). -/

namespace Verif.Rpc

/-! ### C34 -/

/-- C34: `Read` returns the message `d` and leaves `rest` exactly if the bytes begin with a frame of `d` - lines
`name:value` of which the last content length is the number of bytes of `d`, every content length being a positive
number, then an empty line, then `d` - that is followed by `rest`. Everything else is an error. -/
theorem C34_read_iff (s d rest : Bytes) : read s = some (d, rest) ↔ Frame s d rest := by
  unfold read Frame
  constructor
  · intro h
    cases hr : readHeader s.length 0 s with
    | none => rw [hr] at h; cases h
    | some p =>
      obtain ⟨n, t⟩ := p
      rw [hr] at h
      dsimp only at h
      split at h
      · cases h
      · rename_i hn
        split at h
        · cases h
        · rename_i hlen
          simp only [Option.some.injEq, Prod.mk.injEq] at h
          obtain ⟨rfl, rfl⟩ := h
          obtain ⟨ls, blank, he, hg, hb, hbb, hlast⟩ := (readHeader_iff _ _ _ (Nat.le_refl _) _ _).mp hr
          rcases hlast with ⟨h0, -⟩ | ⟨pre, l, post, v, rfl, hf, hp, hl⟩
          · exact absurd h0 hn
          · refine ⟨_, blank, ?_, hg, hb, hbb, pre, l, post, v, rfl, hf, ?_, hl⟩
            · rw [List.append_assoc _ (t.take _), List.take_append_drop]; exact he
            · obtain ⟨-, nm, v', hf', hk⟩ := hg l (by simp)
              obtain ⟨rfl, rfl⟩ := field_unique hf hf'
              obtain ⟨k, hk1, hk2⟩ := hk rfl
              rw [hp] at hk1
              simp only [Option.some.injEq] at hk1
              rw [hp, List.length_take, Nat.min_eq_left (by omega)]
              congr 1
              omega
  · rintro ⟨ls, blank, he, hg, hb, hbb, hann⟩
    have hpos := announces_pos hann hg
    have hr : readHeader s.length 0 s = some ((d.length : Int), d ++ rest) := by
      rw [readHeader_iff _ _ _ (Nat.le_refl _)]
      exact ⟨ls, blank, by rw [he]; simp [List.append_assoc], hg, hb, hbb, Or.inr hann⟩
    rw [hr]
    dsimp only
    rw [if_neg (by omega), if_neg (by simp)]
    simp

/-- Reading does not depend on the number of turns as long as there are enough. -/
theorem readHeader_fuel (f f' : Nat) (len : Int) (s : Bytes) (h : s.length ≤ f) (h' : s.length ≤ f') :
    readHeader f len s = readHeader f' len s := by
  apply Option.ext
  rintro ⟨n, rest⟩
  exact (readHeader_iff f len s h n rest).trans (readHeader_iff f' len s h' n rest).symm

/-- Good header lines are consumed one after the other. -/
theorem readHeader_lines (ls : List Bytes) (hg : ∀ l ∈ ls, GoodLine l) (len : Int) :
    ∃ len', LastLen len ls len' ∧ ∀ s fuel, (List.flatten ls ++ s).length ≤ fuel →
      readHeader fuel len (List.flatten ls ++ s) = readHeader s.length len' s := by
  induction ls generalizing len with
  | nil =>
    refine ⟨len, Or.inl ⟨rfl, by simp⟩, fun s fuel h => ?_⟩
    exact readHeader_fuel _ _ _ _ (by simpa using h) (Nat.le_refl _)
  | cons l ls ih =>
    obtain ⟨hl, nm, v, hf, hk⟩ := hg l (by simp)
    obtain ⟨v0, hcut, hv0⟩ := (field_iff _ _ _).mp hf
    have hpos := line_ne_nil hl
    by_cases hname : nm = b!"Content-Length"
    · subst hname
      obtain ⟨k, hk1, hk2⟩ := hk rfl
      obtain ⟨len', h1, h2⟩ := ih (fun x hx => hg x (List.mem_cons_of_mem _ hx)) k
      refine ⟨len', (lastLen_cons_length hf hk1).mpr h1, fun s fuel h => ?_⟩
      simp only [List.flatten_cons, List.append_assoc, List.length_append] at h ⊢
      obtain ⟨f, rfl⟩ : ∃ f, fuel = f + 1 := ⟨fuel - 1, by omega⟩
      rw [readHeader_line f len l _ hl, if_neg (field_not_blank hf), hcut]
      dsimp only
      rw [if_pos rfl, ← hv0, hk1]
      dsimp only
      rw [if_neg (by omega)]
      exact h2 s f (by simp only [List.length_append]; omega)
    · obtain ⟨len', h1, h2⟩ := ih (fun x hx => hg x (List.mem_cons_of_mem _ hx)) len
      have hno : ∀ v, ¬ Field l b!"Content-Length" v := fun v hv => hname (field_unique hf hv).1
      refine ⟨len', (lastLen_cons_other hno).mpr h1, fun s fuel h => ?_⟩
      simp only [List.flatten_cons, List.append_assoc, List.length_append] at h ⊢
      obtain ⟨f, rfl⟩ : ∃ f, fuel = f + 1 := ⟨fuel - 1, by omega⟩
      rw [readHeader_line f len l _ hl, if_neg (field_not_blank hf), hcut]
      dsimp only
      rw [if_neg hname]
      exact h2 s f (by simp only [List.length_append]; omega)

/-- C34: a header line other than the content length has no effect, wherever it stands in the header. -/
theorem C34_unknown_header (ls : List Bytes) (l s : Bytes) (hg : ∀ x ∈ ls, GoodLine x) (hl : Line l)
    (name value : Bytes) (hf : Field l name value) (hn : name ≠ b!"Content-Length") :
    read (List.flatten ls ++ l ++ s) = read (List.flatten ls ++ s) := by
  obtain ⟨len', -, h2⟩ := readHeader_lines ls hg 0
  obtain ⟨v0, hcut, hv0⟩ := (field_iff _ _ _).mp hf
  have : readHeader (List.flatten ls ++ l ++ s).length 0 (List.flatten ls ++ l ++ s) =
      readHeader (List.flatten ls ++ s).length 0 (List.flatten ls ++ s) := by
    rw [List.append_assoc, h2 (l ++ s) _ (Nat.le_refl _), h2 s _ (Nat.le_refl _)]
    have hpos := line_ne_nil hl
    obtain ⟨f, hf'⟩ : ∃ f, (l ++ s).length = f + 1 :=
      ⟨(l ++ s).length - 1, by simp only [List.length_append]; omega⟩
    rw [hf', readHeader_line f len' l s hl, if_neg (field_not_blank hf), hcut]
    dsimp only
    rw [if_neg hn]
    exact readHeader_fuel _ _ _ _ (by simp only [List.length_append] at hf'; omega) (Nat.le_refl _)
  unfold read
  rw [this]

/-- C34: a header without content length is an error, whatever follows. -/
theorem C34_no_length (ls : List Bytes) (blank s : Bytes) (hg : ∀ x ∈ ls, GoodLine x) (hb : Line blank)
    (hbb : trimSpace blank = []) (hno : ∀ l ∈ ls, ∀ v, ¬ Field l b!"Content-Length" v) :
    read (List.flatten ls ++ blank ++ s) = none := by
  have : readHeader (List.flatten ls ++ blank ++ s).length 0 (List.flatten ls ++ blank ++ s) = some (0, s) := by
    rw [readHeader_iff _ _ _ (Nat.le_refl _)]
    exact ⟨ls, blank, rfl, hg, hb, hbb, Or.inl ⟨rfl, hno⟩⟩
  unfold read
  rw [this]
  rfl

/-- C34: a content length that is not a number, is zero or is negative is an error, whatever follows. -/
theorem C34_bad_length (ls : List Bytes) (l s : Bytes) (hg : ∀ x ∈ ls, GoodLine x) (hl : Line l) (value : Bytes)
    (hf : Field l b!"Content-Length" value) (hv : ∀ n : Int, parseInt32 value = some n → n ≤ 0) :
    read (List.flatten ls ++ l ++ s) = none := by
  obtain ⟨len', -, h2⟩ := readHeader_lines ls hg 0
  obtain ⟨v0, hcut, hv0⟩ := (field_iff _ _ _).mp hf
  have : readHeader (List.flatten ls ++ l ++ s).length 0 (List.flatten ls ++ l ++ s) = none := by
    rw [List.append_assoc, h2 (l ++ s) _ (Nat.le_refl _)]
    have hpos := line_ne_nil hl
    obtain ⟨f, hf'⟩ : ∃ f, (l ++ s).length = f + 1 :=
      ⟨(l ++ s).length - 1, by simp only [List.length_append]; omega⟩
    rw [hf', readHeader_line f len' l s hl, if_neg (field_not_blank hf), hcut]
    dsimp only
    rw [if_pos rfl, ← hv0]
    cases hp : parseInt32 value with
    | none => rfl
    | some n => dsimp only; rw [if_pos (hv n hp)]
  unfold read
  rw [this]

/-- C34: a header line without a colon is an error, whatever follows. -/
theorem C34_no_colon (ls : List Bytes) (l s : Bytes) (hg : ∀ x ∈ ls, GoodLine x) (hl : Line l)
    (hne : trimSpace l ≠ []) (hc : (58 : UInt8) ∉ trimSpace l) : read (List.flatten ls ++ l ++ s) = none := by
  obtain ⟨len', -, h2⟩ := readHeader_lines ls hg 0
  have : readHeader (List.flatten ls ++ l ++ s).length 0 (List.flatten ls ++ l ++ s) = none := by
    rw [List.append_assoc, h2 (l ++ s) _ (Nat.le_refl _)]
    have hpos := line_ne_nil hl
    obtain ⟨f, hf'⟩ : ∃ f, (l ++ s).length = f + 1 :=
      ⟨(l ++ s).length - 1, by simp only [List.length_append]; omega⟩
    rw [hf', readHeader_line f len' l s hl, if_neg hne, (cutColon_none _).mpr hc]
  unfold read
  rw [this]

/-- C34: fewer bytes than announced are an error. -/
theorem C34_short (ls : List Bytes) (blank s : Bytes) (n : Nat) (hg : ∀ x ∈ ls, GoodLine x) (hb : Line blank)
    (hbb : trimSpace blank = []) (ha : Announces ls n) (hs : s.length < n) :
    read (List.flatten ls ++ blank ++ s) = none := by
  have : readHeader (List.flatten ls ++ blank ++ s).length 0 (List.flatten ls ++ blank ++ s) = some ((n : Int), s) := by
    rw [readHeader_iff _ _ _ (Nat.le_refl _)]
    exact ⟨ls, blank, rfl, hg, hb, hbb, Or.inr ha⟩
  unfold read
  rw [this]
  dsimp only
  rw [if_neg (by omega), if_pos (by omega)]

/-- C34: what is left of a frame after the connection breaks anywhere inside it is an error. -/
theorem C34_truncated (s d p : Bytes) (h : read s = some (d, [])) (hp : p <+: s) (hne : p ≠ s) : read p = none := by
  cases hr : read p with
  | none => rfl
  | some q =>
    obtain ⟨e, rest⟩ := q
    obtain ⟨t, rfl⟩ := hp
    obtain ⟨ls, blank, he, hg, hb, hbb, ha⟩ := (C34_read_iff _ _ _).mp hr
    have h2 : read (p ++ t) = some (e, rest ++ t) := by
      rw [C34_read_iff]
      exact ⟨ls, blank, by rw [he]; simp [List.append_assoc], hg, hb, hbb, ha⟩
    rw [h] at h2
    simp only [Option.some.injEq, Prod.mk.injEq] at h2
    have : t = [] := by
      have := h2.2.symm
      simp only [List.append_eq_nil_iff] at this
      exact this.2
    subst this
    simp at hne

/-- C34: the numbers accepted as content length: an optional sign and digits, within 32 bits. -/
theorem C34_numeral (v : Bytes) (n : Int) :
    parseInt32 v = some n ↔ (-2147483648 ≤ n ∧ n ≤ 2147483647) ∧
      ∃ ds : Bytes, ds ≠ [] ∧ (∀ c ∈ ds, 48 ≤ c.toNat ∧ c.toNat ≤ 57) ∧
        (((v = ds ∨ v = b!"+" ++ ds) ∧ n = ((ds.foldl (fun n c => n * 10 + (c.toNat - 48)) 0 : Nat) : Int)) ∨
          (v = b!"-" ++ ds ∧ n = -((ds.foldl (fun n c => n * 10 + (c.toNat - 48)) 0 : Nat) : Int))) := by
  have hd : ∀ (t : Bytes) (k : Nat), parseDigits t = some k ↔
      t ≠ [] ∧ (∀ c ∈ t, 48 ≤ c.toNat ∧ c.toNat ≤ 57) ∧ k = t.foldl (fun n c => n * 10 + (c.toNat - 48)) 0 := by
    intro t k
    unfold parseDigits
    split
    · rename_i h
      rw [List.all_eq_true] at h
      simp only [Option.some.injEq]
      refine ⟨fun hk => ⟨h.1, fun c hc => by simpa using h.2 c hc, hk.symm⟩, fun hk => hk.2.2.symm⟩
    · rename_i h
      simp only [reduceCtorEq, false_iff]
      rintro ⟨h1, h2, -⟩
      refine h ⟨h1, ?_⟩
      rw [List.all_eq_true]
      intro c hc
      have := h2 c hc
      simp [this.1, this.2]
  have hsign : ∀ t : Bytes, ¬ (∀ c ∈ (43 : UInt8) :: t, 48 ≤ c.toNat ∧ c.toNat ≤ 57) := by
    intro t h; exact absurd (h 43 (by simp)).1 (by decide)
  have hsign' : ∀ t : Bytes, ¬ (∀ c ∈ (45 : UInt8) :: t, 48 ≤ c.toNat ∧ c.toNat ≤ 57) := by
    intro t h; exact absurd (h 45 (by simp)).1 (by decide)
  unfold parseInt32
  simp only [Option.filter_eq_some_iff, decide_eq_true_eq]
  constructor
  · rintro ⟨h, hr⟩
    refine ⟨hr, ?_⟩
    split at h
    · obtain ⟨k, hk, rfl⟩ := Option.map_eq_some_iff.mp h
      obtain ⟨h1, h2, rfl⟩ := (hd _ _).mp hk
      exact ⟨_, h1, h2, Or.inl ⟨Or.inr rfl, rfl⟩⟩
    · obtain ⟨k, hk, rfl⟩ := Option.map_eq_some_iff.mp h
      obtain ⟨h1, h2, rfl⟩ := (hd _ _).mp hk
      exact ⟨_, h1, h2, Or.inr ⟨rfl, rfl⟩⟩
    · obtain ⟨k, hk, rfl⟩ := Option.map_eq_some_iff.mp h
      obtain ⟨h1, h2, rfl⟩ := (hd _ _).mp hk
      exact ⟨_, h1, h2, Or.inl ⟨Or.inl rfl, rfl⟩⟩
  · rintro ⟨hr, ds, h1, h2, h⟩
    refine ⟨?_, hr⟩
    rcases h with ⟨rfl | rfl, rfl⟩ | ⟨rfl, rfl⟩
    · split
      · exact absurd h2 (hsign _)
      · exact absurd h2 (hsign' _)
      · rw [(hd _ _).mpr ⟨h1, h2, rfl⟩]; rfl
    · show (parseDigits ds).map _ = _
      rw [(hd _ _).mpr ⟨h1, h2, rfl⟩]; rfl
    · show (parseDigits ds).map _ = _
      rw [(hd _ _).mpr ⟨h1, h2, rfl⟩]; rfl

-- a frame with an unknown header, and what follows it
example : read (b!"X: y\r\nContent-Length:2\r\n\r\n{}abc") = some (b!"{}", b!"abc") := by decide +kernel
example : GoodLine b!"X: y\r\n" := ⟨⟨b!"X: y\r", by decide, by decide⟩, b!"X", b!"y",
  ⟨b!" y", by decide, by decide, by decide⟩, by decide⟩
example : read b!"Content-Length: 0\r\n\r\n" = none := by decide +kernel
example : read b!"Content-Length: -5\r\n\r\nhello" = none := by decide +kernel
example : read b!"Content-Length: x\r\n\r\nhello" = none := by decide +kernel
example : read b!"Content-Length: 9\r\n\r\nhello" = none := by decide +kernel
example : read b!"content-length: 5\r\n\r\nhello" = none := by decide +kernel
example : read b!"nonsense\r\nContent-Length: 5\r\n\r\nhello" = none := by decide +kernel

/-! ### C33 -/

/-- C33 (one message): what was written is read back, and reading stops exactly at its end. -/
theorem C33_one_partial (d rest : Bytes) (h : d ≠ []) (hl : d.length < 2 ^ 31) :
    read (write d ++ rest) = some (d, rest) := by
  have hpos : 0 < d.length := List.length_pos_iff.mpr h
  have hp : parseInt32 (natDigits d.length) = some (d.length : Int) := by
    rw [parseInt32_natDigits, if_pos (by omega)]
  rw [C34_read_iff]
  refine ⟨[lengthLine d.length], [13, 10], by rw [write_eq]; simp [List.append_assoc], ?_, crlf_line, crlf_blank,
    [], lengthLine d.length, [], natDigits d.length, rfl, lengthLine_field _, hp, by simp⟩
  intro l hm
  simp only [List.mem_singleton] at hm
  subst hm
  exact ⟨lengthLine_line _, _, _, lengthLine_field _, fun _ => ⟨_, hp, by omega⟩⟩

theorem read_nil : read [] = none := rfl

/-- C33: any sequence of non-empty messages, each shorter than 2 GiB, is read back as the same sequence, whatever
the bytes. -/
theorem C33_roundtrip_partial (ms : List Bytes) (h : ∀ m ∈ ms, m ≠ [] ∧ m.length < 2 ^ 31) (fuel : Nat)
    (hf : ms.length ≤ fuel) : readAll fuel (ms.map write).flatten = ms := by
  induction ms generalizing fuel with
  | nil =>
    cases fuel with
    | zero => rfl
    | succ n => rfl
  | cons m ms ih =>
    simp only [List.length_cons] at hf
    obtain ⟨f, rfl⟩ : ∃ f, fuel = f + 1 := ⟨fuel - 1, by omega⟩
    rw [List.map_cons, List.flatten_cons]
    simp only [readAll]
    rw [C33_one_partial m _ (h m (by simp)).1 (h m (by simp)).2]
    dsimp only
    rw [ih (fun x hx => h x (List.mem_cons_of_mem _ hx)) f (by omega)]

/-- C33: two sequences of messages that look the same on the wire are the same sequence. -/
theorem C33_unambiguous_partial (ms ms' : List Bytes) (h : ∀ m ∈ ms, m ≠ [] ∧ m.length < 2 ^ 31)
    (h' : ∀ m ∈ ms', m ≠ [] ∧ m.length < 2 ^ 31) (he : (ms.map write).flatten = (ms'.map write).flatten) :
    ms = ms' := by
  have h1 := C33_roundtrip_partial ms h (ms.length + ms'.length) (by omega)
  have h2 := C33_roundtrip_partial ms' h' (ms.length + ms'.length) (by omega)
  rw [← h1, he, h2]

/-- C33 does not hold for messages of 2 GiB and more: their announced length is refused and the connection ends. -/
theorem C33_false_large (d rest : Bytes) (hl : 2 ^ 31 ≤ d.length) : read (write d ++ rest) = none := by
  rw [write_eq, List.append_assoc]
  refine C34_bad_length [] _ _ (by simp) (lengthLine_line _) _ (lengthLine_field _) ?_
  intro n hn
  rw [parseInt32_natDigits, if_neg (by omega)] at hn
  cases hn

/-- The empty message cannot be sent. -/
theorem C33_false_empty (rest : Bytes) : read (write [] ++ rest) = none := by
  rw [write_eq, List.append_assoc]
  refine C34_bad_length [] _ _ (by simp) (lengthLine_line _) _ (lengthLine_field _) ?_
  intro n hn
  rw [parseInt32_natDigits, if_pos (by decide)] at hn
  simp only [List.length_nil, Option.some.injEq] at hn
  omega

-- payloads that look like headers
example : readAll 5 ([b!"Content-Length: 3\r\n\r\n", b!"\n", b!"{}\r\n\r\n"].map write).flatten =
    [b!"Content-Length: 3\r\n\r\n", b!"\n", b!"{}\r\n\r\n"] := C33_roundtrip_partial _ (by decide) 5 (by decide)
-- a message of 2 GiB exists
example : ∃ d : Bytes, d ≠ [] ∧ read (write d) = none := by
  obtain ⟨n, hn⟩ : ∃ n : Nat, 2 ^ 31 ≤ n := ⟨_, Nat.le_refl _⟩
  refine ⟨List.replicate n 0, ?_, ?_⟩
  · intro h
    have := congrArg List.length h
    rw [List.length_replicate, List.length_nil] at this
    omega
  · have := C33_false_large (List.replicate n 0) [] (by rw [List.length_replicate]; exact hn)
    rwa [List.append_nil] at this

end Verif.Rpc
