import Verif.Rpc.StreamSpec
import Verif.Common.Tactics

namespace Verif.Rpc

/-! ### spaces -/

theorem strip_of_none (ps : List Bytes) (n : Nat) (s : Bytes) (h : ∀ p ∈ ps, ¬ p <+: s) : strip ps n s = s := by
  cases n with
  | zero => rfl
  | succ n =>
    have : ps.find? (·.isPrefixOf s) = none := by
      rw [List.find?_eq_none]
      intro p hp hc
      exact h p hp (isPrefixOf_iff.mp hc)
    simp only [strip, this]

theorem strip_spec (ps : List Bytes) (hps : ∀ p ∈ ps, p ≠ []) (n : Nat) (s : Bytes) (hn : s.length ≤ n) :
    (∃ l : List Bytes, (∀ p ∈ l, p ∈ ps) ∧ s = l.flatten ++ strip ps n s) ∧ ∀ p ∈ ps, ¬ p <+: strip ps n s := by
  induction n generalizing s with
  | zero =>
    have : s = [] := List.length_eq_zero_iff.mp (by omega)
    subst this
    refine ⟨⟨[], by simp, rfl⟩, fun p hp h => hps p hp ?_⟩
    exact List.prefix_nil.mp h
  | succ n ih =>
    cases hf : ps.find? (·.isPrefixOf s) with
    | none =>
      have hs : strip ps (n + 1) s = s := by simp only [strip, hf]
      rw [hs]
      refine ⟨⟨[], by simp, rfl⟩, fun p hp h => ?_⟩
      rw [List.find?_eq_none] at hf
      exact hf p hp (isPrefixOf_iff.mpr h)
    | some p =>
      have hs : strip ps (n + 1) s = strip ps n (s.drop p.length) := by simp only [strip, hf]
      have hp := List.mem_of_find?_eq_some hf
      have hpre : p <+: s := isPrefixOf_iff.mp (by simpa using List.find?_some hf)
      obtain ⟨t, rfl⟩ := hpre
      have hlen : p.length ≠ 0 := fun h0 => hps p hp (List.length_eq_zero_iff.mp h0)
      simp only [List.length_append] at hn
      rw [hs, List.drop_left]
      obtain ⟨⟨l, hl, he⟩, h2⟩ := ih t (by omega)
      refine ⟨⟨p :: l, ?_, ?_⟩, h2⟩
      · intro q hq
        simp only [List.mem_cons] at hq
        rcases hq with rfl | hq
        · exact hp
        · exact hl q hq
      · rw [List.flatten_cons, List.append_assoc, ← he]

theorem spaces_head (p : Bytes) (hp : p ∈ spaces) :
    p ≠ [] ∧ (p.head?.all fun x => decide (x.toNat ≤ 32) || decide (128 ≤ x.toNat)) = true := by
  have : ∀ p ∈ spaces, p ≠ [] ∧ (p.head?.all fun x => decide (x.toNat ≤ 32) || decide (128 ≤ x.toNat)) = true := by
    decide
  exact this p hp

theorem spaces_last (p : Bytes) (hp : p ∈ spaces.map List.reverse) :
    p ≠ [] ∧ (p.head?.all fun x => decide (x.toNat ≤ 32) || decide (128 ≤ x.toNat)) = true := by
  have : ∀ p ∈ spaces.map List.reverse,
      p ≠ [] ∧ (p.head?.all fun x => decide (x.toNat ≤ 32) || decide (128 ≤ x.toNat)) = true := by
    decide
  exact this p hp

/-- A printable ASCII character. -/
def Graphic (c : UInt8) : Prop := 32 < c.toNat ∧ c.toNat < 128

theorem not_prefix_graphic {p : Bytes} (h : p ≠ [])
    (h2 : (p.head?.all fun x => decide (x.toNat ≤ 32) || decide (128 ≤ x.toNat)) = true)
    {c : UInt8} (hc : Graphic c) (t : Bytes) : ¬ p <+: c :: t := by
  intro hp
  cases p with
  | nil => exact h rfl
  | cons x xs =>
    rw [List.cons_prefix_cons] at hp
    obtain ⟨rfl, -⟩ := hp
    simp only [List.head?_cons, Option.all_some, Bool.or_eq_true, decide_eq_true_eq] at h2
    unfold Graphic at hc
    omega

theorem trimLeft_graphic {c : UInt8} (hc : Graphic c) (t : Bytes) : trimLeft (c :: t) = c :: t :=
  strip_of_none _ _ _ fun p hp => not_prefix_graphic (spaces_head p hp).1 (spaces_head p hp).2 hc t

theorem trimRight_graphic {c : UInt8} (hc : Graphic c) (t : Bytes) : trimRight (t ++ [c]) = t ++ [c] := by
  unfold trimRight
  rw [strip_of_none]
  · simp
  · intro p hp
    rw [List.reverse_append]
    exact not_prefix_graphic (spaces_last p hp).1 (spaces_last p hp).2 hc _

theorem trimLeft_space (t : Bytes) : trimLeft (32 :: t) = trimLeft t := by
  have : spaces.find? (·.isPrefixOf (32 :: t)) = some [32] := by
    simp [spaces, List.find?, List.isPrefixOf]
  show strip spaces (t.length + 1) (32 :: t) = _
  simp only [strip, this]
  rfl

theorem trimRight_crlf (t : Bytes) : trimRight (t ++ [13, 10]) = trimRight t := by
  have h1 : ∀ s : Bytes, (spaces.map List.reverse).find? (·.isPrefixOf (10 :: s)) = some [10] := by
    intro s; simp [spaces, List.find?, List.isPrefixOf]
  have h2 : ∀ s : Bytes, (spaces.map List.reverse).find? (·.isPrefixOf (13 :: s)) = some [13] := by
    intro s; simp [spaces, List.find?, List.isPrefixOf]
  unfold trimRight
  have : (t ++ [13, 10] : Bytes).reverse = 10 :: 13 :: t.reverse := by simp
  have hl : (t ++ [13, 10] : Bytes).length = t.length + 1 + 1 := by simp
  rw [this, hl]
  simp only [strip, h1, h2, List.length_cons, List.length_nil, List.drop_succ_cons, List.drop_zero]

/-- `strings.TrimSpace` takes spaces away on both sides, as many as there are, and nothing else. -/
theorem trimSpace_spec (s : Bytes) :
    (∃ a b, SpaceRun a ∧ SpaceRun b ∧ s = a ++ trimSpace s ++ b) ∧
      (∀ p ∈ spaces, ¬ p <+: trimSpace s ∧ ¬ p <:+ trimSpace s) := by
  obtain ⟨⟨l, hl, he⟩, h2⟩ := strip_spec spaces (fun p hp => (spaces_head p hp).1) s.length s (Nat.le_refl _)
  obtain ⟨⟨m, hm, he'⟩, h2'⟩ := strip_spec (spaces.map List.reverse) (fun p hp => (spaces_last p hp).1)
    (trimLeft s).length (trimLeft s).reverse (by simp)
  have hr : trimLeft s = trimSpace s ++ (m.reverse.map List.reverse).flatten := by
    have := congrArg List.reverse he'
    rw [List.reverse_reverse, List.reverse_append, List.reverse_flatten] at this
    rw [this]
    unfold trimSpace trimRight
    rw [List.map_reverse]
  refine ⟨⟨l.flatten, (m.reverse.map List.reverse).flatten, ⟨l, hl, rfl⟩, ⟨_, ?_, rfl⟩, ?_⟩, ?_⟩
  · intro p hp
    simp only [List.mem_map, List.mem_reverse] at hp
    obtain ⟨q, hq, rfl⟩ := hp
    have := hm q hq
    simp only [List.mem_map] at this
    obtain ⟨r, hr, rfl⟩ := this
    simpa using hr
  · rw [List.append_assoc, ← hr]
    exact he
  · intro p hp
    constructor
    · intro hc
      refine h2 p hp ?_
      show p <+: trimLeft s
      rw [hr]
      exact hc.trans (List.prefix_append _ _)
    · intro hc
      refine h2' p.reverse (List.mem_map_of_mem hp) ?_
      have : strip (spaces.map List.reverse) (trimLeft s).length (trimLeft s).reverse = (trimSpace s).reverse := by
        unfold trimSpace trimRight; rw [List.reverse_reverse]
      rw [this, List.reverse_prefix]
      exact hc

/-! ### lines and fields -/

theorem readString_iff (s l rest : Bytes) : readString s = some (l, rest) ↔ s = l ++ rest ∧ Line l := by
  induction s generalizing l with
  | nil =>
    simp only [readString, reduceCtorEq, false_iff, not_and]
    intro h hl
    obtain ⟨b, rfl, -⟩ := hl
    simp at h
  | cons c s ih =>
    simp only [readString]
    split
    · rename_i hc
      subst hc
      simp only [Option.some.injEq, Prod.mk.injEq]
      constructor
      · rintro ⟨rfl, rfl⟩
        exact ⟨rfl, [], rfl, by simp⟩
      · rintro ⟨he, b, rfl, hb⟩
        cases b with
        | nil => simpa using he
        | cons x b =>
          simp only [List.cons_append, List.cons.injEq] at he
          simp [he.1] at hb
    · rename_i hc
      simp only [Option.map_eq_some_iff, Prod.exists, Prod.mk.injEq]
      constructor
      · rintro ⟨a, b, h, rfl, rfl⟩
        obtain ⟨rfl, b', rfl, hb'⟩ := (ih a).mp h
        refine ⟨rfl, c :: b', rfl, ?_⟩
        simp only [List.mem_cons, not_or]
        exact ⟨fun h => hc h.symm, hb'⟩
      · rintro ⟨he, b, rfl, hb⟩
        cases b with
        | nil => simp at he; exact absurd he.1 hc
        | cons x b =>
          simp only [List.cons_append, List.cons.injEq] at he
          simp only [List.mem_cons, not_or] at hb
          exact ⟨b ++ [10], rest, (ih _).mpr ⟨he.2, b, rfl, hb.2⟩, by simp [he.1], rfl⟩

theorem readString_none (s : Bytes) : readString s = none ↔ (10 : UInt8) ∉ s := by
  induction s with
  | nil => simp [readString]
  | cons c s ih =>
    simp only [readString]
    split
    · rename_i hc; simp [hc]
    · rename_i hc
      simp only [Option.map_eq_none_iff, List.mem_cons, not_or, ih]
      exact ⟨fun h => ⟨fun h => hc h.symm, h⟩, fun h => h.2⟩

theorem cutColon_iff (s n v : Bytes) : cutColon s = some (n, v) ↔ s = n ++ [58] ++ v ∧ (58 : UInt8) ∉ n := by
  induction s generalizing n with
  | nil => simp [cutColon]
  | cons c s ih =>
    simp only [cutColon]
    split
    · rename_i hc
      subst hc
      simp only [Option.some.injEq, Prod.mk.injEq]
      constructor
      · rintro ⟨rfl, rfl⟩; simp
      · rintro ⟨he, hn⟩
        cases n with
        | nil => simpa using he
        | cons x n =>
          simp only [List.cons_append, List.cons.injEq] at he
          simp [he.1] at hn
    · rename_i hc
      simp only [Option.map_eq_some_iff, Prod.exists, Prod.mk.injEq]
      constructor
      · rintro ⟨a, b, h, rfl, rfl⟩
        obtain ⟨rfl, ha⟩ := (ih a).mp h
        refine ⟨by simp, ?_⟩
        simp only [List.mem_cons, not_or]
        exact ⟨fun h => hc h.symm, ha⟩
      · rintro ⟨he, hn⟩
        cases n with
        | nil => simp at he; exact absurd he.1 hc
        | cons x n =>
          simp only [List.cons_append, List.cons.injEq] at he
          simp only [List.mem_cons, not_or] at hn
          exact ⟨n, v, (ih _).mpr ⟨he.2, hn.2⟩, by simp [he.1], rfl⟩

theorem cutColon_none (s : Bytes) : cutColon s = none ↔ (58 : UInt8) ∉ s := by
  induction s with
  | nil => simp [cutColon]
  | cons c s ih =>
    simp only [cutColon]
    split
    · rename_i hc; simp [hc]
    · rename_i hc
      simp only [Option.map_eq_none_iff, List.mem_cons, not_or, ih]
      exact ⟨fun h => ⟨fun h => hc h.symm, h⟩, fun h => h.2⟩

theorem field_iff (l name value : Bytes) :
    Field l name value ↔ ∃ v, cutColon (trimSpace l) = some (name, v) ∧ value = trimSpace v := by
  unfold Field
  constructor
  · rintro ⟨v, h1, h2, h3⟩; exact ⟨v, (cutColon_iff _ _ _).mpr ⟨h1, h2⟩, h3⟩
  · rintro ⟨v, h1, h3⟩
    obtain ⟨h1, h2⟩ := (cutColon_iff _ _ _).mp h1
    exact ⟨v, h1, h2, h3⟩

theorem field_unique {l n v n' v' : Bytes} (h : Field l n v) (h' : Field l n' v') : n = n' ∧ v = v' := by
  obtain ⟨x, hx, rfl⟩ := (field_iff _ _ _).mp h
  obtain ⟨y, hy, rfl⟩ := (field_iff _ _ _).mp h'
  rw [hx] at hy
  simp only [Option.some.injEq, Prod.mk.injEq] at hy
  exact ⟨hy.1, by rw [hy.2]⟩

theorem field_not_blank {l n v : Bytes} (h : Field l n v) : trimSpace l ≠ [] := by
  obtain ⟨v, h1, -, -⟩ := h
  rw [h1]; simp

theorem line_ne_nil {l : Bytes} (h : Line l) : 0 < l.length := by
  obtain ⟨b, rfl, -⟩ := h
  simp

/-- The content length after the lines `ls`, if it was `len` before. -/
def LastLen (len : Int) (ls : List Bytes) (n : Int) : Prop :=
  (n = len ∧ ∀ l ∈ ls, ∀ v, ¬ Field l b!"Content-Length" v) ∨
  ∃ pre l post value, ls = pre ++ l :: post ∧ Field l b!"Content-Length" value ∧ parseInt32 value = some n ∧
    ∀ l' ∈ post, ∀ v, ¬ Field l' b!"Content-Length" v

theorem lastLen_cons_other {len n : Int} {l : Bytes} {ls : List Bytes} (h : ∀ v, ¬ Field l b!"Content-Length" v) :
    LastLen len (l :: ls) n ↔ LastLen len ls n := by
  unfold LastLen
  constructor
  · rintro (⟨h1, h2⟩ | ⟨pre, x, post, value, he, hf, hp, hl⟩)
    · left; exact ⟨h1, fun l' hl' => h2 l' (List.mem_cons_of_mem _ hl')⟩
    · cases pre with
      | nil =>
        simp only [List.nil_append, List.cons.injEq] at he
        rw [← he.1] at hf
        exact absurd hf (h _)
      | cons y pre =>
        simp only [List.cons_append, List.cons.injEq] at he
        right; exact ⟨pre, x, post, value, he.2, hf, hp, hl⟩
  · rintro (⟨h1, h2⟩ | ⟨pre, x, post, value, rfl, hf, hp, hl⟩)
    · left
      refine ⟨h1, fun l' hl' => ?_⟩
      simp only [List.mem_cons] at hl'
      rcases hl' with rfl | hl'
      · exact h
      · exact h2 l' hl'
    · right; exact ⟨l :: pre, x, post, value, rfl, hf, hp, hl⟩

theorem lastLen_cons_length {len m n : Int} {l v : Bytes} {ls : List Bytes} (h : Field l b!"Content-Length" v)
    (hm : parseInt32 v = some m) : LastLen len (l :: ls) n ↔ LastLen m ls n := by
  unfold LastLen
  constructor
  · rintro (⟨h1, h2⟩ | ⟨pre, x, post, value, he, hf, hp, hl⟩)
    · exact absurd h (h2 l (by simp) _)
    · cases pre with
      | nil =>
        simp only [List.nil_append, List.cons.injEq] at he
        rw [← he.1] at hf
        have := (field_unique h hf).2
        subst this
        rw [hm] at hp
        simp only [Option.some.injEq] at hp
        left
        rw [he.2]
        exact ⟨hp.symm, hl⟩
      | cons y pre =>
        simp only [List.cons_append, List.cons.injEq] at he
        right; exact ⟨pre, x, post, value, he.2, hf, hp, hl⟩
  · rintro (⟨rfl, h2⟩ | ⟨pre, x, post, value, rfl, hf, hp, hl⟩)
    · right; exact ⟨[], l, ls, v, rfl, h, hm, h2⟩
    · right; exact ⟨l :: pre, x, post, value, rfl, hf, hp, hl⟩

/-- One turn of the loop over a line. -/
theorem readHeader_line (fuel : Nat) (len : Int) (l s : Bytes) (hl : Line l) :
    readHeader (fuel + 1) len (l ++ s) =
      if trimSpace l = [] then some (len, s)
      else match cutColon (trimSpace l) with
        | none => none
        | some (name, value) =>
          if name = b!"Content-Length" then
            match parseInt32 (trimSpace value) with
            | none => none
            | some n => if n ≤ 0 then none else readHeader fuel n s
          else readHeader fuel len s := by
  have h : readString (l ++ s) = some (l, s) := (readString_iff _ _ _).mpr ⟨rfl, hl⟩
  simp only [readHeader, h]
  rfl

theorem readHeader_iff (fuel : Nat) (len : Int) (s : Bytes) (hf : s.length ≤ fuel) (n : Int) (rest : Bytes) :
    readHeader fuel len s = some (n, rest) ↔
      ∃ ls blank, s = List.flatten ls ++ blank ++ rest ∧ (∀ l ∈ ls, GoodLine l) ∧ Line blank ∧
        trimSpace blank = [] ∧ LastLen len ls n := by
  induction fuel generalizing s len with
  | zero =>
    have : s = [] := List.length_eq_zero_iff.mp (by omega)
    subst this
    simp only [readHeader, reduceCtorEq, false_iff]
    rintro ⟨ls, blank, he, -, hb, -⟩
    have h1 := congrArg List.length he
    have h2 := line_ne_nil hb
    simp only [List.length_append, List.length_nil] at h1
    omega
  | succ fuel ih =>
    cases hr : readString s with
    | none =>
      have hn := (readString_none s).mp hr
      have : readHeader (fuel + 1) len s = none := by simp only [readHeader, hr]
      rw [this]
      simp only [reduceCtorEq, false_iff]
      rintro ⟨ls, blank, rfl, -, ⟨b, rfl, -⟩, -⟩
      exact hn (by simp)
    | some p =>
      obtain ⟨l, s'⟩ := p
      obtain ⟨rfl, hl⟩ := (readString_iff _ _ _).mp hr
      have hlen := line_ne_nil hl
      simp only [List.length_append] at hf
      rw [readHeader_line fuel len l s' hl]
      -- the first line of any decomposition is `l`
      have first : ∀ ls blank, l ++ s' = List.flatten ls ++ blank ++ rest → (∀ x ∈ ls, GoodLine x) → Line blank →
          (ls = [] ∧ blank = l ∧ s' = rest) ∨ ∃ ls', ls = l :: ls' ∧ s' = List.flatten ls' ++ blank ++ rest := by
        intro ls blank he hg hb
        have hfirst : ∀ x t, Line x → l ++ s' = x ++ t → x = l ∧ s' = t := by
          intro x t hx hxt
          have h1 : readString (l ++ s') = some (x, t) := (readString_iff _ _ _).mpr ⟨hxt, hx⟩
          rw [hr] at h1
          simp only [Option.some.injEq, Prod.mk.injEq] at h1
          exact ⟨h1.1.symm, h1.2⟩
        cases ls with
        | nil =>
          left
          obtain ⟨h1, h2⟩ := hfirst blank rest hb (by simpa using he)
          exact ⟨rfl, h1, h2⟩
        | cons x ls' =>
          right
          obtain ⟨h1, h2⟩ := hfirst x (List.flatten ls' ++ blank ++ rest) (hg x (by simp)).1
            (by simpa [List.append_assoc] using he)
          exact ⟨ls', by rw [h1], h2⟩
      by_cases hblank : trimSpace l = []
      · rw [if_pos hblank]
        simp only [Option.some.injEq, Prod.mk.injEq]
        constructor
        · rintro ⟨rfl, rfl⟩
          exact ⟨[], l, by simp, by simp, hl, hblank, Or.inl ⟨rfl, by simp⟩⟩
        · rintro ⟨ls, blank, he, hg, hb, hbb, hlast⟩
          rcases first ls blank he hg hb with ⟨rfl, -, rfl⟩ | ⟨ls', rfl, -⟩
          · rcases hlast with ⟨rfl, -⟩ | ⟨pre, x, post, v, he', -⟩
            · exact ⟨rfl, rfl⟩
            · simp at he'
          · obtain ⟨-, nm, v, hfield, -⟩ := hg l (by simp)
            exact absurd hblank (field_not_blank hfield)
      · rw [if_neg hblank]
        cases hcut : cutColon (trimSpace l) with
        | none =>
          simp only [reduceCtorEq, false_iff]
          rintro ⟨ls, blank, he, hg, hb, hbb, hlast⟩
          rcases first ls blank he hg hb with ⟨-, rfl, -⟩ | ⟨ls', rfl, -⟩
          · exact hblank hbb
          · obtain ⟨-, nm, v, hfield, -⟩ := hg l (by simp)
            obtain ⟨v, hv, -⟩ := (field_iff _ _ _).mp hfield
            rw [hcut] at hv
            cases hv
        | some q =>
          obtain ⟨name, value⟩ := q
          have hfield : Field l name (trimSpace value) := (field_iff _ _ _).mpr ⟨value, hcut, rfl⟩
          dsimp only
          by_cases hname : name = b!"Content-Length"
          · rw [if_pos hname]
            subst hname
            cases hparse : parseInt32 (trimSpace value) with
            | none =>
              simp only [reduceCtorEq, false_iff]
              rintro ⟨ls, blank, he, hg, hb, hbb, hlast⟩
              rcases first ls blank he hg hb with ⟨-, rfl, -⟩ | ⟨ls', rfl, -⟩
              · exact hblank hbb
              · obtain ⟨-, nm, v, hfield', hp⟩ := hg l (by simp)
                obtain ⟨rfl, rfl⟩ := field_unique hfield hfield'
                obtain ⟨k, hk, -⟩ := hp rfl
                rw [hparse] at hk
                cases hk
            | some m =>
              dsimp only
              by_cases hm : m ≤ 0
              · rw [if_pos hm]
                simp only [reduceCtorEq, false_iff]
                rintro ⟨ls, blank, he, hg, hb, hbb, hlast⟩
                rcases first ls blank he hg hb with ⟨-, rfl, -⟩ | ⟨ls', rfl, -⟩
                · exact hblank hbb
                · obtain ⟨-, nm, v, hfield', hp⟩ := hg l (by simp)
                  obtain ⟨rfl, rfl⟩ := field_unique hfield hfield'
                  obtain ⟨k, hk, hk'⟩ := hp rfl
                  rw [hparse] at hk
                  simp only [Option.some.injEq] at hk
                  omega
              · rw [if_neg hm, ih m s' (by omega)]
                constructor
                · rintro ⟨ls, blank, rfl, hg, hb, hbb, hlast⟩
                  refine ⟨l :: ls, blank, by simp [List.append_assoc], ?_, hb, hbb,
                    (lastLen_cons_length hfield hparse).mpr hlast⟩
                  intro x hx
                  simp only [List.mem_cons] at hx
                  rcases hx with rfl | hx
                  · exact ⟨hl, _, _, hfield, fun _ => ⟨m, hparse, by omega⟩⟩
                  · exact hg x hx
                · rintro ⟨ls, blank, he, hg, hb, hbb, hlast⟩
                  rcases first ls blank he hg hb with ⟨-, rfl, -⟩ | ⟨ls', rfl, hs⟩
                  · exact absurd hbb hblank
                  · exact ⟨ls', blank, hs, fun x hx => hg x (List.mem_cons_of_mem _ hx), hb, hbb,
                      (lastLen_cons_length hfield hparse).mp hlast⟩
          · rw [if_neg hname, ih len s' (by omega)]
            have hno : ∀ v, ¬ Field l b!"Content-Length" v := fun v hv => hname (field_unique hfield hv).1
            constructor
            · rintro ⟨ls, blank, rfl, hg, hb, hbb, hlast⟩
              refine ⟨l :: ls, blank, by simp [List.append_assoc], ?_, hb, hbb,
                (lastLen_cons_other hno).mpr hlast⟩
              intro x hx
              simp only [List.mem_cons] at hx
              rcases hx with rfl | hx
              · exact ⟨hl, _, _, hfield, fun h => absurd h hname⟩
              · exact hg x hx
            · rintro ⟨ls, blank, he, hg, hb, hbb, hlast⟩
              rcases first ls blank he hg hb with ⟨-, rfl, -⟩ | ⟨ls', rfl, hs⟩
              · exact absurd hbb hblank
              · exact ⟨ls', blank, hs, fun x hx => hg x (List.mem_cons_of_mem _ hx), hb, hbb,
                  (lastLen_cons_other hno).mp hlast⟩

theorem announces_pos {ls : List Bytes} {n : Nat} (h : Announces ls n) (hg : ∀ l ∈ ls, GoodLine l) : 0 < n := by
  obtain ⟨pre, l, post, v, rfl, hf, hp, -⟩ := h
  obtain ⟨-, nm, v', hf', hk⟩ := hg l (by simp)
  obtain ⟨rfl, rfl⟩ := field_unique hf hf'
  obtain ⟨k, hk1, hk2⟩ := hk rfl
  rw [hp] at hk1
  simp only [Option.some.injEq] at hk1
  omega

/-! ### numbers -/

theorem natDigits_ne_nil (n : Nat) : natDigits n ≠ [] := by
  unfold natDigits; split <;> simp

theorem natDigits_value (n : Nat) : (natDigits n).foldl (fun n c => n * 10 + (c.toNat - 48)) 0 = n := by
  induction n using Nat.strongRecOn with
  | ind n ih =>
    unfold natDigits
    split
    · rename_i h
      simp only [List.foldl_cons, List.foldl_nil, UInt8.toNat_ofNat']
      omega
    · rename_i h
      rw [List.foldl_append, ih (n / 10) (by omega)]
      simp only [List.foldl_cons, List.foldl_nil, UInt8.toNat_ofNat']
      omega

theorem parseDigits_natDigits (n : Nat) : parseDigits (natDigits n) = some n := by
  unfold parseDigits
  rw [if_pos, natDigits_value]
  refine ⟨natDigits_ne_nil n, ?_⟩
  rw [List.all_eq_true]
  intro c hc
  have := natDigits_mem n c hc
  simp [this.1, this.2]

theorem natDigits_cons (n : Nat) : ∃ c t, natDigits n = c :: t ∧ 48 ≤ c.toNat ∧ c.toNat ≤ 57 := by
  cases h : natDigits n with
  | nil => exact absurd h (natDigits_ne_nil n)
  | cons c t => exact ⟨c, t, rfl, natDigits_mem n c (by rw [h]; simp)⟩

theorem natDigits_concat (n : Nat) : ∃ t c, natDigits n = t ++ [c] ∧ 48 ≤ c.toNat ∧ c.toNat ≤ 57 := by
  rcases List.eq_nil_or_concat (natDigits n) with h | ⟨t, c, h⟩
  · exact absurd h (natDigits_ne_nil n)
  · rw [List.concat_eq_append] at h
    exact ⟨t, c, h, natDigits_mem n c (by rw [h]; simp)⟩

theorem parseInt32_natDigits (n : Nat) :
    parseInt32 (natDigits n) = if n ≤ 2147483647 then some (n : Int) else none := by
  have key : ∀ c t, natDigits n = c :: t → 48 ≤ c.toNat →
      parseInt32 (natDigits n) = ((parseDigits (natDigits n)).map Int.ofNat).filter
        fun n => decide (-2147483648 ≤ n ∧ n ≤ 2147483647) := by
    intro c t h hc
    rw [h]
    unfold parseInt32
    have h43 : c ≠ 43 := by rintro rfl; exact absurd hc (by decide)
    have h45 : c ≠ 45 := by rintro rfl; exact absurd hc (by decide)
    split
    · rename_i heq; simp only [List.cons.injEq] at heq; exact absurd heq.1 h43
    · rename_i heq; simp only [List.cons.injEq] at heq; exact absurd heq.1 h45
    · rfl
  obtain ⟨c, t, h, hc, -⟩ := natDigits_cons n
  rw [key c t h hc, parseDigits_natDigits]
  simp only [Option.map_some, Option.filter, Int.ofNat_eq_natCast, decide_eq_true_eq]
  by_cases hn : n ≤ 2147483647
  · rw [if_pos hn, if_pos (by omega)]
  · rw [if_neg hn, if_neg (by omega)]

/-! ### the frame that `Write` produces -/

/-- The header line of `Write`. -/
def lengthLine (n : Nat) : Bytes := b!"Content-Length: " ++ natDigits n ++ [13, 10]

theorem itoa_nat (n : Nat) : itoa (n : Int) = natDigits n := by
  unfold itoa
  rw [if_neg (by omega)]
  simp

theorem write_eq (d : Bytes) : write d = lengthLine d.length ++ ([13, 10] ++ d) := by
  unfold write lengthLine
  rw [itoa_nat]
  simp [List.append_assoc]

theorem lengthLine_line (n : Nat) : Line (lengthLine n) := by
  refine ⟨b!"Content-Length: " ++ natDigits n ++ [13], by simp [lengthLine], ?_⟩
  intro h
  simp only [List.mem_append] at h
  rcases h with (h | h) | h
  · revert h; decide
  · have := (natDigits_mem n 10 h).1
    revert this; decide
  · revert h; decide

theorem trimSpace_digits (n : Nat) : trimSpace (32 :: natDigits n) = natDigits n := by
  obtain ⟨c, t, h, h1, h2⟩ := natDigits_cons n
  obtain ⟨t', c', h', h1', h2'⟩ := natDigits_concat n
  unfold trimSpace
  rw [trimLeft_space]
  conv_lhs => rw [h]
  rw [trimLeft_graphic ⟨by omega, by omega⟩, ← h, h', trimRight_graphic ⟨by omega, by omega⟩]

theorem trimSpace_lengthLine (n : Nat) : trimSpace (lengthLine n) = b!"Content-Length: " ++ natDigits n := by
  obtain ⟨t', c', h', h1', h2'⟩ := natDigits_concat n
  have hl : trimLeft (lengthLine n) = lengthLine n := by
    have : lengthLine n = 67 :: (b!"ontent-Length: " ++ natDigits n ++ [13, 10]) := by simp [lengthLine]
    rw [this]
    exact trimLeft_graphic (by unfold Graphic; decide) _
  unfold trimSpace
  rw [hl]
  unfold lengthLine
  rw [trimRight_crlf, h', ← List.append_assoc, trimRight_graphic ⟨by omega, by omega⟩]

theorem lengthLine_field (n : Nat) : Field (lengthLine n) b!"Content-Length" (natDigits n) :=
  ⟨32 :: natDigits n, by rw [trimSpace_lengthLine]; simp, by decide, (trimSpace_digits n).symm⟩

theorem crlf_line : Line [13, 10] := ⟨[13], rfl, by decide⟩

theorem crlf_blank : trimSpace [13, 10] = [] := by decide

end Verif.Rpc
