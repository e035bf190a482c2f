import Verif.Common.Strings

/-!
Go's UTF-8 decoding (`unicode/utf8`, and `for i, r := range s`), which the code uses through
`range`, `utf8.RuneCountInString`, `[]rune(s)`. Part of the standard library, so it is trusted to be
transcribed correctly: the table `first` and `acceptRanges` of `utf8.go`.
-/

namespace Verif

/-- `utf8.RuneError` (U+FFFD). -/
def runeError : Nat := 0xFFFD

/-- A continuation byte. -/
def isCont (b : UInt8) : Bool := 0x80 ≤ b.toNat && b.toNat ≤ 0xBF

/-- `utf8.DecodeRuneInString` on a non-empty string: the rune and its width. An ill-formed sequence
decodes to `RuneError` of width 1; the empty string to width 0. -/
def decodeRune : Bytes → Nat × Nat
  | [] => (runeError, 0)
  | b0 :: rest =>
    let n0 := b0.toNat
    if n0 < 0x80 then (n0, 1)
    else if n0 < 0xC2 || 0xF4 < n0 then (runeError, 1)
    else
      let lo := if n0 = 0xE0 then 0xA0 else if n0 = 0xF0 then 0x90 else 0x80
      let hi := if n0 = 0xED then 0x9F else if n0 = 0xF4 then 0x8F else 0xBF
      match rest with
      | [] => (runeError, 1)
      | b1 :: rest =>
        let n1 := b1.toNat
        if n0 < 0xE0 then
          if lo ≤ n1 && n1 ≤ hi then ((n0 - 0xC0) * 64 + (n1 - 0x80), 2) else (runeError, 1)
        else match rest with
          | [] => (runeError, 1)
          | b2 :: rest =>
            let n2 := b2.toNat
            if n0 < 0xF0 then
              if lo ≤ n1 && n1 ≤ hi && isCont b2 then
                ((n0 - 0xE0) * 4096 + (n1 - 0x80) * 64 + (n2 - 0x80), 3)
              else (runeError, 1)
            else match rest with
              | [] => (runeError, 1)
              | b3 :: _ =>
                if lo ≤ n1 && n1 ≤ hi && isCont b2 && isCont b3 then
                  ((n0 - 0xF0) * 262144 + (n1 - 0x80) * 4096 + (n2 - 0x80) * 64 + (b3.toNat - 0x80), 4)
                else (runeError, 1)

theorem decodeRune_size (s : Bytes) (h : s ≠ []) : 1 ≤ (decodeRune s).2 ∧ (decodeRune s).2 ≤ s.length := by
  match s, h with
  | [b0], _ => simp only [decodeRune]; repeat' split
               all_goals simp_all
  | [b0, b1], _ => simp only [decodeRune]; repeat' split
                   all_goals simp_all
  | [b0, b1, b2], _ => simp only [decodeRune]; repeat' split
                       all_goals simp_all
  | b0 :: b1 :: b2 :: b3 :: r, _ => simp only [decodeRune]; repeat' split
                                    all_goals simp_all

/-- `for i, r := range s`: byte offsets and runes; `off` is added to every offset. -/
def runesFrom (off : Nat) (s : Bytes) : List (Nat × Nat) :=
  match s with
  | [] => []
  | c :: cs =>
    let p := decodeRune (c :: cs)
    (off, p.1) :: runesFrom (off + max 1 p.2) ((c :: cs).drop (max 1 p.2))
termination_by s.length
decreasing_by simp only [List.length_drop, List.length_cons]; omega

def runes (s : Bytes) : List (Nat × Nat) := runesFrom 0 s

end Verif
