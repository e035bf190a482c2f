import Verif.Document.Model

/-!
What the editor means. The editor's document is a list of Unicode characters; a position is a line
number and a number of UTF-16 code units on that line (Language Server Protocol, "Position"); lines
end with LF, CR or CRLF. Nothing here uses the model's line table.
-/

namespace Verif.Document

/-- The standard UTF-8 encoding of a code point. -/
def utf8Char (c : Nat) : Bytes :=
  if c < 0x80 then [UInt8.ofNat c]
  else if c < 0x800 then [UInt8.ofNat (0xC0 + c / 64), UInt8.ofNat (0x80 + c % 64)]
  else if c < 0x10000 then
    [UInt8.ofNat (0xE0 + c / 4096), UInt8.ofNat (0x80 + c / 64 % 64), UInt8.ofNat (0x80 + c % 64)]
  else [UInt8.ofNat (0xF0 + c / 262144), UInt8.ofNat (0x80 + c / 4096 % 64),
    UInt8.ofNat (0x80 + c / 64 % 64), UInt8.ofNat (0x80 + c % 64)]

def utf8 (t : List Char) : Bytes := t.flatMap fun c => utf8Char c.toNat

/-- Offset `k` is where a line of `text` starts. -/
def IsLineStart (text : Bytes) (k : Nat) : Prop :=
  k = 0 ∨ (1 ≤ k ∧ text[k - 1]? = some 10) ∨ (1 ≤ k ∧ text[k - 1]? = some 13 ∧ text[k]? ≠ some 10)

instance (text : Bytes) (k : Nat) : Decidable (IsLineStart text k) := by unfold IsLineStart; infer_instance

/-- Every CR is followed by LF. -/
def NoLone {α : Type} (cr lf : α) (text : List α) : Prop := ∀ i : Nat, text[i]? = some cr → text[i + 1]? = some lf

/-- UTF-16 code units of a text. -/
def utf16Len (t : List Char) : Nat := (t.map fun c => if c.toNat < 0x10000 then 1 else 2).sum

/-- Number of line breaks in a text: a break ends at every LF, and at every CR that no LF follows. -/
def breaks : List Char → Nat
  | [] => 0
  | c :: t => (if c = '\n' ∨ (c = '\r' ∧ t.head? ≠ some '\n') then 1 else 0) + breaks t

/-- The text after its last line break: the longest suffix without a break. -/
def lastLine : List Char → List Char
  | [] => []
  | c :: t => if breaks (c :: t) = 0 then c :: t else lastLine t

/-- The position `p` of text `t` is between `pre` and `post`. -/
structure At (t : List Char) (p : Pos) (pre post : List Char) : Prop where
  split : t = pre ++ post
  /-- never between the two characters of one line break -/
  whole : ¬ (pre.getLast? = some '\r' ∧ post.head? = some '\n')
  line : p.line = breaks pre
  character : p.character = utf16Len (lastLine pre)

/-- The editor sends change `c` and its text goes from `t` to `t'`. -/
inductive Edit : List Char → Change → List Char → Prop
  | full (t t' : List Char) : Edit t ⟨none, utf8 t'⟩ t'
  | incremental (t : List Char) (p q : Pos) (pre mid post ins : List Char)
      (hp : At t p pre (mid ++ post)) (hq : At t q (pre ++ mid) post) :
      Edit t ⟨some (p, q), utf8 ins⟩ (pre ++ ins ++ post)

/-- A sequence of changes. -/
inductive Edits : List Char → List Change → List Char → Prop
  | nil (t) : Edits t [] t
  | cons {t c t' cs t''} (h : Edit t c t') (hs : Edits t' cs t'') : Edits t (c :: cs) t''

end Verif.Document
