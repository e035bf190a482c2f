import Verif.Common.Utf8
import Verif.Common.Search
import Verif.Common.Position

/-!
Model of the text part of `analysis/document.go`: the text, its line table, conversions between
offsets and positions, and incremental changes. Parsing (`Load`) is not modelled. Go integers are
unbounded here: a text is shorter than 2^63 bytes. A Go panic is `none`.
-/

namespace Verif.Document

/-- The fields `text`, `lineOffsets` and `detectedEOL` of `Document` (`document.go:22-29`). -/
structure Doc where
  text : Bytes
  lineOffsets : List Int
  eol : Bytes
  deriving DecidableEq, Repr

/-- The loop of `calculateLineOffsets` (`document.go:121-166`): `n` bytes are consumed, `lineStart` is
`isLineStart`, `eol` and `stop` are `eol` and `stopDetectingEol`. After a CR `len(text) > 0` holds, so
the branch at 147-152 is never taken. `max 1` only makes the recursion obviously terminating: a
non-empty text decodes to a size of at least one. -/
def calcLoop (offset : Nat) (text : Bytes) (n : Nat) (lineStart : Bool) (eol : Bytes) (stop : Bool) :
    List Int × Bytes :=
  match text with
  | [] => (if lineStart then [(n : Int)] else [], eol)
  | c :: cs =>
    let r := (decodeRune (c :: cs)).1
    let size := max 1 (decodeRune (c :: cs)).2
    let first := if lineStart then [(n : Int)] else []
    if r = 13 then
      let next := decodeRune ((c :: cs).drop size)
      if next.1 = 10 then
        let rest := calcLoop offset ((c :: cs).drop (size + next.2)) (n + (size + next.2)) false
          (if stop then eol else [13, 10]) true
        (first ++ ((n + (size + next.2) + offset : Nat) : Int) :: rest.1, rest.2)
      else
        let rest := calcLoop offset ((c :: cs).drop size) (n + size) false eol stop
        (first ++ ((n + offset : Nat) : Int) :: rest.1, rest.2)
    else if r = 10 then
      let rest := calcLoop offset ((c :: cs).drop size) (n + size) false eol stop
      (first ++ ((n + offset + size : Nat) : Int) :: rest.1, rest.2)
    else
      let rest := calcLoop offset ((c :: cs).drop size) (n + size) false eol stop
      (first ++ rest.1, rest.2)
termination_by text.length
decreasing_by all_goals simp only [List.length_drop, List.length_cons]; omega

/-- `calculateLineOffsets` (`document.go:121-166`). -/
def calculateLineOffsets (text : Bytes) (offset : Nat) : List Int × Bytes := calcLoop offset text 0 true [10] false

/-- `SetText` (`document.go:112-115`), which is all `NewDocument` (`54-65`) does to these fields. -/
def ofText (text : Bytes) : Doc :=
  let r := calculateLineOffsets text 0
  ⟨text, r.1, r.2⟩

/-- `lineAt` (`document.go:168-172`). -/
def Doc.lineAt (d : Doc) (offset : Int) : Int :=
  (goSearch d.lineOffsets.length fun i => decide (d.lineOffsets.getD i 0 > offset) : Nat) - 1

/-- `offsetAtLine` (`document.go:174-182`). -/
def Doc.offsetAtLine (d : Doc) (line : Int) : Int :=
  if line ≤ 0 ∨ d.lineOffsets.length < 1 then 0
  else if line > (d.lineOffsets.length : Int) - 1 then d.lineOffsets.getLastD 0
  else d.lineOffsets.getD line.toNat 0

/-- `positionAt` (`document.go:184-190`); an index out of range panics. -/
def Doc.positionAt (d : Doc) (offset : Int) : Option Pos :=
  let line := d.lineAt offset
  if line < 0 then none else (d.lineOffsets[line.toNat]?).map fun o => ⟨line, offset - o⟩

/-- The loop of `OffsetAtPosition` (`document.go:195-198`): decode `k` runes from `o`. -/
def skipRunes (text : Bytes) : Nat → Int → Option Int
  | 0, o => some o
  | k + 1, o =>
    if o < 0 ∨ o > text.length then none
    else skipRunes text k (o + (decodeRune (text.drop o.toNat)).2)

/-- `OffsetAtPosition` (`document.go:192-210`). -/
def Doc.offsetAtPosition (d : Doc) (p : Pos) : Option Int :=
  (skipRunes d.text p.character.toNat (d.offsetAtLine p.line)).map fun o =>
    let m := if o < (d.text.length : Int) then o else (d.text.length : Int)
    if 0 > m then 0 else m

/-- `protocol.TextDocumentContentChangeEvent`: without a range the text replaces everything. -/
structure Change where
  range : Option (Pos × Pos)
  text : Bytes
  deriving DecidableEq, Repr

/-- One round of the loop in `ApplyChanges` (`document.go:558-600`). -/
def Doc.applyChange (d : Doc) (c : Change) : Option Doc :=
  match c.range with
  | none => some (ofText c.text)
  | some (start, stop) => do
    let startOffset ← d.offsetAtPosition start
    let endOffset ← d.offsetAtPosition stop
    let newText := d.text.take startOffset.toNat ++ c.text ++ d.text.drop endOffset.toNat
    let m := if start.line + 1 > d.lineOffsets.length then (d.lineOffsets.length : Int) else start.line + 1
    if m < 0 then none
    else
      let lengthDiff : Int := c.text.length - (endOffset - startOffset)
      let offs := calculateLineOffsets c.text startOffset.toNat
      if stop.line + 1 < d.lineOffsets.length then
        if stop.line + 1 < 0 then none
        else some ⟨newText, d.lineOffsets.take m.toNat ++ offs.1.tail ++
          (d.lineOffsets.drop (stop.line + 1).toNat).map (· + lengthDiff), offs.2⟩
      else some ⟨newText, d.lineOffsets.take m.toNat ++ offs.1.tail, offs.2⟩

/-- `ApplyChanges` (`document.go:558-600`), without the call to `Load`. -/
def Doc.applyChanges (d : Doc) : List Change → Option Doc
  | [] => some d
  | c :: cs => (d.applyChange c).bind fun d => d.applyChanges cs

end Verif.Document
