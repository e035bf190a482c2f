import Verif.Common.Bytes

/-! Positions and ranges of the protocol, and their comparison. -/

namespace Verif

/-- `protocol.Position` (`internal/lsp/protocol/protocol.go:2796-2816`). Go integers are unbounded here. -/
structure Pos where
  line : Int
  character : Int
  deriving DecidableEq, Repr, Inhabited

/-- `protocol.Range` (`protocol.go:2838-2849`). -/
structure Rng where
  start : Pos
  stop : Pos
  deriving DecidableEq, Repr, Inhabited

/-- `IsInRange` (`internal/lsp/protocol/util.go:9-20`). -/
def isInRange (p : Pos) (r : Rng) : Int :=
  if p.line < r.start.line ∨ (p.line = r.start.line ∧ p.character < r.start.character) then -1
  else if p.line > r.stop.line ∨ (p.line = r.stop.line ∧ p.character ≥ r.stop.character) then 1
  else 0

/-- `ComparePos` (`util.go:23-39`). -/
def comparePos (a b : Pos) : Int :=
  if a.line < b.line then -1
  else if a.line = b.line then
    if a.character < b.character then -1
    else if a.character = b.character then 0
    else if a.character > b.character then 1
    else 1
  else 1

/-- `CompareRange` (`util.go:42-50`). -/
def compareRange (a b : Rng) : Int :=
  if isInRange a.stop b < 0 then -1
  else if isInRange a.start b > 0 then 1
  else 0

end Verif
