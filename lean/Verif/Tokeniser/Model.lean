import Verif.Common.Utf8

/-! Model of `analysis/wordtokeniser`: splitting names into searchable words. -/

namespace Verif.Tokeniser

/-- `unicode.IsUpper` and `unicode.IsDigit`, kept as parameters. -/
structure Uni where
  isUpper : Nat → Bool
  isDigit : Nat → Bool

/-- What `casing` distinguishes about a rune (`casing.go:9-11, 46, 56-62`): a separator, an undecodable
byte (or a literal U+FFFD), or one of the classes 1 (other), 2 (upper case), 3 (digit). -/
inductive RK where
  | under | err | cls (n : Nat)
  deriving DecidableEq, Repr

def kindOf (u : Uni) (r : Nat) : RK :=
  if r = 95 then .under
  else if r = runeError then .err
  else if u.isUpper r then .cls 2
  else if u.isDigit r then .cls 3
  else .cls 1

/-- Go's `name[a:b]`; `none` is the bounds panic. -/
def slice (name : Bytes) (a b : Nat) : Option Bytes :=
  if a ≤ b ∧ b ≤ name.length then some ((name.take b).drop a) else none

/-- The local variables of `casing` (`casing.go:14-19`). -/
structure St where
  words : List Bytes
  lastClass : Nat
  start : Nat
  prev : Nat
  lastTokenIndex : Nat
  mark : Bool
  deriving DecidableEq, Repr

/-- `appendWord` (`casing.go:20-25`). -/
def St.append (st : St) (w : Bytes) : St := if st.start = 0 then st else { st with words := st.words ++ [w] }

/-- One round of the loop in `casing` (`casing.go:26-84`); `none` is a panic. -/
def step (name : Bytes) (st : St) (ir : Nat × RK) : Option St :=
  let i := ir.1
  match ir.2 with
  | .under =>
    let st' := if st.start < st.lastTokenIndex then
        (slice name st.start (st.lastTokenIndex + 1)).map fun w => { st with words := st.words ++ [w] }
      else some st
    st'.map fun st => { st with lastClass := 0, start := i + 1, prev := i + 1 }
  | .err =>
    let st := { st with lastTokenIndex := i }
    let st := if st.mark then { st with start := i, mark := false } else st
    let st' := if 0 < st.start ∧ st.start < i then (slice name st.start i).map st.append else some st
    st'.map fun st => { st with mark := true, start := if name.length - 1 ≤ i then name.length else st.start }
  | .cls c =>
    let st := { st with lastTokenIndex := i }
    let st := if st.mark then { st with start := i, mark := false } else st
    let st' :=
      if st.lastClass ≠ 0 ∧ c ≠ st.lastClass then
        if st.lastClass = 2 ∧ c = 1 then
          if st.start ≠ st.prev then (slice name st.start st.prev).map fun w => { st.append w with start := st.prev }
          else some { st with start := st.prev }
        else (slice name st.start i).map fun w => { st.append w with start := i }
      else some st
    st'.map fun st => { st with lastClass := c, prev := i }

/-- The loop. -/
def loop (name : Bytes) : Option St → List (Nat × RK) → Option St
  | none, _ => none
  | some st, [] => some st
  | some st, ir :: rest => loop name (step name st ir) rest

/-- `casing` (`casing.go:13-89`). -/
def casing (u : Uni) (name : Bytes) : Option (List Bytes) :=
  (loop name (some ⟨[], 0, 0, 0, 0, false⟩) ((runes name).map fun p => (p.1, kindOf u p.2))).map fun st =>
    if st.start < name.length then (st.append (name.drop st.start)).words else st.words

/-- `strings.Trim(name, "_")`. -/
def trimUnderscores (name : Bytes) : Bytes :=
  ((name.dropWhile (· == 95)).reverse.dropWhile (· == 95)).reverse

/-- `removeDup` (`index.go:22-33`). -/
def removeDup (seen : List Bytes) : List Bytes → List Bytes
  | [] => []
  | w :: ws => if w ∈ seen then removeDup seen ws else w :: removeDup (w :: seen) ws

/-- `Tokenise` (`index.go:6-16`). -/
def tokenise (u : Uni) (name : Bytes) : Option (List Bytes) :=
  (casing u name).map fun ws =>
    removeDup [] (name :: (if trimUnderscores name ≠ name then [trimUnderscores name] else []) ++ ws)

end Verif.Tokeniser
