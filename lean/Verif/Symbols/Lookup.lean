import Verif.Symbols.Tree
import Verif.Common.Position
import Verif.Common.Search
import Verif.Position.Props

/-! Finding symbols at a position (`analysis/document.go` 364-542). -/

namespace Verif.Symbols
open Verif.Position (Before)

/-- The Go types of symbols as far as the lookups tell them apart. -/
inductive LKind where
  | class_ | interface_ | trait_
  /-- `*ArgumentList` -/
  | args
  /-- `*ClassTypeDesignator` -/
  | designator
  /-- `*Variable`, for renaming (`lsp/reference.go:105`) -/
  | variable
  | other
  deriving DecidableEq, Repr

/-- What the lookups use of a symbol: its range, its Go type, whether it implements `HasTypes` and whether it
implements `HasParamsResolvable`. `tag` is not used by the lookups; it is the name for renaming. -/
structure Info where
  range : Rng
  kind : LKind
  hasTypes : Bool
  hasParams : Bool
  tag : Bytes
  deriving DecidableEq, Repr

/-- The closure of `HasTypesAtPos` (`document.go:445-462`). -/
def atPosVisitor (pos : Pos) : Visitor (Option (Tree Info)) Info := fun x t spine =>
  match spine.getLast? with
  | none => (x, t)
  | some s =>
    let rel := isInRange pos s.info.range
    if rel = 0 ∨ (rel > 0 ∧ comparePos pos s.info.range.stop = 0) then
      (if s.info.hasTypes then some s else x, t)
    else if rel < 0 then (x, { t with shouldStop := true })
    else if rel > 0 then (x, { t with stopDescent := true })
    else (x, t)

/-- `HasTypesAtPos` (`document.go:445-462`). -/
def hasTypesAtPos (doc : List (Tree Info)) (pos : Pos) : Option (Tree Info) :=
  traverseDocument (atPosVisitor pos) none doc

/-- The closure of `hasTypesBeforePos` (`document.go:477-496`). -/
def beforePosVisitor (pos : Pos) : Visitor (Option (Tree Info)) Info := fun x t spine =>
  match spine.getLast? with
  | none => (x, t)
  | some s =>
    let rel := isInRange pos s.info.range
    if rel > 0 then (if s.info.hasTypes then some s else x, { t with stopDescent := true })
    else if rel < 0 then (x, { t with shouldStop := true })
    else (if s.info.hasTypes then some s else x, t)

/-- `hasTypesBeforePos` (`document.go:477-496`). -/
def hasTypesBeforePos (doc : List (Tree Info)) (pos : Pos) : Option (Tree Info) :=
  traverseDocument (beforePosVisitor pos) none doc

/-- `*Class`, `*Interface` or `*Trait`. -/
def LKind.classLike : LKind → Bool
  | .class_ | .interface_ | .trait_ => true
  | _ => false

/-- The closure of `ClassAt` (`document.go:365-383`). -/
def classAtVisitor (pos : Pos) : Visitor (Option (Tree Info)) Info := fun x t spine =>
  match spine.getLast? with
  | none => (x, t)
  | some s =>
    let rel := isInRange pos s.info.range
    if rel > 0 then (x, { t with stopDescent := true })
    else if rel = 0 then (if s.info.kind.classLike then some s else x, t)
    else (x, { t with shouldStop := true })

/-- `ClassAt` (`document.go:365-383`). -/
def classAt (doc : List (Tree Info)) (pos : Pos) : Option (Tree Info) :=
  traverseDocument (classAtVisitor pos) none doc

/-- The closure of `ArgumentListAndFunctionCallAt` (`document.go:516-534`), with the variables `argumentList` and
`hasParamsResolvable`. -/
def argsVisitor (pos : Pos) : Visitor (Option (Tree Info) × Option (Tree Info)) Info := fun x t spine =>
  match spine.getLast? with
  | none => (x, t)
  | some s =>
    let rel := isInRange pos s.info.range
    if rel = 0 then
      if s.info.kind = .args then
        let resolvable :=
          match spine.reverse with
          | _ :: c :: d :: _ => if c.info.kind = .class_ ∧ d.info.kind = .designator then some d else x.2
          | _ => x.2
        ((some s, resolvable), t)
      else (x, t)
    else if rel < 0 then (x, { t with shouldStop := true })
    else if rel > 0 then (x, { t with stopDescent := true })
    else (x, t)

/-- `ArgumentListAndFunctionCallAt` (`document.go:512-542`). -/
def argumentListAndFunctionCallAt (doc : List (Tree Info)) (pos : Pos) : Option (Tree Info) × Option (Tree Info) :=
  let r := traverseDocument (argsVisitor pos) (none, none) doc
  match r.1, r.2 with
  | some a, none =>
    match hasTypesBeforePos doc a.info.range.start with
    | some h => (some a, if h.info.hasParams then some h else none)
    | none => (some a, none)
  | _, _ => r

/-- `getClassAtPos` (`document.go:415-423`); `classes` is `classStack`: the classes, interfaces and traits of the
document in the order in which their declarations begin (`addClass`, `385-394`, is called at the beginning of
`newClass`, `newAnonymousClass`, `newInterface` and `newTrait`). -/
def getClassAtPos (classes : List Info) (pos : Pos) : Option Info :=
  let index := goSearch classes.length fun i =>
    match classes[i]? with
    | some c => decide (isInRange pos c.range ≤ 0)
    | none => true
  classes[index]?

/-! ### specification -/

/-- The symbol at a path. -/
def symAt {α : Type} (doc : List (Tree α)) (p : Path) : Option (Tree α) := (spineAt doc p).bind List.getLast?

/-- The position is in the range. -/
def Inside (pos : Pos) (r : Rng) : Prop := ¬ Before pos r.start ∧ Before pos r.stop

/-- The position is in the range or at its end. -/
def Touches (pos : Pos) (r : Rng) : Prop := ¬ Before pos r.start ∧ ¬ Before r.stop pos

/-- `r` is, in the order of the text, the last symbol with the property; `none` if there is none. -/
def IsLast (doc : List (Tree Info)) (G : Path → Info → Prop) (r : Option (Tree Info)) : Prop :=
  (r = none ∧ ∀ p s, symAt doc p = some s → ¬ G p s.info) ∨
  ∃ p s, symAt doc p = some s ∧ r = some s ∧ G p s.info ∧
    ∀ q t, symAt doc q = some t → G q t.info → q = p ∨ List.Lex (· < ·) q p

/-- No symbol with the property begins before a symbol that precedes it in the tree. -/
def StartsInOrder (doc : List (Tree Info)) (G : Info → Prop) : Prop :=
  ∀ p q s t, symAt doc p = some s → symAt doc q = some t → List.Lex (· < ·) p q → G t.info →
    ¬ Before t.info.range.start s.info.range.start

/-- No symbol with the property ends after a symbol it is in. -/
def EndsInside (doc : List (Tree Info)) (G : Info → Prop) : Prop :=
  ∀ p q s t, symAt doc p = some s → symAt doc q = some t → p <+: q → G t.info →
    ¬ Before s.info.range.stop t.info.range.stop

/-- No symbol the symbol at path `p` is in has ended at the position. -/
def InOpen (doc : List (Tree Info)) (pos : Pos) (p : Path) : Prop :=
  ∀ q t, symAt doc q = some t → q <+: p → q ≠ p → Before pos t.info.range.stop

end Verif.Symbols
