import Verif.Common.Bytes

/-!
The tree of symbols of a document and its traversals (`analysis/symbol.go` 102-161).
-/

namespace Verif.Symbols

/-- A symbol with what is known about it and, if it is a `BlockSymbol`, its children (`symbol.go:51-55`). A symbol
that is no block has no children. -/
inductive Tree (α : Type) where
  | node (info : α) (kids : List (Tree α))
  deriving Repr

def Tree.info {α : Type} : Tree α → α
  | .node a _ => a

def Tree.kids {α : Type} : Tree α → List (Tree α)
  | .node _ ts => ts

/-- `traverser` (`symbol.go:102-105`). -/
structure Trav where
  shouldStop : Bool
  stopDescent : Bool
  deriving DecidableEq, Repr

/-- `newTraverser` (`symbol.go:107-109`). -/
def Trav.new : Trav := ⟨false, false⟩

/-- A visitor: a Go closure with the variables it captures as `σ`. It is given the traverser, whose fields it may
set, and the spine, the symbol itself being the last one. It is assumed not to keep the spine, whose array is used
again, and not to change the tree; this holds for all visitors of the code (`document.go:368,448,480,516`,
`store.go:512`). -/
abbrev Visitor (σ α : Type) := σ → Trav → List (Tree α) → σ × Trav

mutual

/-- `traverseBlock` (`symbol.go:123-143`). -/
def traverseBlock {σ α : Type} (fn : Visitor σ α) (spine : List (Tree α)) (x : σ) (t : Trav) : Tree α → σ × Trav
  | .node a kids =>
    let r := fn x t (spine ++ [.node a kids])
    if r.2.shouldStop then r
    else
      let r := if !r.2.stopDescent then traverseAll fn (spine ++ [.node a kids]) r.1 r.2 kids else r
      (r.1, { r.2 with stopDescent := false })

/-- The loops over children (`symbol.go:131-141`, and `traverseDocument`, `111-121`, with an empty spine). -/
def traverseAll {σ α : Type} (fn : Visitor σ α) (spine : List (Tree α)) (x : σ) (t : Trav) : List (Tree α) → σ × Trav
  | [] => (x, t)
  | s :: ss =>
    let r := traverseBlock fn spine x t s
    if r.2.shouldStop then r else traverseAll fn spine r.1 r.2 ss

end

/-- `traverseDocument` with a new traverser (`symbol.go:111-121`): what is left in the variables of the visitor. -/
def traverseDocument {σ α : Type} (fn : Visitor σ α) (x : σ) (doc : List (Tree α)) : σ :=
  (traverseAll fn [] x .new doc).1

mutual

/-- `TraverseSymbol` (`symbol.go:151-161`). -/
def traverseSymbol {σ α : Type} (pre post : σ → Tree α → σ) (x : σ) : Tree α → σ
  | .node a kids => post (traverseSymbols pre post (pre x (.node a kids)) kids) (.node a kids)

/-- The loops over children in `TraverseSymbol`, and `TraverseDocument` (`symbol.go:145-149`). -/
def traverseSymbols {σ α : Type} (pre post : σ → Tree α → σ) (x : σ) : List (Tree α) → σ
  | [] => x
  | s :: ss => traverseSymbols pre post (traverseSymbol pre post x s) ss

end

/-! ### specification: symbols are named by their path in the tree -/

/-- The place of a symbol: its number in the document, then among the children of that symbol, and so on. -/
abbrev Path := List Nat

/-- The symbols on the way to a path, the last one being the symbol at that path; `none` if there is none. -/
def spineAt {α : Type} : List (Tree α) → Path → Option (List (Tree α))
  | _, [] => some []
  | ts, i :: p =>
    match ts[i]? with
    | none => none
    | some s => (spineAt s.kids p).map (s :: ·)

/-- A path that leads to a symbol. -/
def Valid {α : Type} (ts : List (Tree α)) (p : Path) : Prop := p ≠ [] ∧ spineAt ts p ≠ none

/-- All paths in a list, each of them smaller than the later ones in the order of the text: a symbol comes before
the symbols below it and these before the next symbol of the same level. -/
def InOrder (ps : List Path) : Prop := ps.Pairwise (List.Lex (· < ·))

/-- Visit the symbols at the given paths, except below the paths in `refused`. If the visitor refuses descent, the
paths below are left out; if it stops, nothing else is visited. -/
def visitAll {σ α : Type} (fn : Visitor σ α) (ts : List (Tree α)) : (refused : List Path) → σ → List Path → σ
  | _, x, [] => x
  | refused, x, p :: ps =>
    if refused.any (fun r => r.isPrefixOf p) then visitAll fn ts refused x ps
    else
      let r := fn x .new ((spineAt ts p).getD [])
      if r.2.shouldStop then r.1
      else if r.2.stopDescent then visitAll fn ts (p :: refused) r.1 ps
      else visitAll fn ts refused r.1 ps

end Verif.Symbols
