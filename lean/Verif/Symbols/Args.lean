import Verif.Symbols.Vars

/-! The arguments of a call (`analysis/argumentList.go`), the active parameter (`internal/lsp/signature.go` 47-50) and
the order of member completions (`internal/lsp/completion.go` 353-369, 396-412). -/

namespace Verif.Symbols
open Verif.Position (Before)

/-- A child of an argument list, as far as `newArgumentList` distinguishes them when it builds the ranges
(`argumentList.go:48-68`): a comma at a position, or anything else. -/
inductive ArgChild where
  | comma (at_ : Pos)
  | other
  deriving DecidableEq, Repr

/-- The position behind the comma: `positionAt(token.Offset + token.Length)` (`argumentList.go:56`), a comma being one
character on its line. -/
def afterComma (p : Pos) : Pos := ⟨p.line, p.character + 1⟩

/-- The ranges that `newArgumentList` collects (`argumentList.go:45-72`), from the current start. -/
def argRanges (start stop : Pos) : List ArgChild → List Rng
  | [] => [⟨start, stop⟩]
  | .comma p :: cs => ⟨start, p⟩ :: argRanges (afterComma p) stop cs
  | .other :: cs => argRanges start stop cs

/-- `signatureHelp.ActiveParameter` (`signature.go:47-50`) for the argument list with this range and these children. -/
def activeParameter (list : Rng) (children : List ArgChild) (pos : Pos) : Nat :=
  searchList (argRanges list.start list.stop children) fun r => decide (isInRange pos r ≤ 0)

/-- `sort.insertionSort_func` (Go standard library, `zsortfunc.go`), as `sort.SliceStable` runs it on at most twenty
elements: the inner loop `for j := i; j > 0 && less(j, j-1); j-- { swap(j, j-1) }`. -/
def sinkDown {α : Type} (less : Nat → Nat → Bool) (items : List α) : Nat → List α
  | 0 => items
  | j + 1 =>
    if less (j + 1) j then
      match items[j]?, items[j + 1]? with
      | some a, some b => sinkDown less ((items.set j b).set (j + 1) a) j
      | _, _ => items
    else items

/-- The outer loop, `for i := 1; i < n; i++`. -/
def insertionSort {α : Type} (less : Nat → Nat → Bool) (items : List α) : List α :=
  (List.range items.length).foldl (fun items i => sinkDown less items i) items

/-- The ordering of member completions (`completion.go:353-369`, `396-412`): the items are swapped, the scores that
`less` compares are not. For at most twenty items. -/
def orderItems {α : Type} (items : List (α × Int)) : List α :=
  insertionSort (fun i j => decide (((items.map Prod.snd)[i]?).getD 0 < ((items.map Prod.snd)[j]?).getD 0)) (items.map Prod.fst)

/-! ### specification -/

/-- The commas of an argument list. -/
def commas : List ArgChild → List Pos
  | [] => []
  | .comma p :: cs => p :: commas cs
  | .other :: cs => commas cs

/-- The commas follow each other in the text, inside the list. -/
def CommasInOrder (list : Rng) (children : List ArgChild) : Prop :=
  (commas children).Pairwise Before ∧ ∀ p ∈ commas children, ¬ Before p list.start ∧ Before p list.stop

/-- A list that swaps made from another one. -/
inductive Swapped {α : Type} : List α → List α → Prop
  | refl (l : List α) : Swapped l l
  | swap {l l' : List α} (i j : Nat) (a b : α) : Swapped l l' → l'[i]? = some a → l'[j]? = some b →
      Swapped l ((l'.set i b).set j a)

end Verif.Symbols
