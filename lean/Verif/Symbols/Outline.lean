import Verif.Symbols.Tree
import Verif.Common.Position

/-! The document outline (`internal/lsp/symbol.go` 10-130). -/

namespace Verif.Symbols

/-- The Go types of the symbols of a document, as far as the outline tells them apart (`symbol.go:54-130`); `other`
stands for all other types: expressions, calls, argument lists, anonymous functions, imports, … -/
inductive Kind where
  | class_ | const_ | classConst | define | function | interface_ | method | property | trait_ | other
  deriving DecidableEq, Repr

/-- What the outline uses of a symbol: its type, the name and description it shows and its range. -/
structure Sym where
  kind : Kind
  name : Bytes
  detail : Bytes
  range : Rng
  deriving DecidableEq, Repr

/-- `protocol.DocumentSymbol` without its children; the kind is the number of the LSP (`protocol.SymbolKind`), 0
being no kind. -/
structure Entry where
  kind : Nat
  name : Bytes
  detail : Bytes
  range : Rng
  selectionRange : Rng
  deriving DecidableEq, Repr

/-- `symbolToProtocolDocumentSymbol` (`symbol.go:54-130`); the second result is not used by the outline. -/
def entryOf (s : Sym) : Entry :=
  match s.kind with
  | .class_ => ⟨5, s.name, s.detail, s.range, s.range⟩
  | .const_ => ⟨14, s.name, s.detail, s.range, s.range⟩
  | .classConst => ⟨14, s.name, s.detail, s.range, s.range⟩
  | .define => ⟨14, s.name, s.detail, s.range, s.range⟩
  | .function => ⟨12, s.name, s.detail, s.range, s.range⟩
  | .interface_ => ⟨11, s.name, s.detail, s.range, s.range⟩
  | .method => ⟨6, s.name, s.detail, s.range, s.range⟩
  | .property => ⟨7, s.name, s.detail, s.range, s.range⟩
  | .trait_ => ⟨5, s.name, s.detail, s.range, s.range⟩
  | .other => ⟨0, [], [], ⟨⟨0, 0⟩, ⟨0, 0⟩⟩, ⟨⟨0, 0⟩, ⟨0, 0⟩⟩⟩

mutual

/-- `toDocumentSymbolRecursive` (`symbol.go:10-25`). -/
def toDocumentSymbol : Tree Sym → Tree Entry
  | .node a kids => .node (entryOf a) (toDocumentSymbols kids)

/-- The loops that collect the entries of some symbols (`symbol.go:13-22` and `41-50`). -/
def toDocumentSymbols : List (Tree Sym) → List (Tree Entry)
  | [] => []
  | s :: ss =>
    let d := toDocumentSymbol s
    (if d.info.kind = 0 then d.kids else [d]) ++ toDocumentSymbols ss

end

/-- `documentSymbol` for a document that is found (`symbol.go:27-52`). -/
def documentSymbol (doc : List (Tree Sym)) : List (Tree Entry) := toDocumentSymbols doc

/-! ### specification -/

/-- The declarations. -/
def Declares (s : Sym) : Bool := s.kind != .other

/-- What is known about the symbols on the way to a path. -/
def infosAt {α : Type} (ts : List (Tree α)) (p : Path) : List α := ((spineAt ts p).getD []).map Tree.info

/-- The entry shows the symbol: its name, description and range, and a kind that suits its type. -/
def Shows (e : Entry) (s : Sym) : Prop :=
  e.name = s.name ∧ e.detail = s.detail ∧ e.range = s.range ∧ e.selectionRange = s.range ∧
    (s.kind = .class_ ∨ s.kind = .trait_ ↔ e.kind = 5) ∧ (s.kind = .method ↔ e.kind = 6) ∧
    (s.kind = .property ↔ e.kind = 7) ∧ (s.kind = .interface_ ↔ e.kind = 11) ∧ (s.kind = .function ↔ e.kind = 12) ∧
    (s.kind = .const_ ∨ s.kind = .classConst ∨ s.kind = .define ↔ e.kind = 14)

/-- `xs` and `ys` have the same length and correspond one by one. -/
inductive Correspond {α β : Type} (R : α → β → Prop) : List α → List β → Prop where
  | nil : Correspond R [] []
  | cons {x : α} {y : β} {xs : List α} {ys : List β} : R x y → Correspond R xs ys → Correspond R (x :: xs) (y :: ys)

end Verif.Symbols
