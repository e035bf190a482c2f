import Verif.Symbols.Lookup
import Verif.Symbols.Args
import Verif.Analyser.Ast

/-!
The names of parameters that are shown at the arguments of calls: `documentSignatures` (`internal/lsp/signature.go`
55-92), and the arguments of a call (`analysis/argumentList.go` 38-104).
-/

namespace Verif.Marks
open Verif.Analyser (Node Tok Ctx PType TokType)
open Verif.Symbols (Info Path ArgChild)

/-- The arguments that `newArgumentList` collects (`argumentList.go:48-75`). -/
def arguments (c : Ctx) : List Node → List Node
  | [] => []
  | .tok t :: ks =>
    if t.type = .comma then arguments c ks
    else if !c.ignored t.type then .tok t :: arguments c ks
    else arguments c ks
  | .phr ty kids :: ks => .phr ty kids :: arguments c ks
  | .err _ :: ks => arguments c ks

/-- `argumentRanges` (`argumentList.go:80-82`). -/
def argumentRanges (c : Ctx) (kids : List Node) : List Rng := (arguments c kids).map c.range

/-- The children of an argument list as `Symbols/Args.lean` sees them, for the ranges between the commas
(`argumentList.go:48-79`). -/
def argChildren (c : Ctx) (kids : List Node) : List ArgChild :=
  kids.map fun
    | .tok t => if t.type = .comma then .comma (c.posAt t.offset) else .other
    | _ => .other

/-- `protocol.TextEdit`: the name that is shown and the argument. -/
structure Hint where
  text : Bytes
  range : Rng
  deriving DecidableEq, Repr

/-- The loop over the parameters (`signature.go:77-85`), from the parameter number `i`. -/
def hintLoop (ranges : List Rng) : Nat → List Bytes → List Hint
  | _, [] => []
  | i, name :: names =>
    match ranges[i]? with
    | none => []
    | some r => ⟨name, r⟩ :: hintLoop ranges (i + 1) names

/-- What is added for one symbol (`signature.go:71-88`). -/
def hintsAt (doc : List (Symbols.Tree Info)) (ranges : Info → List Rng) (resolve : Info → List (List Bytes))
    (s : Symbols.Tree Info) : List Hint :=
  if s.info.kind = .args then
    match Symbols.hasTypesBeforePos doc s.info.range.start with
    | some h =>
      if h.info.hasParams then
        match resolve h.info with
        | first :: _ => hintLoop (ranges s.info) 0 first
        | [] => []
      else []
    | none => []
  else []

/-- `documentSignatures` (`signature.go:67-91`): `ranges` gives the ranges of the arguments of an argument list
(`argumentRanges` of its node), `resolve` the names of the parameters of the declarations that
`ResolveToHasParams` finds for a call (`Query.signatures`, with the parameters of C79). -/
def documentHints (doc : List (Symbols.Tree Info)) (ranges : Info → List Rng) (resolve : Info → List (List Bytes)) :
    List Hint :=
  Symbols.traverseSymbols (fun out s => out ++ hintsAt doc ranges resolve s) (fun out _ => out) [] doc

/-! ### specification -/

/-- White space, a comment or a parenthesis; or something the parser could not read. -/
def Blank (c : Ctx) (n : Node) : Prop :=
  (∃ t, n = .tok t ∧ t.type ≠ .comma ∧ c.ignored t.type = true) ∨ ∃ t, n = .err t

/-- An expression: a phrase or a single token such as a number. -/
def Expression (c : Ctx) (n : Node) : Prop :=
  (∃ ty kids, n = .phr ty kids) ∨ ∃ t, n = .tok t ∧ t.type ≠ .comma ∧ c.ignored t.type = false

/-- The children of an argument list are these expressions, separated by commas, with blanks around them. There may be a
comma after the last one. -/
inductive Lists (c : Ctx) : List Node → List Node → Prop
  | nil (blanks : List Node) : (∀ n ∈ blanks, Blank c n) → Lists c blanks []
  | last (before after : List Node) (e : Node) : (∀ n ∈ before, Blank c n) → Expression c e → (∀ n ∈ after, Blank c n) →
      Lists c (before ++ e :: after) [e]
  | cons (before after : List Node) (e : Node) (comma : Tok) (rest es : List Node) : (∀ n ∈ before, Blank c n) →
      Expression c e → (∀ n ∈ after, Blank c n) → comma.type = .comma → Lists c rest es →
      Lists c (before ++ e :: (after ++ .tok comma :: rest)) (e :: es)

/-- The hints for the argument list at a path: the call is the last symbol with types that begins at or before the list
and is not inside a symbol that has ended there; the parameters are those of the first declaration it refers to; the
number `i` of the hints is the name of parameter `i`, at argument `i`. -/
def Hinted (doc : List (Symbols.Tree Info)) (ranges : Info → List Rng) (resolve : Info → List (List Bytes)) (p : Path)
    (hints : List Hint) : Prop :=
  ∃ list call params, Symbols.symAt doc p = some list ∧
    Symbols.IsLast doc (fun q i => i.hasTypes = true ∧ ¬ Position.Before list.info.range.start i.range.start ∧
      Symbols.InOpen doc list.info.range.start q) call ∧
    (match call with
      | none => params = []
      | some h => (h.info.hasParams = true ∧ params = (resolve h.info).headD []) ∨
          (h.info.hasParams = false ∧ params = [])) ∧
    ∀ (i : Nat) (x : Hint), hints[i]? = some x ↔
      ∃ name r, params[i]? = some name ∧ (ranges list.info)[i]? = some r ∧ x = ⟨name, r⟩

end Verif.Marks
