import Verif.Common.Position
import Verif.Common.Strings

/-!
The marks for syntax errors: `GetParserDiagnostics` (`analysis/diagnostic.go` 15-52), `errorRange`
(`analysis/document.go` 224-238) and the traversal of syntax trees (`util/traverser.go` 94-114).
-/

namespace Verif.Marks

/-- `lexer.Token`: the name of its type (`Type.String()`), where it begins and its length. -/
structure Token where
  type : Bytes
  offset : Nat
  length : Nat
  deriving DecidableEq, Repr

/-- A child of a `phrase.ParseError`: a token, or a phrase, for which the type assertions of `errorRange` panic. -/
inductive Skipped where
  | token (t : Token)
  | phrase
  deriving DecidableEq, Repr

/-- `phrase.ParseError`: `Unexpected` may be nil, `Expected` may be `lexer.Undefined` (`none`); `Children` is what the
parser skipped. -/
structure ParseError where
  unexpected : Option Token
  expected : Option Bytes
  children : List Skipped
  deriving DecidableEq, Repr

/-- `phrase.AstNode`. Of the type of a phrase only `DocumentComment` matters here. -/
inductive Tree where
  | token (t : Token)
  | phrase (isDocumentComment : Bool) (kids : List Tree)
  | error (e : ParseError)
  deriving Repr

/-- `protocol.DiagnosticSeverity`. -/
inductive Severity where
  | error | hint
  deriving DecidableEq, Repr

/-- `protocol.Diagnostic`, without the tags; `source` is always `phpintel`. -/
structure Diagnostic where
  range : Rng
  message : Bytes
  severity : Severity
  deriving DecidableEq, Repr

/-- The token of a child; `none` is the panic of `.(*lexer.Token)`. -/
def Skipped.asToken : Skipped → Option Token
  | .token t => some t
  | .phrase => none

/-- `errorRange` (`document.go:224-238`); `none` is a panic. `posAt` is `positionAt` (C22). -/
def errorRange (posAt : Nat → Pos) (e : ParseError) : Option Rng :=
  match e.children with
  | [] => e.unexpected.map fun t => ⟨posAt t.offset, posAt (t.offset + t.length)⟩
  | k :: ks =>
    match k.asToken, ((k :: ks).getLast (List.cons_ne_nil k ks)).asToken with
    | some f, some l => some ⟨posAt f.offset, posAt (l.offset + l.length)⟩
    | _, _ => none

/-- The text of `parserErrorToDiagnostic` (`diagnostic.go:32-45`). -/
def errorMessage (e : ParseError) : Bytes :=
  let message : Bytes := []
  let message := match e.unexpected with
    | some t => message ++ (b!"Unexpected " ++ t.type ++ b!".")
    | none => message
  let message := match e.expected with
    | some x =>
      let message := if message.length ≠ 0 then message ++ b!" " else message
      message ++ (b!"Expected " ++ x ++ b!".")
    | none => message
  if message.length = 0 then message ++ b!"Unknown error" else message

/-- `parserErrorToDiagnostic` (`diagnostic.go:32-52`). -/
def errorDiagnostic (posAt : Nat → Pos) (e : ParseError) : Option Diagnostic :=
  (errorRange posAt e).map fun r => ⟨r, errorMessage e, .error⟩

/-- The visitor of `GetParserDiagnostics` (`diagnostic.go:19-27`) with the diagnostics so far: what is collected
and whether to go on below the node; `none` is a panic. -/
def visit (posAt : Nat → Pos) (ds : List Diagnostic) : Tree → Option (List Diagnostic × Bool)
  | .phrase true _ => some (ds, false)
  | .error e => (errorDiagnostic posAt e).map fun d => (ds ++ [d], true)
  | _ => some (ds, true)

mutual

/-- `realTraverse` (`traverser.go:99-114`) with that visitor. The visitor sets no `AscendNode`. -/
def traverse (posAt : Nat → Pos) (ds : List Diagnostic) : Tree → Option (List Diagnostic)
  | .token t => (visit posAt ds (.token t)).map (·.1)
  | .error e => (visit posAt ds (.error e)).map (·.1)
  | .phrase doc kids =>
    match visit posAt ds (.phrase doc kids) with
    | none => none
    | some (ds, ascend) => if !ascend then some ds else traverseAll posAt ds kids

/-- The loop over the children (`traverser.go:109-111`). -/
def traverseAll (posAt : Nat → Pos) (ds : List Diagnostic) : List Tree → Option (List Diagnostic)
  | [] => some ds
  | k :: ks =>
    match traverse posAt ds k with
    | none => none
    | some ds => traverseAll posAt ds ks

end

/-- `GetParserDiagnostics` (`diagnostic.go:15-30`). -/
def parserDiagnostics (posAt : Nat → Pos) (root : Tree) : Option (List Diagnostic) := traverse posAt [] root

/-! ### specification: nodes are named by their path in the syntax tree -/

/-- The node at a path: the number of the child of the root, then of its child, and so on. -/
def nodeAt : Tree → List Nat → Option Tree
  | t, [] => some t
  | .phrase _ kids, i :: p =>
    match kids[i]? with
    | some k => nodeAt k p
    | none => none
  | _, _ :: _ => none

/-- The error at a path, which is not inside a doc comment. -/
def ErrorAt (root : Tree) (p : List Nat) (e : ParseError) : Prop :=
  nodeAt root p = some (.error e) ∧ ∀ q, q <+: p → ∀ kids, nodeAt root q ≠ some (.phrase true kids)

/-- Where an error is: the range of what was skipped, from the beginning of its first token to the end of its last one,
or the token that was not expected if nothing was skipped. -/
def Covers (posAt : Nat → Pos) (e : ParseError) (r : Rng) : Prop :=
  (∃ f l, e.children.head? = some (.token f) ∧ e.children.getLast? = some (.token l) ∧
    r = ⟨posAt f.offset, posAt (l.offset + l.length)⟩) ∨
  (e.children = [] ∧ ∃ t, e.unexpected = some t ∧ r = ⟨posAt t.offset, posAt (t.offset + t.length)⟩)

/-- What an error says. -/
def Says (e : ParseError) (m : Bytes) : Prop :=
  (∃ t x, e.unexpected = some t ∧ e.expected = some x ∧ m = b!"Unexpected " ++ t.type ++ b!". Expected " ++ x ++ b!".") ∨
  (∃ t, e.unexpected = some t ∧ e.expected = none ∧ m = b!"Unexpected " ++ t.type ++ b!".") ∨
  (∃ x, e.unexpected = none ∧ e.expected = some x ∧ m = b!"Expected " ++ x ++ b!".") ∨
  (e.unexpected = none ∧ e.expected = none ∧ m = b!"Unknown error")

/-- The error has a place: its first and last skipped things are tokens, or nothing was skipped and it has a token that
was not expected. -/
def Placed (e : ParseError) : Prop :=
  (∃ f l, e.children.head? = some (.token f) ∧ e.children.getLast? = some (.token l)) ∨
  (e.children = [] ∧ e.unexpected ≠ none)

end Verif.Marks
