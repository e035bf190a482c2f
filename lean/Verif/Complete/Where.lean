import Verif.Complete.PropsInsert
import Verif.Complete.PropsMembers
import Verif.Complete.PropsNames
import Verif.References.PropsFind
import Verif.Analyser.PropsVariables
import Verif.Decl.Model

/-!
Model of the handler of completion requests (`internal/lsp/completion.go` 61-179): which list is made, by the phrases around
the token at the cursor and the symbol there.
-/

namespace Verif.Complete
open Verif.Analyser (Node Tok PType TokType Ctx)
open Verif.Query (World Access)
open Verif.Imports (Table)
open Verif.Store (Env Store)
open Verif.References (nodeSpineAt phraseType)

/-- `phrase.EncapsulatedVariableList`, one of the phrases that the analysis only looks into (`symbolBlock.go:74`). -/
abbrev encapsulatedVariableList : PType := .transparent 110

/-- The Go types of symbols with types, as far as the handler tells them apart (`completion.go:88-177`). An access carries
its scope with its types, if it has one: types and name of the scope are those after `Resolve`. -/
inductive CSym where
  | designator (name : Bytes) | classAccess (name : Bytes) (own : Access) | typeDeclaration (name : Bytes)
  | scopedProperty (scope : Access) | scopedConstant (scope : Option Access) | scopedMethod (scope : Option Access)
  | property (scope : Option Access) | method (scope : Option Access)
  | other
  deriving DecidableEq, Repr

/-- Which list is made, for which word or scope. -/
inductive Choice where
  | nothing | vars
  | names (word : Bytes) | classes (word : Bytes) | interfaces (word : Bytes) | traits (word : Bytes) | types (word : Bytes)
  | static (a : Access) | members (a : Access)
  deriving DecidableEq, Repr

/-- What the handler asks the document for. `found` is `HasTypesAtPos` (C63), `foundAt` is `HasTypesAt`, `before` is
`HasTypesBeforePos`, as the scope of an access (`fromHasTypes`, 32-42). -/
structure Ask where
  root : Node
  offset : Nat
  word : Bytes
  found : Option CSym
  foundAt : Nat → Option CSym
  before : Option Access

/-- The type of the phrase that the next call of `Parent` yields after `i` calls (`util/traverser.go:149-171`). -/
def parentType (ps : List Node) (i : Nat) : Option PType := phraseType ps[i]?

/-- `scopedAccessCompletion` if the access has a scope (e.g. `completion.go:116-120`). -/
def scopedIf (scope : Option Access) : Choice := scope.elim .nothing .static

/-- The same for `memberAccessCompletion` (e.g. `completion.go:155-160`). -/
def membersIf (scope : Option Access) : Choice := scope.elim .nothing .members

/-- `case phrase.ErrorScopedAccessExpression, phrase.ClassConstantAccessExpression` (`completion.go:115-120`). -/
def onConstant : Option CSym → Choice
  | some (.scopedConstant s) => scopedIf s
  | _ => .nothing

/-- `case phrase.ScopedCallExpression` (`completion.go:121-126`). -/
def onScopedCall : Option CSym → Choice
  | some (.scopedMethod s) => scopedIf s
  | _ => .nothing

/-- `case phrase.ScopedPropertyAccessExpression` (`completion.go:127-132`), and a variable in a scoped member name
(`90-95`), where the scope is not tested; the analysis gives every such access a scope. -/
def onScopedProperty : Option CSym → Choice
  | some (.scopedProperty a) => .static a
  | _ => .nothing

/-- A property after an arrow (`completion.go:154-160`). -/
def onProperty : Option CSym → Choice
  | some (.property s) => membersIf s
  | _ => .nothing

/-- A method after an arrow (`completion.go:161-167`). -/
def onMethod : Option CSym → Choice
  | some (.method s) => membersIf s
  | _ => .nothing

/-- `case phrase.Identifier` (`completion.go:133-143`): the symbol at the first token of the access. -/
def onClass : Option CSym → Choice
  | some (.classAccess _ own) => .static own
  | _ => .nothing

/-- The first `switch` (`completion.go:88-169`). `ps` are the parents of the token, innermost first, and `i` is the number
of calls of `nodes.Parent()` before. `FirstToken` of a phrase without children panics. -/
def byPhrase (q : Ask) (ps : List Node) (i : Nat) (parent : Option PType) : Option Choice :=
  match parent with
  | some .simpleVariable | some (.transparent 110) =>
    if parentType ps i = some .scopedMemberName then some (onScopedProperty q.found) else some .vars
  | some .namespaceName =>
    match parentType ps (i + 1) with
    | some .constantAccessExpression => some (.names q.word)
    | some .classBaseClause => some (.classes q.word)
    | some (.opaque 103) => some (.interfaces q.word)
    | some .qualifiedNameList =>
      match parentType ps (i + 2) with
      | some .classInterfaceClause => some (.interfaces q.word)
      | some .traitUseClause => some (.traits q.word)
      | _ => some .nothing
    | _ => some .nothing
  | some .errorScopedAccessExpression | some .classConstantAccessExpression => some (onConstant q.found)
  | some .scopedCallExpression => some (onScopedCall q.found)
  | some .scopedPropertyAccessExpression => some (onScopedProperty q.found)
  | some .identifier =>
    match parentType ps (i + 1) with
    | some .classConstantAccessExpression | some .scopedCallExpression =>
      (ps[i + 1]?.bind Analyser.firstToken).map fun t => onClass (q.foundAt t.offset)
    | _ => some .nothing
  | some .propertyAccessExpression => some (membersIf q.before)
  | some .memberName =>
    match parentType ps i with
    | some .propertyAccessExpression => some (onProperty q.found)
    | some .methodCallExpression => some (onMethod q.found)
    | _ => some .nothing
  | _ => some .nothing

/-- The second `switch` (`completion.go:170-177`). -/
def bySymbol : Option CSym → Choice → Choice
  | some (.designator name), _ => .classes name
  | some (.classAccess name _), _ => .types name
  | some (.typeDeclaration name), _ => .types name
  | _, x => x

/-- The parents of the token at the cursor, innermost first (`completion.go:81`). -/
def Ask.parents (q : Ask) : List Node := ((nodeSpineAt q.root q.offset).map (·.1)).getD []

/-- Which list is made (`completion.go:81-177`). `none` is a panic. -/
def choose (q : Ask) : Option Choice :=
  let ps := q.parents
  (if parentType ps 0 = some .scopedMemberName then byPhrase q ps 2 (parentType ps 1)
    else byPhrase q ps 1 (parentType ps 0)).map (bySymbol q.found)

/-! ### the lists -/

/-- What the lists are made from: the index and the import table at the cursor for names; the document for variables;
the classes of the index, `hasParams`, the matching of words and the class around the cursor for members. -/
structure Setting where
  env : Env
  store : Store
  table : Table
  ctx : Ctx
  pos : Pos
  world : World
  keyOf : Bytes → Bytes
  classes : Nat
  interfaces : Nat
  hasParams : Nat → Bool
  isMatch : Bytes → Option Int
  currentClass : Bytes

/-- What is sent to the editor. -/
inductive Shown where
  | nothing | vars (l : List Bytes) | names (l : CList) | members (l : List MItem)

/-- `completionCtx.token` is a variable or a dollar sign (`completion.go:338`); `Dollar` is one of the tokens that the
analysis does not tell apart. -/
def isDollar (q : Ask) : Bool :=
  match ((nodeSpineAt q.root q.offset).map fun x => x.2.type : Option TokType) with
  | some .variableName | some (.other 36) => true
  | _ => false

/-- The list for a choice. -/
def list (g : Setting) (q : Ask) : Choice → Option Shown
  | .nothing => some .nothing
  | .vars => some (.vars (Analyser.variableCompletion g.ctx q.root g.pos q.word))
  | .names word => (nameCompletion g.env g.store g.table word baseLimit).map .names
  | .classes word => (classCompletion g.env g.store g.table word baseLimit).map .names
  | .interfaces word => (interfaceCompletion g.env g.store g.table word baseLimit).map .names
  | .traits word => (traitCompletion g.env g.store g.table word baseLimit).map .names
  | .types word => (typeCompletion g.env g.store g.table word baseLimit).map .names
  | .static a => (scopedCompletion g.world g.keyOf g.classes g.interfaces g.hasParams g.isMatch q.word (isDollar q) a
      g.currentClass).map .members
  | .members a => (memberCompletion g.world g.keyOf g.classes g.interfaces g.hasParams g.isMatch q.word a g.currentClass).map
      .members

/-- `completion` (`completion.go:61-179`) of a document that is there. `none` is a panic. -/
def completion (g : Setting) (q : Ask) : Option Shown := (choose q).bind (list g q)

end Verif.Complete
