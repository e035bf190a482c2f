import Verif.Types.Model
import Verif.Common.GoMap
import Verif.Common.Position
import Verif.Common.Search

/-! Model of `analysis/importTable.go`, of the import tables of a document and of `analysis/insertUse.go`. -/

namespace Verif.Imports
open Verif.Types

/-- `importItem` (`analysis/importTable.go:11-15`). -/
structure Item where
  name : Bytes
  range : Rng
  isUsed : Bool
  deriving DecidableEq, Repr, Inhabited

/-- `ImportTable` (`importTable.go:17-23`). `namespace` is nil outside namespaces. -/
structure Table where
  start : Pos
  ns : Option Bytes
  classes : GoMap Bytes Item
  functions : GoMap Bytes Item
  constants : GoMap Bytes Item
  deriving DecidableEq, Repr, Inhabited

/-- `newImportTable` (`importTable.go:25-38`), given the position of the node's first token. -/
def newTable (start : Pos) : Table := { start := start, ns := none, classes := [], functions := [], constants := [] }

/-- `makeSureAliasIsNotEmpty` (`importTable.go:40-46`). -/
def sureAlias (alias name : Bytes) : Bytes :=
  if alias = [] then (splitB 92 name).getLast (splitB_ne_nil _ _) else alias

/-- `addClassName` (`importTable.go:48-54`). -/
def Table.addClassName (i : Table) (alias name : Bytes) (r : Rng) : Table :=
  { i with classes := i.classes.set (sureAlias alias name) { name := name, range := r, isUsed := false } }

/-- `addFunctionName` (`importTable.go:56-62`). -/
def Table.addFunctionName (i : Table) (alias name : Bytes) (r : Rng) : Table :=
  { i with functions := i.functions.set (sureAlias alias name) { name := name, range := r, isUsed := false } }

/-- `addConstName` (`importTable.go:64-70`). -/
def Table.addConstName (i : Table) (alias name : Bytes) (r : Rng) : Table :=
  { i with constants := i.constants.set (sureAlias alias name) { name := name, range := r, isUsed := false } }

/-- `GetNamespace` (`importTable.go:211-216`). -/
def Table.getNamespace (i : Table) : Bytes := i.ns.getD []

/-- `useClass` (`importTable.go:224-228`). -/
def Table.useClass (i : Table) (name : Bytes) : Table :=
  match i.classes.get name with
  | some item => { i with classes := i.classes.set name { item with isUsed := true } }
  | none => i

/-- `useFunction` (`importTable.go:230-234`). -/
def Table.useFunction (i : Table) (name : Bytes) : Table :=
  match i.functions.get name with
  | some item => { i with functions := i.functions.set name { item with isUsed := true } }
  | none => i

/-- `useConstant` (`importTable.go:236-240`). -/
def Table.useConstant (i : Table) (name : Bytes) : Table :=
  match i.constants.get name with
  | some item => { i with constants := i.constants.set name { item with isUsed := true } }
  | none => i

/-- `useFunctionOrClass` (`importTable.go:242-249`). -/
def Table.useFunctionOrClass (i : Table) (name : Ty) : Table :=
  if name.firstAndRest.2.length > 0 then i.useClass name.firstAndRest.1 else i.useFunction name.firstAndRest.1

/-- `useConstOrClass` (`importTable.go:251-258`). -/
def Table.useConstOrClass (i : Table) (name : Ty) : Table :=
  if name.firstAndRest.2.length > 0 then i.useClass name.firstAndRest.1 else i.useConstant name.firstAndRest.1

/-- `GetClassReferenceFQN` (`importTable.go:76-89`): the name and the table with the item marked as used. -/
def Table.getClassReferenceFQN (i : Table) (name : Ty) : Bytes × Table :=
  let firstPart := name.firstAndRest.1
  let parts := name.firstAndRest.2
  match i.classes.get firstPart with
  | some item =>
    (92 :: item.name ++ (if parts.length > 0 then 92 :: joinB 92 parts else []), i.useClass firstPart)
  | none => ((name.setNamespace i.getNamespace).fqn, i)

/-- The lookup common to functions and constants (`importTable.go:92-100`, `137-145`). -/
def Table.importedFQN (i : Table) (own : GoMap Bytes Item) (name : Ty) : Option Bytes :=
  let table := if name.firstAndRest.2.length > 0 then i.classes else own
  (table.get name.firstAndRest.1).map fun item => 92 :: item.name

/-- The name taken as global (`importTable.go:101-104`). -/
def globalFQN (name : Ty) : Bytes := if isFQN name.fqn then name.fqn else 92 :: name.fqn

/-- `GetFunctionReferenceFQN` (`importTable.go:91-111`); `exists_` says whether `q.GetFunctions` finds any. -/
def Table.getFunctionReferenceFQN (i : Table) (exists_ : Bytes → Bool) (name : Ty) : Bytes :=
  match i.importedFQN i.functions name with
  | some fqn => fqn
  | none =>
    if exists_ (globalFQN name) then globalFQN name else (name.setNamespace i.getNamespace).fqn

/-- `FunctionPossibleFQNs` (`importTable.go:113-134`). -/
def Table.functionPossibleFQNs (i : Table) (name : Ty) : List Bytes :=
  match i.importedFQN i.functions name with
  | some fqn => [fqn]
  | none =>
    let fqn := globalFQN name
    let ns := (name.setNamespace i.getNamespace).fqn
    if ns ≠ fqn then [fqn, ns] else [fqn]

/-- `GetConstReferenceFQN` (`importTable.go:136-162`). -/
def Table.getConstReferenceFQN (i : Table) (consts defines : Bytes → Bool) (name : Ty) : Bytes :=
  match i.importedFQN i.constants name with
  | some fqn => fqn
  | none =>
    if consts (globalFQN name) then globalFQN name
    else if defines (globalFQN name) then globalFQN name
    else (name.setNamespace i.getNamespace).fqn

/-- `unusedImportItems` (`importTable.go:260-278`). -/
def Table.unusedImportItems (i : Table) : List Item :=
  ((i.classes ++ i.functions ++ i.constants).map Prod.snd).filter fun x => !x.isUsed

/-! ### The tables of a document -/

/-- What the analysis of a file does to its import tables, in the order of the text. References carry the
name as the code has it after `NewTypeString`. -/
inductive Event where
  /-- a namespace definition (`namespace.go:14-32`: `pushImportTable`, `setNamespace`) -/
  | namespace (start : Pos) (name : Bytes)
  /-- `use`, `use function`, `use const` (`use.go:136-145`) -/
  | useClass (alias name : Bytes) (r : Rng)
  | useFunction (alias name : Bytes) (r : Rng)
  | useConst (alias name : Bytes) (r : Rng)
  /-- a class name (`classAccess.go:35`, `class.go:150`, `typeDeclaration.go:23`, …) -/
  | classRef (name : Ty)
  /-- a function call (`functionCall.go:56`) -/
  | functionRef (name : Ty)
  /-- a constant (`constantAccess.go:31`) -/
  | constRef (name : Ty)
  deriving DecidableEq, Repr

/-- The effect of an event on the current table. -/
def Event.onTable (i : Table) : Event → Table
  | .namespace _ _ => i
  | .useClass a n r => i.addClassName a n r
  | .useFunction a n r => i.addFunctionName a n r
  | .useConst a n r => i.addConstName a n r
  | .classRef n => (i.getClassReferenceFQN n).2
  | .functionRef n => i.useFunctionOrClass n
  | .constRef n => i.useConstOrClass n

/-- The effect of an event on the tables of the document, `currImportTable` (`document.go:652-657`) being the
last one, created at the root (position `root`) if there is none. -/
def Event.run (root : Pos) (ts : List Table) (e : Event) : List Table :=
  match e with
  | .namespace start name => ts ++ [{ newTable start with ns := some name }]
  | e =>
    match ts.getLast? with
    | none => [e.onTable (newTable root)]
    | some t => ts.dropLast ++ [e.onTable t]

/-- The tables after `Load` (`document.go:84-104`). -/
def load (root : Pos) (evs : List Event) : List Table :=
  match evs.foldl (Event.run root) [] with
  | [] => [newTable root]
  | ts => ts

/-- The import diagnostics: `unusedImportItems` of every table (`analysis/diagnostic.go:67-78`). -/
def unusedImports (ts : List Table) : List Item := ts.flatMap Table.unusedImportItems

/-- `ImportTableAtPos` (`document.go:660-668`). `none` is the panic for a document without tables. -/
def importTableAtPos (ts : List Table) (pos : Pos) : Option Table :=
  let index := goSearch ts.length fun i =>
    match ts[i]? with
    | some t => comparePos pos t.start ≤ 0
    | none => false
  if index = 0 then ts[0]? else ts[index - 1]?

/-- The table which `FunctionCall.Resolve` and `FunctionCall.ResolveToHasParams` use for a call at a position,
`currImportTable` after the whole file was analysed (`functionCall.go:74-102`). -/
def functionCallTable (ts : List Table) (_pos : Pos) : Option Table := ts.getLast?

/-! ### insertUse.go -/

/-- Kinds of children of the root node that matter (`insertUse.go:30-39`). -/
inductive NodeKind where
  | inlineText | namespaceDefinition | namespaceUse | other
  deriving DecidableEq, Repr

/-- A child of the root node: where its first token starts and its last token ends, and the text before it on
its line (`getIndentation`, `insertUse.go:106-114`). -/
structure Node where
  kind : NodeKind
  start : Nat
  stop : Nat
  indentation : Bytes
  deriving DecidableEq, Repr

/-- `InsertUseContext` (`insertUse.go:9-14`). -/
structure InsertUse where
  firstInline : Option Node
  namespaceDef : Option Node
  lastUse : Option Node

/-- One round of the loop in `GetInsertUseContext` (`insertUse.go:28-42`). -/
def InsertUse.step (c : InsertUse) (n : Node) : InsertUse :=
  match n.kind with
  | .inlineText => if c.firstInline.isNone then { c with firstInline := some n } else c
  | .namespaceDefinition => { c with namespaceDef := some n }
  | .namespaceUse => { c with lastUse := some n }
  | .other => c

/-- `GetInsertUseContext` (`insertUse.go:16-44`). The cached context is never set. -/
def insertUseContext (nodes : List Node) : InsertUse :=
  nodes.foldl InsertUse.step { firstInline := none, namespaceDef := none, lastUse := none }

/-- `GetInsertAfterNode` (`insertUse.go:46-58`). -/
def InsertUse.afterNode (c : InsertUse) : Option Node :=
  match c.lastUse with
  | some n => some n
  | none =>
    match c.namespaceDef with
    | some n => some n
    | none => c.firstInline

/-- Kinds of symbols that `GetUseEdit` distinguishes (`insertUse.go:83-88`). -/
inductive SymKind where
  | function | constant | define | other
  deriving DecidableEq, Repr

/-- `GetUseEdit` (`insertUse.go:69-104`): offset and inserted text (`GetInsertPosition` turns the offset into a
position). -/
def InsertUse.useEdit (c : InsertUse) (eol : Bytes) (fqn : Bytes) (sym : SymKind) (alias : Bytes) :
    Option (Nat × Bytes) :=
  if fqn = [] then none
  else match c.afterNode with
    | none => none
    | some n =>
      some (n.stop,
        eol ++ (if n.kind = .namespaceDefinition then eol else []) ++ n.indentation ++ b!"use " ++
        (match sym with
          | .function => b!"function "
          | .constant => b!"const "
          | .define => b!"const "
          | .other => []) ++
        fqn.drop 1 ++ (if alias ≠ [] then b!" as " ++ alias else []) ++ b!";")

/-! ### Names offered by completion -/

/-- `GetScopeAndNameFromString` (`symbolType.go:303-321`). -/
def getScopeAndName (name : Bytes) : Bytes × Bytes :=
  if name = [] then (b!"\\", [])
  else
    match splitB 92 name with
    | [] => ([], [])
    | [p] => ([], p)
    | [[], p] => (b!"\\", p)
    | [] :: parts => (92 :: joinB 92 parts.dropLast, parts.getLastD [])
    | parts => (92 :: joinB 92 parts.dropLast, parts.getLastD [])

/-- What a completion item inserts: the label, and what the additional `use` statement names, if any. -/
structure Offer where
  label : Bytes
  use : Option (Bytes × SymKind)
  deriving DecidableEq, Repr

/-- `strings.Index(word, p) == 0`. -/
def startsWith (word p : Bytes) : Bool := p.isPrefixOf word

/-- `ResolveToQualified` (`importTable.go:164-209`). `none` is a panic (a word on which `NewTypeString`
panics). The loop over the aliases takes the first match in the order of the map. The use edit is
represented by the arguments of `GetUseEdit`. -/
def Table.resolveToQualified (i : Table) (sym : SymKind) (name : Ty) (word : Bytes) : Option Offer :=
  if isFQN word then some { label := name.original, use := none }
  else
    match newTypeString word with
    | none => none
    | some w =>
      let wordNamespace := (w.setNamespace i.getNamespace).getNamespace     -- ResolveScopeNamespace (218-222)
      let nameNamespace := name.getNamespace
      if wordNamespace = nameNamespace ∨ name.original = [] then some { label := name.original, use := none }
      else
        let rest : Option Offer :=
          if sym ≠ .other ∧ nameNamespace = b!"\\" then some { label := name.original, use := none }
          else match i.classes.find? fun e => 92 :: e.2.name == name.fqn with
            | some e => some { label := e.1, use := none }
            | none =>
              let scope := (getScopeAndName word).1
              if scope ≠ [] ∧ scope = nameNamespace then
                some { label := name.original, use := some (nameNamespace, .other) }
              else some { label := name.original, use := some (name.fqn, sym) }
        match i.classes.get name.firstAndRest.1 with
        | some item =>
          if startsWith word item.name then
            some { label := if name.firstAndRest.2.length > 0 then joinB 92 name.firstAndRest.2
                            else name.firstAndRest.1, use := none }
          else rest
        | none => rest

end Verif.Imports
