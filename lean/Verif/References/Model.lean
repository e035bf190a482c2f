import Verif.Store.PropsRefs
import Verif.Imports.Props
import Verif.Analyser.OrderSpec

/-! Model of find references: what a document records in the reference index (`analysis/store.go`), the token under the
cursor (`analysis/document.go`) and the handler (`internal/lsp/reference.go`). -/

namespace Verif.References
open Verif.Types
open Verif.Imports (Table importTableAtPos)
open Verif.Encoding (Range Position)
open Verif.Analyser (Node Tok PType Ctx)
open Verif.Store (Env Store)

/-! ### what a document records -/

/-- The kinds of symbols that stand for the name of a class, interface or trait (`store.go:1140`). -/
inductive ClassUse where
  | designator | typeDeclaration | classAccess | traitAccess | interfaceAccess
  deriving DecidableEq, Repr

/-- What a symbol of a document is, as far as references go. The types of a name are those that the analysis has given to
it (C26). -/
inductive Mark where
  -- `SymbolReference` (`symbol.go:74-79`)
  | class_ (fqn : Bytes) | interface (fqn : Bytes) | function (fqn : Bytes) | method (name : Bytes)
  | property (name : Bytes) | classConst (name : Bytes)
  /-- a trait is not a `SymbolReference` -/
  | trait (fqn : Bytes)
  -- `HasTypes`
  | call (name : Bytes)
  | classUse (kind : ClassUse) (name : Bytes) (types : Union)
  | methodAccess (name : Bytes) | propertyAccess (name : Bytes) | scopedMethodAccess (name : Bytes)
  | scopedPropertyAccess (name : Bytes) | scopedConstantAccess (name : Bytes)
  /-- all other symbols: variables, constants, … -/
  | other
  deriving DecidableEq, Repr

/-- A symbol with `GetLocation().Range` and, for declarations, `ReferenceLocation().Range`. -/
structure Symbol where
  mark : Mark
  range : Range
  nameRange : Range
  deriving DecidableEq, Repr

/-- A document: its import tables and its symbols in the order of the traversal (C44). -/
structure File where
  tables : List Table
  symbols : List Symbol
  deriving DecidableEq, Repr

/-- `ReferenceFQN` (`class.go:289-291`, `interface.go:165-167`, `function.go:203-205`, `method.go:269-271`,
`property.go:185-187`, `classConst.go:166-168`). -/
def Mark.referenceFQN : Mark → Option Bytes
  | .class_ n => some n
  | .interface n => some n
  | .function n => some (n ++ b!"()")
  | .method n => some (46 :: (n ++ b!"()"))
  | .property n => some (46 :: n)
  | .classConst n => some (46 :: n)
  | _ => none

/-- `MemberName` (`methodAccess.go:103-105`, `propertyAccess.go:68-74`, `scopedMethodAccess.go:98-100`,
`scopedPropertyAccess.go:73-75`, `scopedConstantAccess.go:49-51`). The conversion to runes and back leaves a name of valid
UTF-8 as it is. -/
def Mark.memberName : Mark → Option Bytes
  | .methodAccess n => some (n ++ b!"()")
  | .propertyAccess [] => some []
  | .propertyAccess (c :: n) => some (if c = 36 then c :: n else 36 :: c :: n)
  | .scopedMethodAccess n => some (n ++ b!"()")
  | .scopedPropertyAccess n => some n
  | .scopedConstantAccess n => some n
  | _ => none

/-- `IsNameRelative` (`relativeScope.go:10-12`). -/
def isNameRelative (n : Bytes) : Bool := n == b!"static" || n == b!"self" || n == b!"$this"

/-- A position as it is compared (`protocol/util.go`). -/
def posOf (p : Position) : Pos := ⟨p.line.toInt, p.character.toInt⟩

/-- The names that a call at a position may have, with `()` (`store.go:1131-1138`, `reference.go:72-77`). `none` is a
panic. -/
def callRefs (tables : List Table) (pos : Pos) (name : Bytes) : Option (List Bytes) := do
  let table ← importTableAtPos tables pos
  let t ← newTypeString name
  return (table.functionPossibleFQNs t).map (· ++ b!"()")

/-- `SymToRefs` (`store.go:1128-1153`). -/
def symToRefs (tables : List Table) (s : Symbol) : Option (List Bytes) :=
  match s.mark with
  | .call name => callRefs tables (posOf s.range.start) name
  | .classUse kind name types =>
    if kind == .classAccess && isNameRelative name then some [] else some (types.map (·.fqn))
  | m => some ((m.memberName.map (46 :: ·)).toList)

/-- What a symbol adds to the reference index (`store.go:534-551`), in a document that is not a bundled stub. -/
def symbolRefs (tables : List Table) (s : Symbol) : Option (List (Bytes × Range)) :=
  (symToRefs tables s).map fun refs =>
    (s.mark.referenceFQN.map fun ref => (ref, s.nameRange)).toList ++ refs.map fun ref => (ref, s.range)

/-- The entries of a document, `referenceEntryInfos` in `writeAllSymbols` (`store.go:509-553`). (The only symbols without
a key are global variables, which record no references.) -/
def recorded (f : File) : Option (List (Bytes × Range)) := (f.symbols.mapM (symbolRefs f.tables)).map List.flatten

/-! ### the token under the cursor -/

mutual

/-- The tokens that `Traverse` (`util/traverser.go:88-110`) visits, with their parents, innermost first. -/
def spines : List Node → Node → List (List Node × Tok)
  | ps, .tok t => [(ps, t)]
  | _, .err _ => []
  | ps, .phr ty ks => spinesOf (.phr ty ks :: ps) ks

/-- The same for children. -/
def spinesOf : List Node → List Node → List (List Node × Tok)
  | _, [] => []
  | ps, k :: ks => spines ps k ++ spinesOf ps ks

end

/-- The token begins before the offset and ends at or after it. -/
def touches (offset : Nat) (t : Tok) : Bool := t.offset < offset && offset ≤ t.offset + t.length

/-- `NodeSpineAt` (`document.go:425-436`). The traversal goes on after a token was found. -/
def nodeSpineAt (root : Node) (offset : Nat) : Option (List Node × Tok) :=
  ((spines [] root).filter fun x => touches offset x.2).getLast?

/-- `Parent` of a `NodeStack` (`util/traverser.go:149-171`): the type of the phrase, if there is one. -/
def phraseType : Option Node → Option PType
  | some (.phr ty _) => some ty
  | _ => none

/-! ### the handler -/

/-- `store.GetReferences` for one name after the other (`reference.go:44-49`). -/
def search (env : Env) (s : Store) : List Bytes → Option (List (Bytes × Range))
  | [] => some []
  | ref :: refs => do return (← s.getReferences env ref) ++ (← search env s refs)

/-- The names that the handler looks for (`reference.go:42-85`). `found` is `HasTypesAtPos` at the cursor (C63). The name
of a declaration is looked up in the import table of the position of `NodeRange(nameToken)`; `nameToken` is a value,
`NodeRange` knows pointers only, so the position is always that of the beginning of the file. -/
def refsAt (c : Ctx) (tables : List Table) (root : Node) (offset : Nat) (found : Option Symbol) : Option (List Bytes) :=
  let spine := nodeSpineAt root offset
  let parents := (spine.map (·.1)).getD []
  let parent := parents.head?
  let fallback := match found with
    | some s => symToRefs tables s
    | none => some []
  match phraseType parent with
  | some .identifier =>
    let text := (parent.map c.nodeText).getD []
    match phraseType (parents.drop 1).head? with
    | some .methodDeclarationHeader => some [46 :: (text ++ b!"()")]
    | some .classConstElement => some [46 :: text]
    | _ => fallback
  | some .propertyElement => some [46 :: (parent.map c.nodeText).getD []]
  | some .classDeclarationHeader | some .interfaceDeclarationHeader | some .traitDeclarationHeader => do
    let name ← newTypeString ((spine.map fun x => c.tokText x.2).getD [])
    let table ← importTableAtPos tables ⟨0, 0⟩
    return [(name.setNamespace table.getNamespace).fqn]
  | some .functionDeclarationHeader => callRefs tables ⟨0, 0⟩ ((spine.map fun x => c.tokText x.2).getD [])
  | _ => fallback

/-- `references` (`reference.go:27-87`): the places, with the files they are in. -/
def references (env : Env) (s : Store) (c : Ctx) (tables : List Table) (root : Node) (offset : Nat) (found : Option Symbol) :
    Option (List (Bytes × Range)) :=
  (refsAt c tables root offset found).bind (search env s)

end Verif.References
