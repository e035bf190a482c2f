import Verif.Analyser.Ast
import Verif.Symbols.Lookup
import Verif.Symbols.Vars
import Verif.Types.Model

/-!
What the analysis of a document builds up (`analysis/document.go` 21-51, 275-362, 385-394, 626-636): the tree of
symbols, the scopes of variables, the classes.
-/

namespace Verif.Analyser
open Verif.Symbols (Tree Var Rec)

/-- The Go types of symbols. `nilProperty` is a `*Property` that is nil; `docProperty` and `docMethod` are a `*Property`
and a `*Method` made from a tag of a doc comment. -/
inductive Kind where
  | class_ | interface_ | trait_ | method | function | anonymousFunction | property | classConst | const_ | define
  | docProperty | docMethod | nilProperty
  | argumentList | typeDeclaration | constantAccess | classAccess | interfaceAccess | traitAccess
  | scopedPropertyAccess | scopedMethodAccess | scopedConstantAccess | designator | variable | propertyAccess
  | methodAccess | functionCall | derived | globalVariable
  deriving DecidableEq, Repr

/-- A symbol: its Go type, its range, its name and, for members of classes, the FQN of the class they are stored
under (`Scope.GetFQN()`). Types, descriptions, modifiers and values are not modelled. -/
structure Sym where
  kind : Kind
  range : Rng
  name : Bytes
  scope : Bytes
  deriving DecidableEq, Repr

/-- A block of `blockStack` with the children it has got so far (`document.go:287-302`). -/
structure Frame where
  sym : Sym
  kids : List (Tree Sym)
  deriving Repr

/-- `VariableTable` (`variable.go:130-146`): its range, the calls of `add` made so far (see `Symbols/Vars.lean`), and the
tables of the functions inside. -/
structure Scope where
  range : Rng
  recs : List Rec
  kids : List (Tree (Rng × List Rec))
  deriving Repr

/-- An element of `classStack`: class, interface or trait, with its name. -/
structure Cls where
  kind : Kind
  name : Types.Ty
  deriving DecidableEq, Repr

/-- The document while it is analysed. `top` and `below` are `blockStack` with the document itself at the bottom,
`vars` and `varsBelow` are `variableTables`; `doc` is `lastPhpDoc`; `ns` the namespace of the current import table;
`crashed` says that the program has panicked. -/
structure St where
  top : Frame
  below : List Frame
  vars : Scope
  varsBelow : List Scope
  classes : List Cls
  doc : Option (Rng × List (Bool × Bytes))
  ns : Bytes
  crashed : Bool
  deriving Repr

/-- `addSymbol` (`document.go:275-285`) of a symbol other than a doc comment. -/
def St.addTree (st : St) (t : Tree Sym) : St := { st with top := { st.top with kids := st.top.kids ++ [t] } }

/-- `addSymbol` of a symbol without children. -/
def St.add (st : St) (s : Sym) : St := st.addTree (.node s [])

/-- `pushBlock` (`document.go:287-289`). -/
def St.pushBlock (st : St) (s : Sym) : St := { st with top := ⟨s, []⟩, below := st.top :: st.below }

/-- `popBlock` (`document.go:291-293`), and the block becomes a child of the block around it. The code calls
`addSymbol` for a block once, either before `pushBlock` or after `popBlock`; nothing else is added to the block around
it in between, so the resulting tree is the same. -/
def St.popBlock (st : St) : St :=
  match st.below with
  | [] => { st with crashed := true }
  | f :: fs => { st with top := { f with kids := f.kids ++ [.node st.top.sym st.top.kids] }, below := fs }

/-- A change of the symbol of the current block. -/
def St.onTop (st : St) (f : Sym → Sym) : St := { st with top := { st.top with sym := f st.top.sym } }

/-- `pushVariableTable` (`document.go:302-309`). -/
def St.pushVars (st : St) (r : Rng) : St := { st with vars := ⟨r, [], []⟩, varsBelow := st.vars :: st.varsBelow }

/-- `popVariableTable` (`document.go:311-317`). The table was added to the children of the table around it by
`pushVariableTable`; the model does so here, with the same result. -/
def St.popVars (st : St) : St :=
  match st.varsBelow with
  | [] => { st with crashed := true }
  | v :: vs =>
    { st with
      vars := { v with kids := v.kids ++ [.node (st.vars.range, st.vars.recs) st.vars.kids] }
      varsBelow := vs }

/-- `getCurrentVariableTable().add` (`variable.go:148-176`). The types of the variable, which `pushVariable`
(`document.go:343-353`) sets before, are not modelled. -/
def St.record (st : St) (name : Bytes) (range : Rng) (start : Pos) (isDeclaration : Bool) : St :=
  { st with vars := { st.vars with recs := st.vars.recs ++ [⟨⟨name, range, 0⟩, start, isDeclaration⟩] } }

/-- `prevVariableTable.add` (`anonymousFunction.go:95`): the table below the current one. -/
def St.recordBelow (st : St) (name : Bytes) (range : Rng) (start : Pos) (isDeclaration : Bool) : St :=
  match st.varsBelow with
  | [] => { st with crashed := true }
  | v :: vs => { st with varsBelow := { v with recs := v.recs ++ [⟨⟨name, range, 0⟩, start, isDeclaration⟩] } :: vs }

/-- `NewTypeString` (`symbolType.go:47-59`, see C24); names do not contain brackets. -/
def tyOf (s : Bytes) : Types.Ty := (Types.newTypeString s).getD ⟨s, s, 0⟩

/-- `addClass` (`document.go:385-394`); the second component is the place of the class in `classStack`. -/
def St.addClass (st : St) (k : Kind) (name : Types.Ty) : St × Nat :=
  ({ st with classes := st.classes ++ [⟨k, name⟩] }, st.classes.length)

/-- A class gets its name. -/
def St.nameClass (st : St) (i : Nat) (name : Types.Ty) : St :=
  { st with classes := st.classes.modify i fun c => { c with name := name } }

/-- `getValidPhpDoc` (`document.go:626-636`). -/
def St.validDoc (st : St) (r : Rng) : Option (Rng × List (Bool × Bytes)) :=
  match st.doc with
  | none => none
  | some d => if d.1.stop.line < r.start.line ∧ d.1.stop.line = r.start.line - 1 then some d else none

end Verif.Analyser
