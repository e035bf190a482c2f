import Verif.Whole.Model
import Verif.Whole.MembersSpec

/-! Completion of members, on top of the store. -/

namespace Verif.Whole

open Verif.Encoding Verif.Storage Verif.Store Verif.Query

/-- What is offered: a declaration with the label that is shown and the text that is inserted. -/
structure Offer where
  decl : Sym
  label : Bytes
  insert : Bytes
  deriving DecidableEq

/-- `len(method.GetParams()) > 0` of the declaration (`hasParamsInsertText`, `symbolConverter.go:388-393`). -/
def takesParams (s : Store) (d : Nat) : Bool :=
  match (decls s)[d]? with
  | some (.met m) => !m.params.isEmpty
  | _ => false

/-- The items with the declarations they were made from. -/
def offersOf (s : Store) (items : List Complete.MItem) : List Offer :=
  items.filterMap fun it => ((decls s)[it.found.member.decl]?).map fun x => ⟨x, it.label, it.insert⟩

/-- Completion after `->` (`memberAccessCompletion`, `completion.go:372-411`) with the store in this state. -/
def arrowIn (env : Env) (s : Store) (keyOf : Bytes → Bytes) (n ni : Nat) (isMatch : Bytes → Option Int) (word : Bytes)
    (a : Access) (cur : Bytes) : Option (List Offer) :=
  (Complete.memberCompletion (worldOf env s) keyOf n ni (takesParams s) isMatch word a cur).map (offersOf s)

/-- Completion after `::` (`scopedAccessCompletion`, `completion.go:320-370`) with the store in this state. -/
def scopeIn (env : Env) (s : Store) (keyOf : Bytes → Bytes) (n ni : Nat) (isMatch : Bytes → Option Int) (word : Bytes)
    (dollar : Bool) (a : Access) (cur : Bytes) : Option (List Offer) :=
  (Complete.scopedCompletion (worldOf env s) keyOf n ni (takesParams s) isMatch word dollar a cur).map (offersOf s)

/-- The declarations of one kind among the offers, in their order. -/
def ofKind (k : Query.Kind) (offers : List Offer) : List Sym := (offers.map (·.decl)).filter fun x => kindOf x = some k

end Verif.Whole
