import Verif.Query.Refer
import Verif.Complete.Names

/-! Model of the completion of members (`internal/lsp/completion.go:320-411`): what is offered after `->` and `::`, with
which label and text. The list is sorted afterwards, which neither loses nor duplicates items (C47). -/

namespace Verif.Complete

open Verif.Query

section
variable (w : World) (n ni : Nat) (isMatch : Bytes → Option Int) (word : Bytes)

/-- `SearchClassMethods`, `SearchClassProps`, `SearchClassClassConsts` (`analysis/query.go:500-517`, `721-738`, `960-977`).
`isMatch` stands for the match with `word`. -/
def searchClass (k : Kind) (c : Cls) : Lookup := fun o =>
  search (if k = .methods then getClassMethods w n ni c [] o else getClassPlain w k n ni c [] o) (.cls, k, c.name, [])
    isMatch word

/-- `SearchInterfaceMethods`, `SearchInterfaceProps`, `SearchInterfaceClassConsts` (`query.go:520-537`, `741-758`,
`980-997`). -/
def searchInterface (k : Kind) (i : Intf) : Lookup := fun o =>
  search (getInterface w k ni i [] o) (.intf, k, i.name, []) isMatch word

/-- The searches for one type after `->`, in order (`completion.go:385-392`). -/
def arrowSteps (t : Bytes) : List (Kind × Lookup) :=
  ((w.classesNamed t).flatMap fun c =>
    [(.methods, searchClass w n ni isMatch word .methods c), (.props, searchClass w n ni isMatch word .props c)]) ++
  ((w.interfacesNamed t).flatMap fun i =>
    [(.methods, searchInterface w ni isMatch word .methods i), (.props, searchInterface w ni isMatch word .props i)])

/-- The searches for one type after `::` (`completion.go:335-348`); `dollar` says that the token at the cursor is `$` or a
variable. -/
def scopeSteps (dollar : Bool) (t : Bytes) : List (Kind × Lookup) :=
  ((w.classesNamed t).flatMap fun c => (.props, searchClass w n ni isMatch word .props c) ::
    if dollar then [] else
      [(.methods, searchClass w n ni isMatch word .methods c), (.consts, searchClass w n ni isMatch word .consts c)]) ++
  ((w.interfacesNamed t).flatMap fun i => (.props, searchInterface w ni isMatch word .props i) ::
    if dollar then [] else
      [(.methods, searchInterface w ni isMatch word .methods i), (.consts, searchInterface w ni isMatch word .consts i)])
end

/-- `ms.Merge(…)`, `ps.Merge(…)`, `ccs.Merge(…)` for every search. -/
def gatherKinds : List (Kind × Lookup) → (Kind → Inherited) → St → Option ((Kind → Inherited) × St)
  | [], g, st => some (g, st)
  | (k, l) :: ls, g, st =>
    match l (some (g k).searched) st with
    | none => none
    | some (r, st) =>
      let (m, st) := merge (g k) r st
      gatherKinds ls (fun k' => if k' = k then m else g k') st

/-- `EmptyInheritedMethods()`, `EmptyInheritedProps()`, `EmptyInheritedClassConst()` (`completion.go:332-334`, `383-384`;
after `->` the third one is not made, here it is not used). -/
def emptyKinds (st : St) : (Kind → Inherited) × St :=
  let (a, st) := st.newSet
  let (b, st) := st.newSet
  let (c, st) := st.newSet
  (fun k => { members := [], rel := [], searched := match k with | .methods => a | .props => b | .consts => c }, st)

/-- The loop over the types of the scope (`completion.go:330-352`, `381-395`). -/
def completionLoop (steps : Bytes → List (Kind × Lookup)) (reduce : Inherited → List Found) (keyOf : Bytes → Bytes) :
    List Bytes → (Kind → List Found) → St → Option (Kind → List Found)
  | [], acc, _ => some acc
  | t :: ts, acc, st =>
    let (g, st) := emptyKinds st
    match gatherKinds (steps t) g st with
    | none => none
    | some (g, st) =>
      completionLoop steps reduce keyOf ts (fun k => mergeWithScope keyOf [acc k, reduce (g k)]) st

/-- A `CompletionItem` for a member. -/
structure MItem where
  kind : Kind
  found : Found
  label : Bytes
  insert : Bytes
  deriving DecidableEq, Repr

/-- `methodToCompletionItem` (`symbolConverter.go:504-516`). -/
def methodItem (hasParams : Nat → Bool) (f : Found) : MItem :=
  ⟨.methods, f, f.member.name, callText (hasParams f.member.decl) f.member.name⟩

/-- `propToCompletionItem` (`symbolConverter.go:518-531`). -/
def propItem (f : Found) : MItem := ⟨.props, f, f.member.name, f.member.name.drop 1⟩

/-- `classConstToCompletionItem` (`symbolConverter.go:533-540`); an item without an insert text inserts its label. -/
def constItem (f : Found) : MItem := ⟨.consts, f, f.member.name, f.member.name⟩

/-- A property after `->`: `item.Label = item.Label[1:]` (`completion.go:403`), which panics if there is no name. -/
def arrowPropItem (f : Found) : Option MItem :=
  if f.member.name = [] then none else some { propItem f with label := f.member.name.drop 1 }

/-- `memberAccessCompletion` (`completion.go:372-411`): after `->`. `a` and `cur` are the access and
`GetClassScopeAtSymbol`, as in `Use`. -/
def memberCompletion (w : World) (keyOf : Bytes → Bytes) (n ni : Nat) (hasParams : Nat → Bool)
    (isMatch : Bytes → Option Int) (word : Bytes) (a : Access) (cur : Bytes) : Option (List MItem) := do
  let g ← completionLoop (arrowSteps w n ni isMatch word) (fun m => m.reduceAccess cur a) keyOf a.types (fun _ => []) St.new
  let ps ← (g .props).mapM arrowPropItem
  pure ((g .methods).map (methodItem hasParams) ++ ps)

/-- `scopedAccessCompletion` (`completion.go:320-370`): after `::`. -/
def scopedCompletion (w : World) (keyOf : Bytes → Bytes) (n ni : Nat) (hasParams : Nat → Bool)
    (isMatch : Bytes → Option Int) (word : Bytes) (dollar : Bool) (a : Access) (cur : Bytes) : Option (List MItem) :=
  (completionLoop (scopeSteps w n ni isMatch word dollar) (fun m => m.reduceStatic cur a) keyOf a.types (fun _ => [])
    St.new).map fun g =>
      (g .methods).map (methodItem hasParams) ++ (g .props).map propItem ++ (g .consts).map constItem

end Verif.Complete
