import Verif.Common.Strings
import Verif.Common.GoMap

/-! Model of `analysis/query.go`: members of classes, interfaces and traits.

The three families of functions for methods, properties and class constants are the same code up to the
differences modelled by `Kind`. Maps are references in Go: the set of searched names is created by one call and
shared with the calls below it and with the cached results, so the model numbers these sets and keeps their
contents in the state. Loops take a number of rounds; `none` means that they need more. -/

namespace Verif.Query

/-- `VisibilityModifierValue` (`analysis/symbol.go`). -/
inductive Visibility where
  | pub | protected_ | private_
  deriving DecidableEq, Repr

/-- What the lookup needs of a `Method`, `Property` or `ClassConst`: the name, `ScopeTypeString().GetFQN()`,
`Visibility()` and `IsStatic()` (`method.go:279-291`, `property.go:195-207`, `classConst.go:175-187`). -/
structure Member where
  name : Bytes
  scope : Bytes
  vis : Visibility
  isStatic : Bool
  /-- which declaration it is -/
  decl : Nat
  deriving DecidableEq, Repr

/-- `MethodWithScope`, `PropWithScope`, `ClassConstWithScope` (`query.go:128-132`, `761-765`, `540-544`); the scope is
represented by its name. -/
structure Found where
  member : Member
  scope : Bytes
  score : Int
  deriving DecidableEq, Repr

/-- A `Class` (`analysis/class.go`): the names are FQNs, `ext` is empty if there is no `extends`. -/
structure Cls where
  name : Bytes
  ext : Bytes
  impls : List Bytes
  uses : List Bytes
  /-- which declaration it is -/
  decl : Nat
  deriving DecidableEq, Repr

/-- An `Interface` (`analysis/interface.go`). -/
structure Intf where
  name : Bytes
  exts : List Bytes
  /-- which declaration it is -/
  decl : Nat
  deriving DecidableEq, Repr

/-- A `Trait` (`analysis/trait.go:12-17`). PHP traits can use traits; the code does not record that, so no
definition of the model looks at `uses`. -/
structure Trt where
  name : Bytes
  uses : List Bytes
  /-- which declaration it is -/
  decl : Nat
  deriving DecidableEq, Repr

/-- The kind of members asked for. -/
inductive Kind where
  | methods | props | consts
  deriving DecidableEq, Repr

/-- The contents of the store, in the order of its keys. `key` is `GetClassFQNLowerCase` (`class.go:209-215`);
`members k scope name` is what `Store.GetMethods` and so on return (C07), all members if `name` is empty. -/
structure World where
  classes : List Cls
  interfaces : List Intf
  traits : List Trt
  key : Bytes → Bytes
  members : Kind → Bytes → Bytes → List Member

/-- `Query.GetClasses` (`query.go:30-41`); a cached proxy of `Store.GetClasses` (`store.go:652-660`). The store does not
change during a query, so the cache does not matter. -/
def World.classesNamed (w : World) (fqn : Bytes) : List Cls := w.classes.filter fun c => w.key c.name = w.key fqn

/-- `GetInterfaces` (`query.go:50-60`, `store.go:731-739`). -/
def World.interfacesNamed (w : World) (fqn : Bytes) : List Intf := w.interfaces.filter fun c => c.name = fqn

/-- `GetTraits` (`query.go:63-73`, `store.go:772-780`). -/
def World.traitsNamed (w : World) (fqn : Bytes) : List Trt := w.traits.filter fun c => c.name = fqn

/-- `methodWithScopeFromMethods` and the like (`query.go:134-140`, `546-552`, `767-773`) of `GetMethods`
(`query.go:376-391`), `GetClassConsts` (`621-636`), `GetProps` (`866-881`), which are cached proxies. -/
def World.found (w : World) (k : Kind) (scope name : Bytes) : List Found :=
  (w.members k scope name).map fun m => { member := m, scope := scope, score := 0 }

/-- `InheritedMethods`, `InheritedProps`, `InheritedClassConst` (`query.go:278-282`, `796-800`, `575-579`). `rel` is the
relation map, `searched` the number of the set of searched names. -/
structure Inherited where
  members : List Found
  rel : List (Bytes × Bytes)
  searched : Nat
  deriving Repr

/-- Which cached result (`"ClassMethods"`, `"InterfaceMethods"`, `"TraitMethods"` and so on). -/
inductive Of where
  | cls | intf | trt
  deriving DecidableEq, Repr

/-- The state of a query: the sets of searched names and the cache. A cache key `"ClassMethods:" + fqn + "::" + name`
is represented by its parts. -/
structure St where
  sets : Nat → List Bytes
  next : Nat
  cache : GoMap (Of × Kind × Bytes × Bytes) Inherited

/-- `NewQuery` (`query.go:17-22`). -/
def St.new : St := { sets := fun _ => [], next := 0, cache := [] }

/-- A new map. -/
def St.newSet (st : St) : Nat × St :=
  (st.next, { st with next := st.next + 1, sets := fun i => if i = st.next then [] else st.sets i })

/-- `searchedFQNs[fqn] = struct{}{}` for every name of the list. -/
def St.mark (st : St) (id : Nat) (names : List Bytes) : St :=
  { st with sets := fun i => if i = id then names ++ st.sets i else st.sets i }

/-- `if searchedFQNs == nil { searchedFQNs = map[string]struct{}{} }`. -/
def St.searchedOr (st : St) : Option Nat → Nat × St
  | some id => (id, st)
  | none => st.newSet

/-- The members, relations and the state after `m.Merge(other)` (`query.go:300-311`, `596-602`, `817-823`). -/
def merge (m : Inherited) (other : Inherited) (st : St) : Inherited × St :=
  ({ m with members := m.members ++ other.members, rel := m.rel ++ other.rel },
    st.mark m.searched (st.sets other.searched))

/-- The loop of `GetInterfaceMethods`, `GetInterfaceProps`, `GetInterfaceClassConsts` (`query.go:459-480`, `937-954`,
`695-715`). -/
def intfLoop (w : World) (k : Kind) (name : Bytes) : Nat → List Intf → Inherited → St → Option (Inherited × St)
  | _, [], m, st => some (m, st)
  | 0, _ :: _, _, _ => none
  | n + 1, i :: queue, m, st =>
    if i.name ∈ st.sets m.searched then intfLoop w k name n queue m st
    else
      let st := st.mark m.searched [i.name]
      let parents := (i.exts.filter (· ≠ [])).flatMap w.interfacesNamed
      let m := { m with
        members := m.members ++ w.found k i.name name
        rel := if k = .consts then m.rel ++ parents.map fun p => (i.name, p.name) else m.rel }
      intfLoop w k name n (queue ++ parents.filter fun p => p.name ∉ st.sets m.searched) m st

/-- `GetInterfaceMethods` (`query.go:446-483`), `GetInterfaceClassConsts` (`680-717`), `GetInterfaceProps` (`922-957`). -/
def getInterface (w : World) (k : Kind) (n : Nat) (i : Intf) (name : Bytes) (searched : Option Nat) (st : St) :
    Option (Inherited × St) :=
  let (id, st) := st.searchedOr searched
  match st.cache.get (.intf, k, i.name, name) with
  | some m => some (m, st)
  | none =>
    (intfLoop w k name n [i] { members := [], rel := [], searched := id } st).map fun (m, st) =>
      (m, { st with cache := st.cache.set (.intf, k, i.name, name) m })

/-- `GetTraitMethods` (`query.go:486-498`). -/
def getTrait (w : World) (t : Trt) (name : Bytes) (st : St) : Inherited × St :=
  match st.cache.get (.trt, .methods, t.name, name) with
  | some m => (m, st)
  | none =>
    let (id, st) := st.newSet
    let m : Inherited := { members := w.found .methods t.name name, rel := [], searched := id }
    (m, { st with cache := st.cache.set (.trt, .methods, t.name, name) m })

/-- The traits of a class (`query.go:421-428`): `methods.Merge(q.GetTraitMethods(trait, name))` for each. -/
def mergeTraits (w : World) (name : Bytes) (ts : List Trt) (m : Inherited) (st : St) : Inherited × St :=
  ts.foldl (fun (m, st) t =>
    let (r, st) := getTrait w t name st
    merge m r st) (m, st)

/-- The interfaces of a class (`query.go:434-441`, `666-674`, `906-913`): each found one is merged into the members of
the interfaces. -/
def mergeInterfaces (w : World) (k : Kind) (n : Nat) (name : Bytes) :
    List Intf → Inherited → St → Option (Inherited × St)
  | [], m, st => some (m, st)
  | i :: is, m, st =>
    match getInterface w k n i name (some m.searched) st with
    | none => none
    | some (r, st) =>
      let (m, st) := merge m r st
      mergeInterfaces w k n name is m st

/-- The interfaces that a class names. -/
def World.implemented (w : World) (c : Cls) : List Intf := (c.impls.filter (· ≠ [])).flatMap w.interfacesNamed

/-- The traits that a class names. -/
def World.used (w : World) (c : Cls) : List Trt := (c.uses.filter (· ≠ [])).flatMap w.traitsNamed

/-- The loop of `GetClassMethods` (`query.go:411-442`); `m` collects from classes and traits, `mi` from
interfaces. -/
def methodLoop (w : World) (name : Bytes) (ni : Nat) :
    Nat → List Cls → Inherited → Inherited → St → Option (Inherited × Inherited × St)
  | _, [], m, mi, st => some (m, mi, st)
  | 0, _ :: _, _, _, _ => none
  | n + 1, c :: queue, m, mi, st =>
    if c.name ∈ st.sets m.searched then methodLoop w name ni n queue m mi st
    else
      let st := st.mark m.searched [c.name]
      let m := { m with members := m.members ++ w.found .methods c.name name }
      let (m, st) := mergeTraits w name (w.used c) m st
      let queue := if c.ext ≠ [] ∧ c.ext ∉ st.sets m.searched then queue ++ w.classesNamed c.ext else queue
      match mergeInterfaces w .methods ni name (w.implemented c) mi st with
      | none => none
      | some (mi, st) => methodLoop w name ni n queue m mi st

/-- `GetClassMethods` (`query.go:394-446`). `n` bounds the rounds of the loop, `ni` those of the loops over
interfaces. -/
def getClassMethods (w : World) (n ni : Nat) (c : Cls) (name : Bytes) (searched : Option Nat) (st : St) :
    Option (Inherited × St) :=
  let (id, st) := st.searchedOr searched
  match st.cache.get (.cls, .methods, c.name, name) with
  | some m => some (m, st)
  | none =>
    let m : Inherited := { members := [], rel := [], searched := id }
    match methodLoop w name ni n [c] m m st with
    | none => none
    | some (m, mi, st) =>
      let (m, st) := merge m mi st
      some (m, { st with cache := st.cache.set (.cls, .methods, c.name, name) m })

/-- The loops of `GetClassClassConsts` (`query.go:655-675`) and `GetClassProps` (`898-914`). The class itself is not
marked as searched. -/
def plainLoop (w : World) (k : Kind) (name : Bytes) (ni : Nat) :
    Nat → List Cls → Inherited → Inherited → St → Option (Inherited × Inherited × St)
  | _, [], m, mi, st => some (m, mi, st)
  | 0, _ :: _, _, _, _ => none
  | n + 1, c :: queue, m, mi, st =>
    let m := { m with members := m.members ++ w.found k c.name name }
    let follow := c.ext ≠ [] ∧ c.ext ∉ st.sets m.searched
    let queue := if follow then queue ++ w.classesNamed c.ext else queue
    let m := { m with rel := if k = .consts then
      m.rel ++ (if follow then [(c.name, c.ext)] else []) ++ (w.implemented c).map fun i => (c.name, i.name)
      else m.rel }
    match mergeInterfaces w k ni name (w.implemented c) mi st with
    | none => none
    | some (mi, st) => plainLoop w k name ni n queue m mi st

/-- `GetClassClassConsts` (`query.go:639-678`), `GetClassProps` (`884-919`). -/
def getClassPlain (w : World) (k : Kind) (n ni : Nat) (c : Cls) (name : Bytes) (searched : Option Nat) (st : St) :
    Option (Inherited × St) :=
  let (id, st) := st.searchedOr searched
  match st.cache.get (.cls, k, c.name, name) with
  | some m => some (m, st)
  | none =>
    let m : Inherited := { members := [], rel := [], searched := id }
    match plainLoop w k name ni n [c] m m st with
    | none => none
    | some (m, mi, st) =>
      let (m, st) := merge m mi st
      some (m, { st with cache := st.cache.set (.cls, k, c.name, name) m })

/-! ### Access rules -/

/-- What the rules look at in a `MemberAccess`: `ScopeName()` and the FQNs of `ScopeTypes().Resolve()`. -/
structure Access where
  scopeName : Bytes
  types : List Bytes
  deriving DecidableEq, Repr

/-- `IsNameRelative` (`analysis/relativeScope.go:10-12`). -/
def isNameRelative (n : Bytes) : Bool := n = b!"static" || n = b!"self" || n = b!"$this"

/-- `IsNameParent` (`relativeScope.go:14-16`). -/
def isNameParent (n : Bytes) : Bool := n = b!"parent"

/-- The loop of `IsInheritedStatic` and `IsInherited` (`query.go:228-242`, `259-273`): the first type that is the
class `same` or to which the member's class is related decides. The result is (isSameClass, isRelated). -/
def scopeLoop (same memberScope : Bytes) (rel : List (Bytes × Bytes)) : List Bytes → Bool × Bool
  | [] => (false, false)
  | fqn :: rest =>
    if fqn = same then (true, false)
    else if (memberScope, fqn) ∈ rel then (false, true)
    else scopeLoop same memberScope rel rest

/-- `IsInheritedStatic` (`query.go:210-244`). -/
def isInheritedStatic (currentClass : Bytes) (a : Access) (rel : List (Bytes × Bytes)) (m : Member) : Bool :=
  if isNameParent a.scopeName then m.scope ≠ currentClass ∧ m.vis ≠ .private_
  else if isNameRelative a.scopeName then m.scope = currentClass ∨ m.vis ≠ .private_
  else if !m.isStatic then false
  else if m.vis = .pub then true
  else
    let r := scopeLoop m.scope m.scope rel a.types
    r.1 || (r.2 && m.vis = .protected_)

/-- `IsInherited` (`query.go:247-275`). -/
def isInherited (currentClass : Bytes) (a : Access) (rel : List (Bytes × Bytes)) (m : Member) : Bool :=
  if a.scopeName = b!"$this" ∧ (m.scope = currentClass ∨ m.vis ≠ .private_) then true
  else if m.vis = .pub then true
  else
    let r := scopeLoop currentClass m.scope rel a.types
    r.1 || (r.2 && m.vis = .protected_)

/-- The loop of `ReduceStatic` and `ReduceAccess`: `seen` is `duplicatedNames`. -/
def reduceLoop (ok : Found → Bool) (adjust : Found → Found) : List Bytes → List Found → List Found
  | _, [] => []
  | seen, f :: fs =>
    if f.member.name ∈ seen then reduceLoop ok adjust seen fs
    else if ok f then adjust f :: reduceLoop ok adjust (f.member.name :: seen) fs
    else reduceLoop ok adjust seen fs

/-- `ReduceStatic` (`query.go:330-343`, `605-618`, `826-839`). -/
def Inherited.reduceStatic (m : Inherited) (currentClass : Bytes) (a : Access) : List Found :=
  reduceLoop (fun f => isInheritedStatic currentClass a m.rel f.member) id [] m.members

/-- `ReduceAccess` (`query.go:351-367`, `842-858`); static members get a worse score (`staticInAccessCost`). -/
def Inherited.reduceAccess (m : Inherited) (currentClass : Bytes) (a : Access) : List Found :=
  reduceLoop (fun f => isInherited currentClass a m.rel f.member)
    (fun f => if f.member.isStatic then { f with score := f.score - 16 } else f) [] m.members

/-- `ReduceFirst` (`query.go:314-321`). -/
def Inherited.reduceFirst (m : Inherited) : Option Found := m.members.find? fun f => f.member.vis = .pub

/-- `MergeMethodWithScope` and the like (`query.go:143-160`, `555-572`, `776-793`); `key` is the scope's `GetKey()`
followed by `::`. -/
def mergeWithScope (key : Bytes → Bytes) (items : List (List Found)) : List Found :=
  (items.flatten.foldl (fun (r : List Found × List Bytes) f =>
    let k := key f.scope ++ f.member.name
    if k ∈ r.2 then r else (r.1 ++ [f], k :: r.2)) ([], [])).1

/-! ### Search by keyword -/

/-- The loop of `SearchClassMethods` and the like: the matching members with their scores. `isMatch` is `isMatch`
(`analysis/completionIndex.go:30-34`) for the keyword, which is a fuzzy match of the library fzf: the score if the name
matches. -/
def matching (isMatch : Bytes → Option Int) (l : List Found) : List Found :=
  l.filterMap fun f => (isMatch f.member.name).map fun s => { f with score := s }

/-- What is left in the slice of the cache: `newMethods := methods.Methods[:0]` reuses the array, so the first places are
overwritten with the matching members. -/
def overwritten (isMatch : Bytes → Option Int) (l : List Found) : List Found :=
  matching isMatch l ++ l.drop (matching isMatch l).length

/-- `SearchClassMethods` (`query.go:500-517`); `SearchClassClassConsts` (`721-738`) and `SearchClassProps` (`960-977`) are the
same with `getClassPlain`. `call` is the lookup, `key` its place in the cache. -/
def search (call : St → Option (Inherited × St)) (key : Of × Kind × Bytes × Bytes) (isMatch : Bytes → Option Int)
    (keyword : Bytes) (st : St) : Option (Inherited × St) :=
  match call st with
  | none => none
  | some (m, st) =>
    if keyword = [] then some (m, st)
    else some ({ m with members := matching isMatch m.members },
      { st with cache := st.cache.set key { m with members := overwritten isMatch m.members } })

end Verif.Query
