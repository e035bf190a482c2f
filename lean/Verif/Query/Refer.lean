import Verif.Query.Model
import Verif.Imports.Model

/-! Where a use of a name leads to: go to definition (`internal/lsp/definition.go`) and the marks for uses of deprecated
declarations (`analysis/diagnostic.go`). -/

namespace Verif.Query

open Verif.Types Verif.Imports

/-- What the two look at: the classes with their members, what `Query.GetFunctions`, `GetConsts` and `GetDefines`
(`query.go:76-112`) return for a name, whether the file of a declaration can be opened (`util.IsURINavigatable`,
`util/uri.go:106-111`) and whether a declaration has a `deprecatedTag`. Declarations are represented by numbers. Traits
have no such tag (`trait.go:12-17`). -/
structure Site where
  world : World
  functions : Bytes → List Nat
  consts : Bytes → List Nat
  defines : Bytes → List Nat
  navigable : Nat → Bool
  deprecated : Nat → Bool

/-- The accesses of members: `ScopedConstantAccess`, `ScopedMethodAccess`, `ScopedPropertyAccess`, `PropertyAccess`,
`MethodAccess`. -/
inductive MemberUse where
  | const | staticMethod | staticProp | prop | method
  deriving DecidableEq, Repr

/-- Which members. -/
def MemberUse.kind : MemberUse → Kind
  | .const => .consts
  | .staticMethod => .methods
  | .staticProp => .props
  | .prop => .props
  | .method => .methods

/-- The name under which the member is looked for (`definition.go:119`: `"$"+v.Name`). -/
def MemberUse.key (u : MemberUse) (name : Bytes) : Bytes := if u = .prop then 36 :: name else name

/-- The symbols that are considered, with the types that were found for them: `ClassTypeDesignator`, `ClassAccess`,
`InterfaceAccess`, `TraitAccess`, `TypeDeclaration`, `ConstantAccess`, `FunctionCall` and accesses of members. The types
are those after `Resolve`; for member accesses only their names count. `cur` is `GetClassScopeAtSymbol`
(`document.go:396-413`). -/
inductive Use where
  | new_ (types : List Ty)
  | cls (types : List Ty)
  | intf (types : List Ty)
  | trt (types : List Ty)
  | typ (types : List Ty)
  | constant (name : Ty)
  | function (name : Ty)
  | member (u : MemberUse) (a : Access) (name cur : Bytes)
  deriving Repr

/-- A lookup of members, given the set of searched names. -/
abbrev Lookup := Option Nat → St → Option (Inherited × St)

/-- The lookups for one type (`definition.go:76-81`, `92-94`, `105-107`, `118-120`, `131-139`; `diagnostic.go:229-230`,
`248-249`, `264-265`, `280-281`, `295-296`, `310-311`). `n` and `ni` bound the rounds of the loops. -/
def lookups (w : World) (n ni : Nat) (u : MemberUse) (name t : Bytes) : List Lookup :=
  let classes : List Lookup := (w.classesNamed t).map fun c =>
    if u.kind = .methods then getClassMethods w n ni c (u.key name) else getClassPlain w u.kind n ni c (u.key name)
  let interfaces : List Lookup := (w.interfacesNamed t).map fun i => getInterface w u.kind ni i (u.key name)
  let traits : List Lookup := (w.traitsNamed t).map fun x => fun _ st => some (getTrait w x (u.key name) st)
  match u with
  | .const => classes ++ interfaces
  | .method => classes ++ interfaces ++ traits
  | _ => classes

/-- `ReduceStatic` or `ReduceAccess`. -/
def MemberUse.reduce (u : MemberUse) (cur : Bytes) (a : Access) (m : Inherited) : List Found :=
  match u with
  | .prop => m.reduceAccess cur a
  | .method => m.reduceAccess cur a
  | _ => m.reduceStatic cur a

/-- `ms.Merge(…)` for every lookup. -/
def gather : List Lookup → Inherited → St → Option (Inherited × St)
  | [], ms, st => some (ms, st)
  | l :: ls, ms, st =>
    match l (some ms.searched) st with
    | none => none
    | some (r, st) =>
      let (ms, st) := merge ms r st
      gather ls ms st

/-- The loops over the types of the scope (`definition.go:71-144`); `keyOf` is the `GetKey()` of a scope followed by
`::`. -/
def memberLoop (w : World) (keyOf : Bytes → Bytes) (n ni : Nat) (u : MemberUse) (a : Access) (name cur : Bytes) :
    List Bytes → List Found → St → Option (List Found)
  | [], acc, _ => some acc
  | t :: ts, acc, st =>
    let (id, st) := st.newSet
    match gather (lookups w n ni u name t) { members := [], rel := [], searched := id } st with
    | none => none
    | some (ms, st) => memberLoop w keyOf n ni u a name cur ts (mergeWithScope keyOf [acc, u.reduce cur a ms]) st

/-- The part of `new` (`definition.go:28-39`): the constructor of the class if it is its own. -/
def newLoop (w : World) (n ni : Nat) : List Cls → St → Option (List Nat × St)
  | [], st => some ([], st)
  | c :: cs, st =>
    match getClassMethods w n ni c b!"__construct" none st with
    | none => none
    | some (r, st) =>
      let d := match r.reduceFirst with
        | some f => if f.member.scope = c.name then f.member.decl else c.decl
        | none => c.decl
      (newLoop w n ni cs st).map fun (ds, st) => (d :: ds, st)

/-- The declarations before the filter (`definition.go:27-156`). `tbl` is `ImportTableAtPos(pos)`. -/
def locations (s : Site) (tbl : Table) (keyOf : Bytes → Bytes) (n ni : Nat) : Use → Option (List Nat)
  | .new_ ts =>
    (newLoop s.world n ni (ts.flatMap fun t => s.world.classesNamed (tbl.getClassReferenceFQN t).1) St.new).map (·.1)
  | .cls ts => some (ts.flatMap fun t => (s.world.classesNamed (tbl.getClassReferenceFQN t).1).map (·.decl))
  | .intf ts => some (ts.flatMap fun t => (s.world.interfacesNamed (tbl.getClassReferenceFQN t).1).map (·.decl))
  | .trt ts => some (ts.flatMap fun t => (s.world.traitsNamed t.fqn).map (·.decl))
  | .typ ts => some (ts.flatMap fun t =>
      (s.world.classesNamed t.fqn).map (·.decl) ++ (s.world.interfacesNamed t.fqn).map (·.decl))
  | .constant name =>
    let fqn := tbl.getConstReferenceFQN (fun x => s.consts x ≠ []) (fun x => s.defines x ≠ []) name
    some (s.consts fqn ++ s.defines fqn)
  | .function name => some (s.functions (tbl.getFunctionReferenceFQN (fun x => s.functions x ≠ []) name))
  | .member u a name cur =>
    (memberLoop s.world keyOf n ni u a name cur a.types [] St.new).map fun l => l.map (·.member.decl)

/-- `definition` (`definition.go:11-164`). -/
def definition (s : Site) (tbl : Table) (keyOf : Bytes → Bytes) (n ni : Nat) (u : Use) : Option (List Nat) :=
  (locations s tbl keyOf n ni u).map fun l => l.filter s.navigable

/-- The loops over lookups that end with the first deprecated member (`diagnostic.go:225-324`). -/
def firstDeprecated (dep : Nat → Bool) (reduce : Inherited → List Found) :
    List Lookup → St → Option (Option Nat × St)
  | [], st => some (none, st)
  | l :: ls, st =>
    match l none st with
    | none => none
    | some (r, st) =>
      match (reduce r).find? fun f => dep f.member.decl with
      | some f => some (some f.member.decl, st)
      | none => firstDeprecated dep reduce ls st

/-- The mark of one symbol (`diagnostic.go:97-325`): the deprecated declaration because of which it is marked. -/
def mark (s : Site) (tbl : Table) (n ni : Nat) (u : Use) (st : St) : Option (Option Nat × St) :=
  match u with
  | .new_ ts => some ((ts.flatMap fun t => (s.world.classesNamed t.fqn).map (·.decl)).find? s.deprecated, st)
  | .cls ts => some ((ts.flatMap fun t =>
      (s.world.classesNamed t.fqn).map (·.decl) ++ (s.world.interfacesNamed t.fqn).map (·.decl)).find? s.deprecated, st)
  | .intf ts => some ((ts.flatMap fun t => (s.world.interfacesNamed t.fqn).map (·.decl)).find? s.deprecated, st)
  | .trt _ => some (none, st)
  | .typ ts => some ((ts.flatMap fun t =>
      (s.world.classesNamed t.fqn).map (·.decl) ++ (s.world.interfacesNamed t.fqn).map (·.decl)).find? s.deprecated, st)
  | .constant name =>
    let fqn := tbl.getConstReferenceFQN (fun x => s.consts x ≠ []) (fun x => s.defines x ≠ []) name
    some (match (s.consts fqn).find? s.deprecated with
      | some d => some d
      | none => (s.defines fqn).find? s.deprecated, st)
  | .function name =>
    some ((s.functions (tbl.getFunctionReferenceFQN (fun x => s.functions x ≠ []) name)).find? s.deprecated, st)
  | .member .const a name _ =>
    some ((a.types.flatMap fun t => (s.world.members .consts t name).map (·.decl)).find? s.deprecated, st)
  | .member u a name cur =>
    firstDeprecated s.deprecated (u.reduce cur a) (a.types.flatMap (lookups s.world n ni u name)) st

/-- `DeprecatedDiagnostics` (`diagnostic.go:82-327`): all symbols in the order of the traversal (C70), with the import
table at each and with one query. The result: the ranges that are marked and the declarations because of which they
are. -/
def deprecatedLoop (s : Site) (n ni : Nat) : List (Rng × Table × Use) → St → Option (List (Rng × Nat))
  | [], _ => some []
  | (r, tbl, u) :: us, st =>
    match mark s tbl n ni u st with
    | none => none
    | some (m, st) =>
      (deprecatedLoop s n ni us st).map fun l => (m.map fun d => (r, d)).toList ++ l

/-- The marks of a document; `NewQuery` is `St.new`. -/
def deprecatedDiagnostics (s : Site) (n ni : Nat) (us : List (Rng × Table × Use)) : Option (List (Rng × Nat)) :=
  deprecatedLoop s n ni us St.new

end Verif.Query
