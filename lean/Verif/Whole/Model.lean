import Verif.Store.Model
import Verif.Query.Refer

/-! What requests read: the contents of the store, decoded, as the lookups of `analysis/query.go` see them.

The model of the store (`Verif.Store`) keeps bytes, that of the queries (`Verif.Query`) takes lists of classes and so
on. Here the second is computed from the first. -/

namespace Verif.Whole

open Verif.Encoding Verif.Storage Verif.Store Verif.Query

/-- All entries of a collection, decoded, in the order of the keys. A failure to decode is a panic in the code; after
a history there is none (C07). -/
def scanAll {α} (s : Store) (coll : Bytes) (read : Dec α) : List α := (scanDecode s.db (entryKey coll []) read).getD []

/-- Everything a request can lead to. The position in this list stands for the declaration. -/
def decls (s : Store) : List Sym :=
  (scanAll s cCla readClass).map .cla ++ (scanAll s cInt readInterface).map .int ++
  (scanAll s cTra readTrait).map .tra ++ (scanAll s cFun readFunction).map .fn ++
  (scanAll s cCon readConst).map .con ++ (scanAll s cDef readConst).map .def_ ++
  (scanAll s cMet readMethod).map .met ++ (scanAll s cClaCon readClassConst).map .claCon ++
  (scanAll s cPro readProperty).map .pro

/-- The number of a declaration. -/
def num (s : Store) (x : Sym) : Nat := (decls s).idxOf x

/-- `VisibilityModifierValue` (`symbol.go:12-19`); the analyser makes no other values. -/
def visOf (v : GoInt) : Visibility := if v = 1 then .protected_ else if v = 2 then .private_ else .pub

/-- What the queries look at of a `Class` (`class.go:15-30`). -/
def clsOf (s : Store) (c : Class) : Cls :=
  { name := c.name.fqn, ext := c.extends_.fqn, impls := c.interfaces.map (·.fqn), uses := c.use.map (·.fqn),
    decl := num s (.cla c) }

/-- Of an `Interface` (`interface.go:13-22`). -/
def intfOf (s : Store) (c : Interface) : Intf :=
  { name := c.name.fqn, exts := c.extends_.map (·.fqn), decl := num s (.int c) }

/-- Of a `Trait` (`trait.go:12-17`). -/
def trtOf (s : Store) (c : Trait) : Trt := { name := c.name.fqn, uses := [], decl := num s (.tra c) }

/-- Of a `Method` (`method.go:279-291`). -/
def metOf (s : Store) (c : Method) : Member :=
  { name := c.name, scope := c.scope.fqn, vis := visOf c.visibility, isStatic := c.isStatic, decl := num s (.met c) }

/-- Of a `Property` (`property.go:195-207`). -/
def proOf (s : Store) (c : Property) : Member :=
  { name := c.name, scope := c.scope.fqn, vis := visOf c.visibility, isStatic := c.isStatic, decl := num s (.pro c) }

/-- Of a `ClassConst` (`classConst.go:174-187`). -/
def conOf (s : Store) (c : ClassConst) : Member :=
  { name := c.name, scope := c.scope.fqn, vis := visOf c.visibility, isStatic := true, decl := num s (.claCon c) }

/-- `Query.GetMethods` (`query.go:376-391`), `GetClassConsts` (`621-636`), `GetProps` (`866-881`), without the cache. -/
def membersOf (env : Env) (s : Store) : Kind → Bytes → Bytes → List Member
  | .methods, scope, name =>
    ((if name ≠ [] then s.getMethods env scope name else s.getAllMethods scope).getD []).map (metOf s)
  | .props, scope, name =>
    ((if name ≠ [] then s.getProperties scope name else s.getAllProperties scope).getD []).map (proOf s)
  | .consts, scope, name =>
    ((if name ≠ [] then s.getClassConsts scope name else s.getAllClassConsts scope).getD []).map (conOf s)

/-- The classes, interfaces and traits in the store. -/
def worldOf (env : Env) (s : Store) : World where
  classes := (scanAll s cCla readClass).map (clsOf s)
  interfaces := (scanAll s cInt readInterface).map (intfOf s)
  traits := (scanAll s cTra readTrait).map (trtOf s)
  key := classFQNLower env
  members := membersOf env s

/-- `util.IsURINavigatable` (`util/uri.go:106-111`). -/
def navigatable (uri : Bytes) : Bool := hasPrefix b!"file://" uri

/-- `GetLocation()` of a declaration. -/
def locationOf : Sym → Location
  | .cla c => c.location | .int c => c.location | .tra c => c.location | .fn c => c.location
  | .con c => c.location | .def_ c => c.location | .met c => c.location | .claCon c => c.location
  | .pro c => c.location | .gloVar c => c.location

/-- Whether there is a `deprecatedTag`; traits and global variables have none. -/
def tagged : Sym → Bool
  | .cla c => c.deprecated.isSome | .int c => c.deprecated.isSome | .tra _ => false | .fn c => c.deprecated.isSome
  | .con c => c.deprecated.isSome | .def_ c => c.deprecated.isSome | .met c => c.deprecated.isSome
  | .claCon c => c.deprecated.isSome | .pro c => c.deprecated.isSome | .gloVar _ => false

/-- What requests read. `Query.GetFunctions`, `GetConsts`, `GetDefines` (`query.go:76-112`) are cached proxies of the
store's. -/
def siteOf (env : Env) (s : Store) : Site where
  world := worldOf env s
  functions n := ((s.getFunctions n).getD []).map fun c => num s (.fn c)
  consts n := ((s.getConsts n).getD []).map fun c => num s (.con c)
  defines n := ((s.getDefines n).getD []).map fun c => num s (.def_ c)
  navigable d := ((decls s)[d]?).elim false fun x => navigatable (locationOf x).uri
  deprecated d := ((decls s)[d]?).elim false tagged

/-- Go to definition (`internal/lsp/definition.go:11-164`) with the store in this state: the declarations. -/
def definitionIn (env : Env) (s : Store) (tbl : Imports.Table) (keyOf : Bytes → Bytes) (n ni : Nat) (u : Use) :
    Option (List Sym) :=
  (definition (siteOf env s) tbl keyOf n ni u).map fun r => r.filterMap fun d => (decls s)[d]?

end Verif.Whole
