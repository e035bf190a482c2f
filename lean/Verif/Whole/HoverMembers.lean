import Verif.Whole.Show

/-! Hovering over a member or over `new`, on top of the store: the texts, which also say where the member was found. -/

namespace Verif.Whole

open Verif.Encoding Verif.Storage Verif.Store Verif.Query

/-- The `Scope` of a `MethodWithScope`, `PropWithScope`, `ClassConstWithScope` (`query.go:128-140`, `540-552`, `761-773`) as
`concatScopeIfAvailable` (`symbolConverter.go:257-279`) sees it. In the model only its name is recorded: what it is, is looked
up here among the stored classes, interfaces and traits. (Of a class and an interface of the same name the code takes the one
in which the member was found; the model takes the class.) -/
def scopeNamed (s : Store) (name : Bytes) : Show.Scope :=
  if (scanAll s cCla readClass).any fun c => c.name.fqn = name then .cls name
  else if (scanAll s cInt readInterface).any fun c => c.name.fqn = name then .intf name
  else if (scanAll s cTra readTrait).any fun c => c.name.fqn = name then .trt name
  else .no

/-- The text for one member: the bodies of the loops of `methodsToHover`, `propertiesToHover`, `classConstsToHover`
(`symbolConverter.go:229-355`). -/
def memberText (md : Bytes → Option Bytes) (scope : Show.Scope) : Sym → Bytes
  | .met m => Show.methodHover md scope m
  | .pro p => Show.propertyHover md scope p
  | .claCon c => Show.classConstHover md scope c
  | _ => []

/-- The text for one result of a lookup. -/
def foundText (s : Store) (md : Bytes → Option Bytes) (f : Found) : Bytes :=
  ((decls s)[f.member.decl]?).elim [] (memberText md (scopeNamed s f.scope))

/-- The text that is shown for a member (`hover.go:107-148`, `152-183`). -/
def memberHoverIn (env : Env) (s : Store) (md : Bytes → Option Bytes) (keyOf : Bytes → Bytes) (n ni : Nat) (u : MemberUse)
    (a : Access) (name cur : Bytes) : Option Bytes :=
  (memberLoop (worldOf env s) keyOf n ni u a name cur a.types [] St.new).map fun l => l.flatMap (foundText s md)

/-- The text that is shown for the class name after `new` (`hover.go:30-46`): the constructors if there are any, else the
classes. -/
def newHoverIn (env : Env) (s : Store) (md : Bytes → Option Bytes) (n ni : Nat) (ts : List Types.Ty) : Option Bytes :=
  let classes := ts.flatMap fun t => (worldOf env s).classesNamed t.fqn
  (constructors (worldOf env s) n ni classes St.new).map fun (fs, _) =>
    if fs.isEmpty then (classes.filterMap fun c => (decls s)[c.decl]?).flatMap (showText md)
    else fs.flatMap (foundText s md)

end Verif.Whole
