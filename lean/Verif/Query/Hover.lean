import Verif.Query.Refer

/-! Which declarations hovering shows (`internal/lsp/hover.go`) and signature help describes (`internal/lsp/signature.go`
with `ResolveToHasParams` of the calls). -/

namespace Verif.Query

open Verif.Types Verif.Imports

/-- The constructors that `GetClassConstructor` (`query.go:45-47`) finds for some classes (`hover.go:37-43`,
`classTypeDesignator.go:80-89`). -/
def constructors (w : World) (n ni : Nat) : List Cls → St → Option (List Found × St)
  | [], st => some ([], st)
  | c :: cs, st =>
    match getClassMethods w n ni c b!"__construct" none st with
    | none => none
    | some (r, st) => (constructors w n ni cs st).map fun (fs, st) => (r.reduceFirst.toList ++ fs, st)

/-- The declarations that are shown by `hover` (`hover.go:27-202`), in that order; their text is in `Show`. `tbl` is
`ImportTableAtPos(pos)`. Variables are left out. -/
def hover (s : Site) (tbl : Table) (keyOf : Bytes → Bytes) (n ni : Nat) : Use → Option (List Nat)
  | .new_ ts =>
    let classes := ts.flatMap fun t => s.world.classesNamed t.fqn
    (constructors s.world n ni classes St.new).map fun (fs, _) =>
      if fs.isEmpty then classes.map (·.decl) else fs.map (·.member.decl)
  | .cls ts => some ((ts.flatMap fun t => s.world.classesNamed t.fqn).map (·.decl) ++
      (ts.flatMap fun t => s.world.interfacesNamed t.fqn).map (·.decl))
  | .intf ts => some ((ts.flatMap fun t => s.world.interfacesNamed t.fqn).map (·.decl))
  | .trt ts => some ((ts.flatMap fun t => s.world.traitsNamed t.fqn).map (·.decl))
  | .typ ts => some ((ts.flatMap fun t => s.world.classesNamed t.fqn).map (·.decl) ++
      (ts.flatMap fun t => s.world.interfacesNamed t.fqn).map (·.decl))
  | .constant name =>
    let fqn := tbl.getConstReferenceFQN (fun x => s.consts x ≠ []) (fun x => s.defines x ≠ []) name
    some (s.consts fqn ++ s.defines fqn)
  | .function name => some (s.functions (tbl.getFunctionReferenceFQN (fun x => s.functions x ≠ []) name))
  | .member u a name cur =>
    (memberLoop s.world keyOf n ni u a name cur a.types [] St.new).map fun l => l.map (·.member.decl)

/-- The lookups of `ResolveToHasParams` for one type (`methodAccess.go:83-88`, `scopedMethodAccess.go:84-93`). -/
def callLookups (w : World) (n ni : Nat) (name t : Bytes) : List Lookup :=
  ((w.classesNamed t).map fun c => getClassMethods w n ni c name) ++
    (w.interfacesNamed t).map fun i => getInterface w .methods ni i name

/-- All of them, each with a set of its own and reduced on its own. -/
def callLoop (reduce : Inherited → List Found) : List Lookup → St → Option (List Found)
  | [], _ => some []
  | l :: ls, st =>
    match l none st with
    | none => none
    | some (r, st) => (callLoop reduce ls st).map fun fs => reduce r ++ fs

/-- The declarations that signature help describes (`signature.go:40-44`): `ResolveToHasParams` of `FunctionCall`
(`functionCall.go:92-102`), `ClassTypeDesignator` (`classTypeDesignator.go:78-91`), `MethodAccess`
(`methodAccess.go:76-94`), `ScopedMethodAccess` (`scopedMethodAccess.go:79-96`). `last` is `currImportTable()`, the last
import table of the document, wherever the cursor is. Other symbols are not calls. -/
def signatures (s : Site) (last : Table) (n ni : Nat) : Use → Option (List Nat)
  | .new_ ts =>
    (constructors s.world n ni (ts.flatMap fun t => s.world.classesNamed t.fqn) St.new).map fun (fs, _) =>
      fs.map (·.member.decl)
  | .function name => some (s.functions (last.getFunctionReferenceFQN (fun x => s.functions x ≠ []) name))
  | .member .method a name cur =>
    (callLoop (MemberUse.reduce .method cur a) (a.types.flatMap (callLookups s.world n ni name)) St.new).map fun l =>
      l.map (·.member.decl)
  | .member .staticMethod a name cur =>
    (callLoop (MemberUse.reduce .staticMethod cur a) (a.types.flatMap (callLookups s.world n ni name)) St.new).map
      fun l => l.map (·.member.decl)
  | _ => none

end Verif.Query
