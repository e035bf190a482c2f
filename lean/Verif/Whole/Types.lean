import Verif.Whole.Model
import Verif.Query.Hover
import Verif.Infer.Model
import Verif.Show.Model

/-! The types of expressions, on top of the store: what `Resolve` of the expressions asks the index for. -/

namespace Verif.Whole

open Verif.Encoding Verif.Storage Verif.Store Verif.Query

/-- What the access rules look at of an access (`query.go:211-275`). -/
def accessOf (a : Infer.Access) : Query.Access := ⟨a.scopeName, a.scopeTypes.map (·.fqn)⟩

/-- `Method.GetReturnTypes()` (`method.go:180-182`) and `Prop.Types` (`property.go:13-25`) of a declaration. -/
def typesOfMember : Sym → Option Types.Union
  | .met m => some (m.returnTypes.map Show.ofType)
  | .pro p => some (p.types.map Show.ofType)
  | _ => none

/-- `m.Method.GetReturnTypes()` (`methodAccess.go:60`, `65`; `scopedMethodAccess.go:64`, `69`) and `p.Prop.Types`
(`propertyAccess.go:50`, `scopedPropertyAccess.go:56`) of the members that were found. -/
def memberTypes (s : Store) (l : List Found) : List Types.Union :=
  l.filterMap fun f => ((decls s)[f.member.decl]?).bind typesOfMember

/-- The lookups of `Resolve` of a property access for one type (`propertyAccess.go:48-49`, `scopedPropertyAccess.go:54-55`):
classes only. -/
def propLookups (w : World) (n ni : Nat) (name t : Bytes) : List Lookup :=
  (w.classesNamed t).map fun c => getClassPlain w .props n ni c name

/-- What the resolution asks the index for, with the store in this state: `Variable.Resolve` (`variable.go:69-84`),
`FunctionCall.Resolve` (`functionCall.go:75-88`), `PropertyAccess.Resolve` (`propertyAccess.go:41-56`),
`MethodAccess.Resolve` (`methodAccess.go:49-69`), `ScopedPropertyAccess.Resolve` (`scopedPropertyAccess.go:46-60`),
`ScopedMethodAccess.Resolve` (`scopedMethodAccess.go:55-74`). `last` is `currImportTable()`, the last import table of the
document, wherever the call is. `st` is the state of the query (its cache) when a question is asked. A search that does not
end within `n` and `ni` rounds counts as one that finds nothing (C132: without cycles of classes they end). A name that
makes `NewTypeString` panic is no function's. -/
def resolvedIn (env : Env) (s : Store) (last : Imports.Table) (n ni : Nat)
    (st : MemberUse → Infer.Access → Bytes → Bytes → St) : Infer.World where
  globals name := ((s.getGlobalVariables name).getD []).map fun g => g.types.map Show.ofType
  functions name :=
    match Types.newTypeString name with
    | none => []
    | some t => ((s.getFunctions (last.getFunctionReferenceFQN (fun x => (siteOf env s).functions x ≠ []) t)).getD []).map
        fun f => f.returnTypes.map Show.ofType
  props a c name := memberTypes s ((callLoop (MemberUse.reduce .prop a.here (accessOf a))
    (propLookups (worldOf env s) n ni name c) (st .prop a c name)).getD [])
  methods a c name := memberTypes s ((callLoop (MemberUse.reduce .method a.here (accessOf a))
    (callLookups (worldOf env s) n ni name c) (st .method a c name)).getD [])
  staticProps a c name := memberTypes s ((callLoop (MemberUse.reduce .staticProp a.here (accessOf a))
    (propLookups (worldOf env s) n ni name c) (st .staticProp a c name)).getD [])
  staticMethods a c name := memberTypes s ((callLoop (MemberUse.reduce .staticMethod a.here (accessOf a))
    (callLookups (worldOf env s) n ni name c) (st .staticMethod a c name)).getD [])

end Verif.Whole
