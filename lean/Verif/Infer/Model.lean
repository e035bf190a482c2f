import Verif.Types.Model
import Verif.Symbols.Vars

/-! Model of how types are found: the expressions that the analysis builds (`analysis/variable.go`, `expression.go`,
`relativeScope.go`, `memberAccess.go`, `propertyAccess.go`, `methodAccess.go`, `scopedPropertyAccess.go`,
`scopedMethodAccess.go`, `scopedConstantAccess.go`, `functionCall.go`, `constantAccess.go`, `classTypeDesignator.go`,
`classAccess.go`, `assignment.go`, `foreach.go`, `binaryExpression.go`, `anonymousFunction.go`), what `Resolve` makes of
them, and what `GetTypes` then says.

Simplified: an expression is a value, not a pointer. No expression is part of itself, `Resolve` does the same to an
expression however it is reached, and the one change to a variable after it is recorded is made in the table as well
(`test` below). The results of `GetTypes` are values too: Go may let two of them share storage, but each is read before
the next is made. -/

namespace Verif.Infer
open Verif.Types (Ty Union add merge mergeWithArrayLevel)
open Verif.Symbols (Var VarTable)

/-! ## Expressions -/

/-- A `HasTypes` (`expression.go:40-44`). `done` is `hasResolved` or `isResolved`, `types` is the field `Type`. -/
inductive Expr
  /-- no expression (`nil`) -/
  | nothing
  /-- `RelativeScope` (`relativeScope.go:5-8`) -/
  | relative (types : Union)
  /-- `Variable` (`variable.go:11-16`) -/
  | variable (name : Bytes) (types : Union) (canGlobal done : Bool) (scope : Expr)
  /-- `PropertyAccess` (`propertyAccess.go:9-13`). `here` is the class at the place of the scope. -/
  | property (here name : Bytes) (types : Union) (done : Bool) (scope : Expr)
  /-- `MethodAccess` (`methodAccess.go:9-13`) -/
  | method (here name : Bytes) (types : Union) (done : Bool) (scope : Expr)
  /-- `ScopedPropertyAccess` (`scopedPropertyAccess.go:11-15`) -/
  | staticProperty (here name : Bytes) (types : Union) (done : Bool) (scope : Expr)
  /-- `ScopedMethodAccess` (`scopedMethodAccess.go:10-14`) -/
  | staticMethod (here name : Bytes) (types : Union) (done : Bool) (scope : Expr)
  /-- `FunctionCall` (`functionCall.go:12-15`) -/
  | call (name : Bytes) (types : Union) (done : Bool)
  /-- `ClassTypeDesignator`, `ConstantAccess`, `ScopedConstantAccess` (`classTypeDesignator.go:10-14`,
  `constantAccess.go:10-12`, `scopedConstantAccess.go:10-12`): nothing to resolve -/
  | known (types : Union)
  /-- `ClassAccess` (`classAccess.go:9-13`) -/
  | classAccess (name : Bytes) (types : Union) (done : Bool) (scope : Expr)
  /-- `derivedExpression` (`expression.go:108-112`) -/
  | derived (done : Bool) (scope : Expr)
  /-- `ForeachCollection` (`foreach.go:9-12`) -/
  | element (scope : Expr)
  deriving DecidableEq, Repr

/-- `== nil` for a `HasTypes`. -/
def Expr.isNil : Expr → Bool
  | .nothing => true
  | _ => false

/-- The body of the loop of `ForeachCollection.GetTypes` (`foreach.go:85-88`). -/
def addElement (types : Union) (t : Ty) : Union := if t.dearray.2 then add types t.dearray.1 else types

/-- The loop of `ForeachCollection.GetTypes` (`foreach.go:84-89`). -/
def dearrayAll (u : Union) : Union := u.foldl addElement []

/-- `GetTypes` (`variable.go:86-95`, `relativeScope.go:67-69`, `propertyAccess.go:58-60`, `methodAccess.go:71-73`,
`scopedPropertyAccess.go:62-64`, `scopedMethodAccess.go:76-78`, `functionCall.go:90-92`, `classTypeDesignator.go:77-79`,
`constantAccess.go:45-48`, `scopedConstantAccess.go:45-48`, `classAccess.go:75-77`, `expression.go:152-157`,
`foreach.go:79-92`). -/
def Expr.getTypes : Expr → Union
  | .nothing => []
  | .relative types => types
  | .variable _ types _ _ scope => if scope.isNil then types else merge scope.getTypes types
  | .property _ _ types _ _ => types
  | .method _ _ types _ _ => types
  | .staticProperty _ _ types _ _ => types
  | .staticMethod _ _ types _ _ => types
  | .call _ types _ => types
  | .known types => types
  | .classAccess _ types _ _ => types
  | .derived _ scope => if scope.isNil then [] else scope.getTypes
  | .element scope => if scope.isNil then [] else dearrayAll scope.getTypes

/-- `ScopeName` (`memberAccess.go:52-58`): variables and class accesses are the expressions with a name. -/
def Expr.scopeName : Expr → Bytes
  | .variable name .. => name
  | .classAccess name .. => name
  | _ => []

/-- What decides which members an access may use (`query.go:211-275`): the class around it, the name before the operator
and its types. -/
structure Access where
  here : Bytes
  scopeName : Bytes
  scopeTypes : Union
  deriving DecidableEq, Repr

/-- What the resolution asks the index for. `globals`: the types of the global variables of a name
(`Query.GetGlobalVariables`). `functions`: the return types of the functions that a call by a name means
(`functionCall.go:82-83`). `props`, `methods`, `staticProps`, `staticMethods`: the types of the members of that name
that the classes and interfaces of the given name offer to an access (`Query.GetClasses`, `GetClassProps`,
`GetClassMethods`, `GetInterfaceMethods`, `ReduceAccess`, `ReduceStatic`; see `Verif.Query`). -/
structure World where
  globals : Bytes → List Union
  functions : Bytes → List Union
  props : Access → Bytes → Bytes → List Union
  methods : Access → Bytes → Bytes → List Union
  staticProps : Access → Bytes → Bytes → List Union
  staticMethods : Access → Bytes → Bytes → List Union

/-- Returns itself (`relativeScope.go:21`). -/
def isSelf (t : Ty) : Bool := t.original == b!"static" || t.original == b!"$this"

/-- `resolveMemberTypes` (`relativeScope.go:18-28`). -/
def resolveMemberTypes (types scopeTypes : Union) : Union :=
  types.foldl (fun newTypes t =>
    if isSelf t then mergeWithArrayLevel newTypes scopeTypes t.arrayLevel else add newTypes t) []

/-- The loops over the types of the scope and the members (`propertyAccess.go:47-53`, `scopedPropertyAccess.go:53-59`). -/
def memberLoop (offers : Bytes → List Union) (scopeTypes : Union) (types : Union) : Union :=
  scopeTypes.foldl (fun types scopeType => (offers scopeType.fqn).foldl merge types) types

/-- The same for methods (`methodAccess.go:56-67`, `scopedMethodAccess.go:62-73`). -/
def methodLoop (offers : Bytes → List Union) (scopeTypes : Union) (types : Union) : Union :=
  scopeTypes.foldl (fun types scopeType =>
    (offers scopeType.fqn).foldl (fun types ret => merge types (resolveMemberTypes ret scopeTypes)) types) types

/-- `Resolve` (`variable.go:69-84`, `propertyAccess.go:41-56`, `methodAccess.go:49-69`, `scopedPropertyAccess.go:46-60`,
`scopedMethodAccess.go:55-74`, `functionCall.go:75-88`, `classAccess.go:67-73`, `expression.go:159-167`,
`foreach.go:94-99`). -/
def Expr.resolve (w : World) : Expr → Expr
  | .nothing => .nothing
  | .relative types => .relative types
  | .variable name types canGlobal done scope =>
    if done then .variable name types canGlobal done scope
    else .variable name (if canGlobal then (w.globals name).foldl merge types else types) canGlobal true (scope.resolve w)
  | .property here name types done scope =>
    if done then .property here name types done scope
    else
      let scope := scope.resolve w
      .property here name
        (memberLoop (fun c => w.props ⟨here, scope.scopeName, scope.getTypes⟩ c (b!"$" ++ name)) scope.getTypes types) true
        scope
  | .method here name types done scope =>
    if done then .method here name types done scope
    else
      let scope := scope.resolve w
      .method here name
        (methodLoop (fun c => w.methods ⟨here, scope.scopeName, scope.getTypes⟩ c name) scope.getTypes types) true scope
  | .staticProperty here name types done scope =>
    if done then .staticProperty here name types done scope
    else
      let scope := scope.resolve w
      .staticProperty here name
        (memberLoop (fun c => w.staticProps ⟨here, scope.scopeName, scope.getTypes⟩ c name) scope.getTypes types) true scope
  | .staticMethod here name types done scope =>
    if done then .staticMethod here name types done scope
    else
      let scope := scope.resolve w
      .staticMethod here name
        (methodLoop (fun c => w.staticMethods ⟨here, scope.scopeName, scope.getTypes⟩ c name) scope.getTypes types) true
        scope
  | .call name types done =>
    if done then .call name types done else .call name ((w.functions name).foldl merge types) true
  | .known types => .known types
  | .classAccess name types done scope =>
    if done then .classAccess name types done scope
    else
      let scope := scope.resolve w
      .classAccess name (merge types scope.getTypes) true scope
  | .derived done scope => if done then .derived done scope else .derived true (scope.resolve w)
  | .element scope => .element (scope.resolve w)

/-- What a user is told about an expression: `Resolve`, then `GetTypes` (`internal/lsp/hover.go`, `completion.go`). -/
def Expr.typesIn (w : World) (e : Expr) : Union := (e.resolve w).getTypes

/-! ## Building them -/

/-- The source, as far as the analysis looks at it for types. Names of classes come with the types that the import
table gives them, doc comments with the types of their `@var` tags. `range` is the place of an expression. -/
inductive Src
  /-- anything in which nothing is recorded -/
  | skip
  /-- a phrase without a constructor of its own: one part after the other -/
  | both (a b : Src)
  /-- `$name` -/
  | var (name : Bytes) (range : Rng) (doc : Union)
  /-- `scope->name` -/
  | property (range : Rng) (here : Bytes) (scope : Src) (name : Bytes)
  /-- `scope->name(args)` -/
  | method (range : Rng) (here : Bytes) (scope : Src) (name : Bytes) (args : Src)
  /-- the part before `::`; `types` for a name, `scope` for a variable -/
  | cls (range : Rng) (name : Bytes) (types : Union) (scope : Src)
  /-- `scope::$name` -/
  | staticProperty (range : Rng) (here : Bytes) (scope : Src) (name : Bytes)
  /-- `scope::name(args)` -/
  | staticMethod (range : Rng) (here : Bytes) (scope : Src) (name : Bytes) (args : Src)
  /-- `scope::NAME` -/
  | staticConstant (range : Rng) (scope : Src)
  /-- `NAME` -/
  | constant (range : Rng)
  /-- `name(args)`, `callee` for `$callee(args)` -/
  | call (range : Rng) (name : Bytes) (callee args : Src)
  /-- `new Name(args)`, `callee` for `new $callee(args)` -/
  | create (range : Rng) (types : Union) (callee args : Src)
  /-- `(inner)`, `clone inner` -/
  | derived (range : Rng) (inner : Src)
  /-- `$name = value`; `stop` is where it ends -/
  | assign (name : Bytes) (range : Rng) (doc : Union) (value : Src) (stop : Pos)
  /-- `foreach (collection as $name) { body }` -/
  | each (collection : Src) (name : Bytes) (range : Rng) (doc : Union) (body : Src)
  /-- `inner instanceof Name` -/
  | test (inner : Src) (range : Rng) (name : Bytes) (types : Union)
  /-- `function (params) use (uses) { body }`; a function or method is one with no `uses`. `header` is the end of the
  header. -/
  | closure (uses : List (Bytes × Rng × Union)) (params : List (Bytes × Rng × Union)) (header : Pos) (body : Src)
  /-- `global $name` -/
  | global (name : Bytes)
  deriving Repr

/-- What the analysis keeps. `objects`: the variables made so far, by number (`Var.tag`). `table`, `globals`, `top`: the
variables, the names of `global` statements and whether the level is 0, all of the current table (`variable.go:130-137`).
`seen`: the expressions of the document with their places. -/
structure St where
  objects : List Expr := []
  table : VarTable := []
  globals : List Bytes := []
  top : Bool := true
  seen : List (Rng × Expr) := []
  deriving Repr

/-- `VariableTable.get` (`variable.go:178-189`). -/
def St.find (st : St) (name : Bytes) (pos : Pos) : Option Expr :=
  match st.table.find name pos with
  | some v => st.objects[v.tag]?
  | none => none

/-- `document.addSymbol`. -/
def St.see (st : St) (range : Rng) (e : Expr) : St := { st with seen := st.seen ++ [(range, e)] }

/-- `mergeTypesWithVariable` (`variable.go:53-61`). -/
def mergeWith : Expr → Expr → Expr
  | .variable name types canGlobal done scope, prev =>
    .variable name (merge types prev.getTypes) canGlobal done
      (if scope.isNil then (match prev with | .variable _ _ _ _ s => s | _ => scope) else scope)
  | e, _ => e

/-- `mergeTypesWithVariable` if there is something to merge with (`document.go:346-348`, `anonymousFunction.go:99-102`). -/
def mergeWith? (e : Expr) : Option Expr → Expr
  | some prev => mergeWith e prev
  | none => e

/-- `setExpression` (`variable.go:49-51`). -/
def Expr.setExpression (e scope : Expr) : Expr :=
  match e with
  | .variable name types canGlobal done _ => .variable name types canGlobal done scope
  | e => e

/-- `newVariableWithoutPushing` (`variable.go:28-43`). `cls` is the type of the class around. -/
def newVariable (cls : Union) (name : Bytes) (doc : Union) : Expr :=
  .variable name (merge [] doc) false false (if name = b!"$this" then .relative cls else .nothing)

/-- `canReferenceGlobal = true` (`document.go:350`). -/
def allowGlobal : Expr → Expr
  | .variable name types _ done scope => .variable name types true done scope
  | e => e

/-- `VariableTable.add` (`variable.go:148-176`) of a new object. -/
def St.add (st : St) (name : Bytes) (range : Rng) (e : Expr) (pos : Pos) (isDeclaration : Bool) : St :=
  { st with objects := st.objects ++ [e], table := st.table.add ⟨name, range, st.objects.length⟩ pos isDeclaration }

/-- What `pushVariable` (`document.go:343-353`) makes of a variable before it adds it. -/
def St.merged (st : St) (name : Bytes) (e : Expr) (pos : Pos) : Expr :=
  let e := mergeWith? e (st.find name pos)
  if st.top || st.globals.contains name then allowGlobal e else e

/-- A variable of the use clause of a closure (`anonymousFunction.go:93-103`): the outer table, then the inner one. The
variable is one object in both tables. -/
def useVariable (cls : Union) (sts : St × St) (u : Bytes × Rng × Union) : St × St :=
  let (outer, inner) := sts
  let (name, range, doc) := u
  let v := inner.merged name (newVariable cls name doc) range.stop
  let n := outer.objects.length
  let inner := { inner with table := inner.table.add ⟨name, range, n⟩ range.stop true }
  let outer := { outer with table := outer.table.add ⟨name, range, n⟩ range.stop false }
  let v := mergeWith? v (outer.find name range.start)
  let objects := outer.objects ++ [v]
  let seen := outer.seen ++ [(range, v)]
  ({ outer with objects := objects, seen := seen }, { inner with objects := objects, seen := seen })

/-- A parameter (`function.go:48-51`, `method.go:79-82`, `anonymousFunction.go:35-37`, `parameter.go:86-97`). -/
def addParam (header : Pos) (st : St) (p : Bytes × Rng × Union) : St :=
  st.add p.1 p.2.1 (.variable p.1 p.2.2 false false .nothing) header true

/-- `v.Type.merge` (`binaryExpression.go:40-42`). -/
def Expr.mergeTypes (ts : Union) : Expr → Expr
  | .variable name types canGlobal done scope => .variable name (merge types ts) canGlobal done scope
  | e => e

/-- The change of a variable that was recorded last: in the table and in the document. -/
def St.changeLast (st : St) (f : Expr → Expr) : St :=
  { st with
    objects := st.objects.modify (st.objects.length - 1) f
    seen := st.seen.modify (st.seen.length - 1) fun p => (p.1, f p.2) }

/-- `scanForExpression` and `scanNode` (`expression.go:88-106`, `document.go`): the expression that is made, and what is
recorded.

* `both`: `scanForChildren`.
* `var`: `newVariable` (`variable.go:22-26`).
* `property`: `newPropertyAccess` (`propertyAccess.go:18-35`).
* `method`: `newMethodAccess` (`methodAccess.go:17-43`).
* `cls`: `newClassAccess` (`classAccess.go:17-46`).
* `staticProperty`: `newScopedPropertyAccess` (`scopedPropertyAccess.go:20-40`).
* `staticMethod`: `newScopedMethodAccess` (`scopedMethodAccess.go:19-49`).
* `staticConstant`: `newScopedConstantAccess` (`scopedConstantAccess.go:17-37`).
* `constant`: `newConstantAccess` (`constantAccess.go:24-33`).
* `call`: `newFunctionCall` (`functionCall.go:43-69`).
* `create`: `newClassTypeDesignator` (`classTypeDesignator.go:18-64`).
* `derived`: `newDerivedExpression` (`expression.go:117-150`).
* `assign`: `analyseVariableAssignment` (`assignment.go:37-82`), without the types of a global variable.
* `each`: `analyseForeachStatement` (`foreach.go:14-67`).
* `test`: `processInstanceOfExpression` (`binaryExpression.go:25-46`).
* `closure`: `newAnonymousFunction` (`anonymousFunction.go:20-116`), `newFunction` (`function.go:24-62`).
* `global`: `setReferenceGlobal` (`globalVariable.go:56`, `variable.go:198-200`). -/
def scan (cls : Union) : Src → St → St × Expr
  | .skip, st => (st, .nothing)
  | .both a b, st => ((scan cls b (scan cls a st).1).1, .nothing)
  | .var name range doc, st =>
    let e := st.merged name (newVariable cls name doc) range.stop
    ((st.add name range e range.stop false).see range e, e)
  | .property range here scope name, st =>
    let (st, s) := scan cls scope st
    let e := Expr.property here name [] false s
    (st.see range e, e)
  | .method range here scope name args, st =>
    let (st, s) := scan cls scope st
    let e := Expr.method here name [] false s
    ((scan cls args (st.see range e)).1, e)
  | .cls range name types scope, st =>
    let (st, s) := scan cls scope st
    let e := Expr.classAccess name (merge [] types) false s
    (st.see range e, e)
  | .staticProperty range here scope name, st =>
    let (st, s) := scan cls scope st
    let e := Expr.staticProperty here name [] false s
    (st.see range e, e)
  | .staticMethod range here scope name args, st =>
    let (st, s) := scan cls scope st
    let e := Expr.staticMethod here name [] false s
    ((scan cls args (st.see range e)).1, e)
  | .staticConstant range scope, st =>
    let (st, _) := scan cls scope st
    (st.see range (.known []), .known [])
  | .constant range, st => (st.see range (.known []), .known [])
  | .call range name callee args, st =>
    let e := Expr.call name [] false
    ((scan cls args (scan cls callee (st.see range e)).1).1, e)
  | .create range types callee args, st =>
    let e := Expr.known (merge [] types)
    ((scan cls args (scan cls callee (st.see range e)).1).1, e)
  | .derived range inner, st =>
    let (st, s) := scan cls inner st
    let e := Expr.derived false s
    (st.see range e, e)
  | .assign name range doc value stop, st =>
    let (st, value) := scan cls value st
    let e := st.merged name (newVariable cls name doc) stop
    let e := if value.isNil then e else e.setExpression value
    ((st.add name range e stop true).see range e, .nothing)
  | .each collection name range doc body, st =>
    let (st, collection) := scan cls collection st
    let e := st.merged name (newVariable cls name doc) range.stop
    let e := e.setExpression (.element collection)
    ((scan cls body ((st.add name range e range.stop true).see range e)).1, .nothing)
  | .test inner range name types, st =>
    let (st, e) := scan cls inner st
    let st := match e with
      | .variable .. => st.changeLast (Expr.mergeTypes (merge [] types))
      | _ => st
    (st.see range (.classAccess name (merge [] types) false .nothing), .nothing)
  | .closure uses params header body, st =>
    let (st, inner) := uses.foldl (useVariable cls) (st, { objects := st.objects, top := false, seen := st.seen })
    let inner := (scan cls body (params.foldl (addParam header) inner)).1
    ({ st with objects := inner.objects, seen := inner.seen }, .nothing)
  | .global name, st => ({ st with globals := name :: st.globals }, .nothing)

/-- The expressions of a document, with their places. -/
def analyse (cls : Union) (p : Src) : List (Rng × Expr) := (scan cls p {}).1.seen

end Verif.Infer
