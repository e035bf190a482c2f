import Verif.Infer.Model

/-! Specification of the types of expressions: a small evaluator of programs on types, run over the source from left to
right. It knows nothing of tables, recorded variables or resolution. -/

namespace Verif.Infer
open Verif.Types (Ty Union)
open Verif.Position (Before)

/-- A type: the name of a class (or of a native type) and the depth of the array. -/
abbrev Kind := Bytes × Int

/-- The type of a text. -/
def kind (t : Ty) : Kind := (t.fqn, t.arrayLevel)

/-- The types of a union. -/
def kinds (u : Union) : List Kind := u.map kind

/-- What is known about the code outside of the program: the types of global variables, the types that functions return,
and the types of the members of a class, given the class around the access and the name before the operator. -/
structure Outside where
  globals : Bytes → List Ty
  functions : Bytes → List Ty
  props : Bytes → Bytes → Bytes → Bytes → List Ty
  methods : Bytes → Bytes → Bytes → Bytes → List Ty
  staticProps : Bytes → Bytes → Bytes → Bytes → List Ty
  staticMethods : Bytes → Bytes → Bytes → Bytes → List Ty

/-- All that the index offers is in `o`. -/
structure Covers (w : World) (o : Outside) : Prop where
  globals : ∀ n, ∀ u ∈ w.globals n, ∀ t ∈ u, t ∈ o.globals n
  functions : ∀ n, ∀ u ∈ w.functions n, ∀ t ∈ u, t ∈ o.functions n
  props : ∀ a c n, ∀ u ∈ w.props a c n, ∀ t ∈ u, t ∈ o.props a.here a.scopeName c n
  methods : ∀ a c n, ∀ u ∈ w.methods a c n, ∀ t ∈ u, t ∈ o.methods a.here a.scopeName c n
  staticProps : ∀ a c n, ∀ u ∈ w.staticProps a c n, ∀ t ∈ u, t ∈ o.staticProps a.here a.scopeName c n
  staticMethods : ∀ a c n, ∀ u ∈ w.staticMethods a c n, ∀ t ∈ u, t ∈ o.staticMethods a.here a.scopeName c n

/-- All that is in `o` is offered by the index. -/
structure Gives (w : World) (o : Outside) : Prop where
  globals : ∀ n, ∀ t ∈ o.globals n, ∃ u ∈ w.globals n, t ∈ u
  functions : ∀ n, ∀ t ∈ o.functions n, ∃ u ∈ w.functions n, t ∈ u
  props : ∀ a c n, ∀ t ∈ o.props a.here a.scopeName c n, ∃ u ∈ w.props a c n, t ∈ u
  methods : ∀ a c n, ∀ t ∈ o.methods a.here a.scopeName c n, ∃ u ∈ w.methods a c n, t ∈ u
  staticProps : ∀ a c n, ∀ t ∈ o.staticProps a.here a.scopeName c n, ∃ u ∈ w.staticProps a c n, t ∈ u
  staticMethods : ∀ a c n, ∀ t ∈ o.staticMethods a.here a.scopeName c n, ∃ u ∈ w.staticMethods a c n, t ∈ u

/-- The variables of a scope: the types of each, and which of them are global variables. -/
structure Env where
  types : Bytes → List Kind := fun _ => []
  isGlobal : Bytes → Bool := fun _ => false

def Env.put (env : Env) (name : Bytes) (ts : List Kind) : Env :=
  { env with types := fun n => if n = name then ts else env.types n }

/-- The elements of an array. -/
def elements (ts : List Kind) : List Kind := ts.filterMap fun k => if k.2 = 0 then none else some (k.1, k.2 - 1)

/-- A method that says it returns `static` or `$this` returns what it was called on. -/
def returned (on : List Kind) (ret : List Ty) : List Kind :=
  ret.flatMap fun t => if t.original = b!"static" ∨ t.original = b!"$this" then on.map fun k => (k.1, k.2 + t.arrayLevel)
    else [kind t]

/-- The name before an operator. -/
def nameOf : Src → Bytes
  | .var name .. => name
  | .cls _ name .. => name
  | _ => []

/-- What evaluation gives: the variables afterwards, the types of the expression, and the types of every expression
inside with its place. -/
structure Out where
  env : Env
  types : List Kind := []
  trace : List (Rng × List Kind) := []

section
variable (o : Outside) (cls : List Kind)

/-- The types a name has from elsewhere. -/
def fromGlobal (env : Env) (name : Bytes) : List Kind := if env.isGlobal name then (o.globals name).map kind else []

/-- The types a variable has. With `weak`, also what `$this` was given. -/
def look (weak : Bool) (env : Env) (name : Bytes) : List Kind :=
  if name = b!"$this" then cls ++ (if weak then env.types name else []) else env.types name

/-- A variable of the use clause of a closure: it is the variable outside and inside. -/
def evalUse (weak : Bool) (r : Out × Env) (u : Bytes × Rng × Union) : Out × Env :=
  let own := look cls weak r.1.env u.1 ++ kinds u.2.2
  ({ env := r.1.env.put u.1 own, trace := r.1.trace ++ [(u.2.1, own)] }, r.2.put u.1 own)

/-- A parameter. -/
def evalParam (env : Env) (p : Bytes × Rng × Union) : Env := env.put p.1 (kinds p.2.2)

/-- Evaluation of a program on types. With `weak = false` a variable has the types of the value it was assigned last, to
which a doc comment or an `instanceof` after it may add. With `weak = true` a variable keeps the types it had.
`values = true` is the meaning in PHP: an assignment has a value as well. With `values = false` that value is not known. -/
def eval (values weak : Bool) : Src → Env → Out
  | .skip, env => { env }
  | .both a b, env =>
    let ra := eval values weak a env
    let rb := eval values weak b ra.env
    { env := rb.env, trace := ra.trace ++ rb.trace }
  | .var name range doc, env =>
    let own := look cls weak env name ++ kinds doc
    let ts := own ++ fromGlobal o env name
    { env := env.put name own, types := ts, trace := [(range, ts)] }
  | .property range here scope name, env =>
    let rs := eval values weak scope env
    let ts := rs.types.flatMap fun k => (o.props here (nameOf scope) k.1 (b!"$" ++ name)).map kind
    { env := rs.env, types := ts, trace := rs.trace ++ [(range, ts)] }
  | .method range here scope name args, env =>
    let rs := eval values weak scope env
    let ts := rs.types.flatMap fun k => returned rs.types (o.methods here (nameOf scope) k.1 name)
    let ra := eval values weak args rs.env
    { env := ra.env, types := ts, trace := rs.trace ++ (range, ts) :: ra.trace }
  | .cls range _ types scope, env =>
    let rs := eval values weak scope env
    let ts := kinds types ++ rs.types
    { env := rs.env, types := ts, trace := rs.trace ++ [(range, ts)] }
  | .staticProperty range here scope name, env =>
    let rs := eval values weak scope env
    let ts := rs.types.flatMap fun k => (o.staticProps here (nameOf scope) k.1 name).map kind
    { env := rs.env, types := ts, trace := rs.trace ++ [(range, ts)] }
  | .staticMethod range here scope name args, env =>
    let rs := eval values weak scope env
    let ts := rs.types.flatMap fun k => returned rs.types (o.staticMethods here (nameOf scope) k.1 name)
    let ra := eval values weak args rs.env
    { env := ra.env, types := ts, trace := rs.trace ++ (range, ts) :: ra.trace }
  | .staticConstant range scope, env =>
    let rs := eval values weak scope env
    { env := rs.env, trace := rs.trace ++ [(range, [])] }
  | .constant range, env => { env, trace := [(range, [])] }
  | .call range name callee args, env =>
    let ts := (o.functions name).map kind
    let rc := eval values weak callee env
    let ra := eval values weak args rc.env
    { env := ra.env, types := ts, trace := (range, ts) :: rc.trace ++ ra.trace }
  | .create range types callee args, env =>
    let rc := eval values weak callee env
    let ra := eval values weak args rc.env
    { env := ra.env, types := kinds types, trace := (range, kinds types) :: rc.trace ++ ra.trace }
  | .derived range inner, env =>
    let ri := eval values weak inner env
    { env := ri.env, types := ri.types, trace := ri.trace ++ [(range, ri.types)] }
  | .assign name range doc value _, env =>
    let rv := eval values weak value env
    let own := rv.types ++ kinds doc ++ if weak then look cls weak rv.env name else []
    { env := rv.env.put name own, types := if values then rv.types else [],
      trace := rv.trace ++ [(range, own ++ fromGlobal o rv.env name)] }
  | .each collection name range doc body, env =>
    let rc := eval values weak collection env
    let own := elements rc.types ++ kinds doc ++ if weak then look cls weak rc.env name else []
    let rb := eval values weak body (rc.env.put name own)
    { env := rb.env, trace := rc.trace ++ (range, own ++ fromGlobal o rc.env name) :: rb.trace }
  | .test (.var name at_ doc) range _ types, env =>
    let own := look cls weak env name ++ kinds doc ++ kinds types
    { env := env.put name own, trace := [(at_, own ++ fromGlobal o env name), (range, kinds types)] }
  | .test inner range _ types, env =>
    let ri := eval values weak inner env
    { env := ri.env, trace := ri.trace ++ [(range, kinds types)] }
  | .closure uses params _ body, env =>
    let ru := uses.foldl (evalUse cls weak) ({ env }, {})
    let rb := eval values weak body (params.foldl evalParam ru.2)
    { env := ru.1.env, trace := ru.1.trace ++ rb.trace }
  | .global name, env => { env := { env with isGlobal := fun n => n = name || env.isGlobal n } }

end

/-- The types of the expressions of a program, with their places. At the top level every variable is a global one. -/
def typesOf (o : Outside) (cls : List Kind) (weak : Bool) (p : Src) : List (Rng × List Kind) :=
  (eval o cls true weak p { isGlobal := fun _ => true }).trace

/-- The program text is an assignment. -/
def Src.isAssignment : Src → Bool
  | .assign .. => true
  | _ => false

/-- No assignment is used as a value: `$a = ($b = new Foo)` and `($a = new Foo)->bar()` are not there. -/
def Plain : Src → Prop
  | .skip | .var .. | .constant _ | .global _ => True
  | .both a b => Plain a ∧ Plain b
  | .property _ _ s _ | .cls _ _ _ s | .staticProperty _ _ s _ | .derived _ s => Plain s ∧ s.isAssignment = false
  | .method _ _ s _ args | .staticMethod _ _ s _ args => Plain s ∧ s.isAssignment = false ∧ Plain args
  | .staticConstant _ s => Plain s
  | .call _ _ c args | .create _ _ c args => Plain c ∧ Plain args
  | .assign _ _ _ v _ => Plain v ∧ v.isAssignment = false
  | .each c _ _ _ body => Plain c ∧ c.isAssignment = false ∧ Plain body
  | .test i _ _ _ => Plain i
  | .closure _ _ _ body => Plain body

/-- `a` is not after `b`. -/
def Upto (a b : Pos) : Prop := ¬ Before b a

/-- The source lies between two places of the text, in order. -/
def Fits : Src → Pos → Pos → Prop
  | .skip, a, b => Upto a b
  | .both x y, a, b => ∃ m, Fits x a m ∧ Fits y m b
  | .var _ r _, a, b => Upto a r.start ∧ Before r.start r.stop ∧ Upto r.stop b
  | .property _ _ s _, a, b => Fits s a b
  | .method _ _ s _ args, a, b => ∃ m, Fits s a m ∧ Fits args m b
  | .cls _ _ _ s, a, b => Fits s a b
  | .staticProperty _ _ s _, a, b => Fits s a b
  | .staticMethod _ _ s _ args, a, b => ∃ m, Fits s a m ∧ Fits args m b
  | .staticConstant _ s, a, b => Fits s a b
  | .constant _, a, b => Upto a b
  | .call _ _ c args, a, b => ∃ m, Fits c a m ∧ Fits args m b
  | .create _ _ c args, a, b => ∃ m, Fits c a m ∧ Fits args m b
  | .derived _ s, a, b => Fits s a b
  | .assign _ r _ v stop, a, b => Upto a r.start ∧ Before r.start r.stop ∧ Fits v r.stop stop ∧ Upto stop b
  | .each c _ r _ body, a, b => ∃ m, Fits c a m ∧ Upto m r.start ∧ Before r.start r.stop ∧ Fits body r.stop b
  | .test i _ _ _, a, b => Fits i a b
  | .closure uses _ header body, a, b =>
    ∃ m, InOrder uses a m ∧ Upto m header ∧ Fits body header b
  | .global _, a, b => Upto a b
where
  /-- The variables of a use clause lie between two places, in order. -/
  InOrder : List (Bytes × Rng × Union) → Pos → Pos → Prop
    | [], a, b => Upto a b
    | u :: us, a, b => Upto a u.2.1.start ∧ Before u.2.1.start u.2.1.stop ∧ InOrder us u.2.1.stop b

/-- No class occurs with two different depths. -/
def Clean (ts : List Kind) : Prop := ∀ a ∈ ts, ∀ b ∈ ts, a.1 = b.1 → a = b

end Verif.Infer
