import Verif.Whole.MembersSpec
import Verif.Whole.Props
import Verif.Infer.Spec
import Verif.Show.Model

/-! What the current files declare about types. -/

namespace Verif.Whole

open Verif.Encoding Verif.Store

/-- The types that a declaration gives: a global variable and a property have types, a function and a method return
some. -/
def Gives (x : Sym) (t : Types.Ty) : Prop :=
  match x with
  | .gloVar g => t ∈ g.types.map Show.ofType
  | .fn f => t ∈ f.returnTypes.map Show.ofType
  | .met m => t ∈ m.returnTypes.map Show.ofType
  | .pro p => t ∈ p.types.map Show.ofType
  | _ => False

open Classical in
/-- A call of `name` in a file with this import table means the function `fqn`. -/
def Calls (env : Env) (L : Bytes → Option Doc) (last : Imports.Table) (name fqn : Bytes) : Prop :=
  ∃ t, Types.newTypeString name = some t ∧
    last.getFunctionReferenceFQN (fun q => decide (FunctionExists env L q)) t = fqn

/-- A class called `c` has members from `scope`. -/
def FromClass (env : Env) (L : Bytes → Option Doc) (c scope : Bytes) : Prop :=
  ∃ d, Live env L (.cla d) ∧ SameClassName env d.name.fqn c ∧ ClassHas env L d scope

/-- An interface called `c` has members from `scope`. -/
def FromInterface (env : Env) (L : Bytes → Option Doc) (c scope : Bytes) : Prop :=
  ∃ i, Live env L (.int i) ∧ i.name.fqn = c ∧ ∃ j, IntfAbove env L i j ∧ scope = j.name.fqn

/-- After `Name::` only static members count. -/
def Reached (before : Bytes) (x : Sym) : Prop := before ∈ [b!"parent", b!"self", b!"static", b!"$this"] ∨ Static x

/-- `o` consists of exactly the types that the declarations of the current files give. Methods are compared ignoring case.
An access without a name asks for all members. -/
structure Declared (env : Env) (L : Bytes → Option Doc) (last : Imports.Table) (o : Infer.Outside) : Prop where
  globals : ∀ n t, t ∈ o.globals n ↔ ∃ g, Live env L (.gloVar g) ∧ g.name = n ∧ Gives (.gloVar g) t
  functions : ∀ n t, t ∈ o.functions n ↔ ∃ f, Live env L (.fn f) ∧ Calls env L last n f.name.fqn ∧ Gives (.fn f) t
  props : ∀ here before c n t, t ∈ o.props here before c n ↔ ∃ p, Live env L (.pro p) ∧
    FromClass env L c p.scope.fqn ∧ (n ≠ [] → p.name = n) ∧ Gives (.pro p) t
  methods : ∀ here before c n t, t ∈ o.methods here before c n ↔ ∃ m, Live env L (.met m) ∧
    (FromClass env L c m.scope.fqn ∨ FromInterface env L c m.scope.fqn) ∧ (n ≠ [] → env.lower m.name = env.lower n) ∧
    Gives (.met m) t
  staticProps : ∀ here before c n t, t ∈ o.staticProps here before c n ↔ ∃ p, Live env L (.pro p) ∧
    FromClass env L c p.scope.fqn ∧ (n ≠ [] → p.name = n) ∧ Reached before (.pro p) ∧ Gives (.pro p) t
  staticMethods : ∀ here before c n t, t ∈ o.staticMethods here before c n ↔ ∃ m, Live env L (.met m) ∧
    (FromClass env L c m.scope.fqn ∨ FromInterface env L c m.scope.fqn) ∧ (n ≠ [] → env.lower m.name = env.lower n) ∧
    Reached before (.met m) ∧ Gives (.met m) t

/-- The class called `c` declares the property `n`, and only one. -/
def OwnProperty (env : Env) (L : Bytes → Option Doc) (c n : Bytes) (p : Property) : Prop :=
  n ≠ [] ∧ Live env L (.pro p) ∧ p.name = n ∧
  (∃ d, Live env L (.cla d) ∧ SameClassName env d.name.fqn c ∧ p.scope.fqn = d.name.fqn) ∧
  ∀ q, Live env L (.pro q) → q.scope.fqn = p.scope.fqn → q.name = n → q = p

/-- The class called `c` declares the method `n`, and only one. -/
def OwnMethod (env : Env) (L : Bytes → Option Doc) (c n : Bytes) (m : Method) : Prop :=
  n ≠ [] ∧ Live env L (.met m) ∧ env.lower m.name = env.lower n ∧
  (∃ d, Live env L (.cla d) ∧ SameClassName env d.name.fqn c ∧ m.scope.fqn = d.name.fqn) ∧
  ∀ q, Live env L (.met q) → q.scope.fqn = m.scope.fqn → env.lower q.name = env.lower n → q = m

/-- In the class `here`, `before->x` may be written, `x` being declared by the class `scope`: it is public, or `before` is
`$this` and it is not another class's private member. -/
def ByArrow (here before scope : Bytes) (x : Sym) : Prop :=
  Public x ∨ before = b!"$this" ∧ (scope = here ∨ ¬ Private x)

/-- In the class `here`, `before::x` may be written: after `parent` what another class declares and is not private, after
`self`, `static` and `$this` what is not another class's private member, and otherwise what is static and public. -/
def ByScope (here before scope : Bytes) (x : Sym) : Prop :=
  (before = b!"parent" → scope ≠ here ∧ ¬ Private x) ∧
  (before ∈ [b!"self", b!"static", b!"$this"] → scope = here ∨ ¬ Private x) ∧
  (before ∉ [b!"parent", b!"self", b!"static", b!"$this"] → Static x ∧ Public x)

/-- What `o` says is what the declarations of global variables, of functions and of the properties and methods that the
classes declare themselves and that may be used there say. -/
structure Stated (env : Env) (L : Bytes → Option Doc) (last : Imports.Table) (o : Infer.Outside) : Prop where
  globals : ∀ n, ∀ t ∈ o.globals n, ∃ g, Live env L (.gloVar g) ∧ g.name = n ∧ Gives (.gloVar g) t
  functions : ∀ n, ∀ t ∈ o.functions n, ∃ f, Live env L (.fn f) ∧ Calls env L last n f.name.fqn ∧ Gives (.fn f) t
  props : ∀ here before c n, ∀ t ∈ o.props here before c n, ∃ p, OwnProperty env L c n p ∧
    ByArrow here before p.scope.fqn (.pro p) ∧ Gives (.pro p) t
  methods : ∀ here before c n, ∀ t ∈ o.methods here before c n, ∃ m, OwnMethod env L c n m ∧
    ByArrow here before m.scope.fqn (.met m) ∧ Gives (.met m) t
  staticProps : ∀ here before c n, ∀ t ∈ o.staticProps here before c n, ∃ p, OwnProperty env L c n p ∧
    ByScope here before p.scope.fqn (.pro p) ∧ Gives (.pro p) t
  staticMethods : ∀ here before c n, ∀ t ∈ o.staticMethods here before c n, ∃ m, OwnMethod env L c n m ∧
    ByScope here before m.scope.fqn (.met m) ∧ Gives (.met m) t

end Verif.Whole
