import Verif.Store.Spec
import Verif.Query.Refer

/-! What the declarations of the current files say: which of them a name refers to. `L` gives the current version of every
file (`latest`), `Live` the declarations in them. -/

namespace Verif.Whole

open Verif.Encoding Verif.Store

/-- `d` is the class `c` or one of the classes it extends, directly or not. -/
inductive Above (env : Env) (L : Bytes → Option Doc) (c : Class) : Class → Prop where
  | self : Above env L c c
  | parent {d e : Class} : Above env L c d → d.extends_.fqn ≠ [] → Live env L (.cla e) →
      SameClassName env e.name.fqn d.extends_.fqn → Above env L c e

/-- `j` is the interface `i` or one of the interfaces it extends, directly or not. -/
inductive IntfAbove (env : Env) (L : Bytes → Option Doc) (i : Interface) : Interface → Prop where
  | self : IntfAbove env L i i
  | parent {j e : Interface} : IntfAbove env L i j → (∃ t ∈ j.extends_, t.fqn = e.name.fqn) → e.name.fqn ≠ [] →
      Live env L (.int e) → IntfAbove env L i e

/-- The class `c` has members from the declaration called `scope`: a class it extends, a trait or an interface of
these. -/
def ClassHas (env : Env) (L : Bytes → Option Doc) (c : Class) (scope : Bytes) : Prop :=
  ∃ d, Above env L c d ∧
    (scope = d.name.fqn ∨
     (∃ x, Live env L (.tra x) ∧ (∃ t ∈ d.use, t.fqn = x.name.fqn) ∧ x.name.fqn ≠ [] ∧ scope = x.name.fqn) ∨
     (∃ i, Live env L (.int i) ∧ (∃ t ∈ d.interfaces, t.fqn = i.name.fqn) ∧ i.name.fqn ≠ [] ∧
        ∃ j, IntfAbove env L i j ∧ scope = j.name.fqn))

/-- What is called `t` has members from the declaration called `scope`. -/
def Has (env : Env) (L : Bytes → Option Doc) (t scope : Bytes) : Prop :=
  (∃ c, Live env L (.cla c) ∧ SameClassName env c.name.fqn t ∧ ClassHas env L c scope) ∨
  (∃ i, Live env L (.int i) ∧ SameClassName env i.name.fqn t ∧ ∃ j, IntfAbove env L i j ∧ scope = j.name.fqn) ∨
  (∃ x, Live env L (.tra x) ∧ SameClassName env x.name.fqn t ∧ scope = x.name.fqn)

/-- `x` is declared in `scope` under the name `name` and is what such an access wants: methods are compared ignoring case;
of constants it is enough that the name starts like that. -/
def Declares (env : Env) (u : Query.MemberUse) (scope name : Bytes) : Sym → Prop
  | .met m => (u = .method ∨ u = .staticMethod) ∧ m.scope.fqn = scope ∧ env.lower m.name = env.lower name
  | .pro p => (u = .prop ∧ p.scope.fqn = scope ∧ p.name = 36 :: name) ∨
      (u = .staticProp ∧ p.scope.fqn = scope ∧ p.name = name)
  | .claCon c => u = .const ∧ c.scope.fqn = scope ∧ name <+: c.name
  | _ => False

/-- It is declared `private`. -/
def Private : Sym → Prop
  | .met m => m.visibility = 2
  | .pro p => p.visibility = 2
  | _ => False

/-- It is declared `static`; class constants count as static. -/
def Static : Sym → Prop
  | .met m => m.isStatic = true
  | .pro p => p.isStatic = true
  | .claCon _ => True
  | _ => False

/-- No two classes of the current files are called the same, no two interfaces are. -/
structure OneEach (env : Env) (L : Bytes → Option Doc) : Prop where
  classes : ∀ c d, Live env L (.cla c) → Live env L (.cla d) → SameClassName env c.name.fqn d.name.fqn → c = d
  interfaces : ∀ c d, Live env L (.int c) → Live env L (.int d) → c.name.fqn = d.name.fqn → c = d

/-- `e` is the class that `d` extends. -/
def Extends (env : Env) (L : Bytes → Option Doc) (d e : Class) : Prop :=
  d.extends_.fqn ≠ [] ∧ Live env L (.cla e) ∧ SameClassName env e.name.fqn d.extends_.fqn

/-- The class declares no method of this name (in whatever case), nor does a trait that it uses. -/
def Lacks (env : Env) (L : Bytes → Option Doc) (name : Bytes) (d : Class) : Prop :=
  ∀ m, Live env L (.met m) → env.lower m.name = env.lower name →
    m.scope.fqn ≠ d.name.fqn ∧ ∀ t ∈ d.use, t.fqn ≠ m.scope.fqn

/-- The class is not called like an interface or a trait. -/
def Unmistakable (env : Env) (L : Bytes → Option Doc) (c : Class) : Prop :=
  (∀ i, Live env L (.int i) → ¬ SameClassName env i.name.fqn c.name.fqn) ∧
  ∀ x, Live env L (.tra x) → ¬ SameClassName env x.name.fqn c.name.fqn

/-- The file can be opened in the editor: it is not one of the bundled stubs. -/
def Openable (x : Sym) : Prop := b!"file://" <+: x.location.uri

/-- The answer consists of the stored forms (C02) of exactly the declarations that satisfy `P` and can be opened. -/
def Leads (env : Env) (L : Bytes → Option Doc) (r : List Sym) (P : Sym → Prop) : Prop :=
  ∀ y, y ∈ r ↔ ∃ x, Live env L x ∧ P x ∧ Openable x ∧ x.stored = y

end Verif.Whole
