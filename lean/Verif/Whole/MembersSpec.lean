import Verif.Whole.Spec
import Verif.Complete.MembersSpec
import Mathlib.Logic.Relation

/-! Which members of the current files should be offered after `->` and `::`. -/

namespace Verif.Whole

open Verif.Encoding Verif.Store Verif.Query

/-- Methods, properties and class constants are members. -/
def kindOf : Sym → Option Query.Kind
  | .met _ => some .methods
  | .pro _ => some .props
  | .claCon _ => some .consts
  | _ => none

/-- The name of a member, of a property with its dollar sign. -/
def nameOf : Sym → Bytes
  | .met m => m.name
  | .pro p => p.name
  | .claCon c => c.name
  | _ => []

/-- The class, interface or trait that a member is declared in. -/
def scopeOf : Sym → Bytes
  | .met m => m.scope.fqn
  | .pro p => p.scope.fqn
  | .claCon c => c.scope.fqn
  | _ => []

/-- It is declared `protected`. Of class constants this is not known (C02). -/
def Protected : Sym → Prop
  | .met m => m.visibility = 1
  | .pro p => p.visibility = 1
  | _ => False

def Public (x : Sym) : Prop := ¬ Protected x ∧ ¬ Private x

/-- What may be used after `->`: public members; in the code of the class `cur` all members of an object of that class, and
through `$this` what is its own or not private. -/
def MayArrow (cur : Bytes) (a : Access) (x : Sym) : Prop :=
  Public x ∨ cur ∈ a.types ∨ a.scopeName = b!"$this" ∧ (scopeOf x = cur ∨ ¬ Private x)

/-- What may be used after `::`. After `parent` what other classes declare and is not private; after `self`, `static` and
`$this` what the class declares or is not private; after other names the static members that are public or declared by the
class itself. -/
def MayScope (cur : Bytes) (a : Access) (x : Sym) : Prop :=
  if a.scopeName = b!"parent" then scopeOf x ≠ cur ∧ ¬ Private x
  else if a.scopeName ∈ [b!"self", b!"static", b!"$this"] then scopeOf x = cur ∨ ¬ Private x
  else Static x ∧ (Public x ∨ scopeOf x ∈ a.types)

/-- The class declares the member or, if it is a method, uses a trait that does. -/
def Own (env : Env) (L : Bytes → Option Doc) (d : Class) (x : Sym) : Prop :=
  scopeOf x = d.name.fqn ∨
  kindOf x = some .methods ∧ ∃ t, Live env L (.tra t) ∧ (∃ u ∈ d.use, u.fqn = t.name.fqn) ∧ t.name.fqn ≠ [] ∧
    scopeOf x = t.name.fqn

/-- An interface of the class, or one that it extends, declares the member. -/
def Asked (env : Env) (L : Bytes → Option Doc) (d : Class) (x : Sym) : Prop :=
  ∃ i, Live env L (.int i) ∧ (∃ t ∈ d.interfaces, t.fqn = i.name.fqn) ∧ i.name.fqn ≠ [] ∧
    ∃ j, IntfAbove env L i j ∧ scopeOf x = j.name.fqn

/-- No class extends itself, directly or through others. -/
def Acyclic (env : Env) (L : Bytes → Option Doc) : Prop :=
  ∀ c, Live env L (.cla c) → ¬ Relation.TransGen (Extends env L) c c

/-- What is shown and inserted for a member after `->`. -/
def ArrowText (x : Sym) (label insert : Bytes) : Prop :=
  match x with
  | .met m => label = m.name ∧ insert = m.name ++ if m.params = [] then b!"()" else b!"($0)"
  | .pro p => ∃ dollar, p.name = dollar :: label ∧ insert = label
  | _ => False

/-- What is shown and inserted for a member after `::`. Without the dollar sign a property is not the one meant (C94). -/
def ScopeText (x : Sym) (label insert : Bytes) : Prop :=
  match x with
  | .met m => label = m.name ∧ insert = m.name ++ if m.params = [] then b!"()" else b!"($0)"
  | .pro p => label = p.name ∧ ∀ dollar rest, p.name = dollar :: rest → insert = rest
  | .claCon c => label = c.name ∧ insert = c.name
  | _ => False

/-- The declarations `out` (as they are stored) are right for an object of the class `c`. -/
structure RightFor (env : Env) (L : Bytes → Option Doc) (k : Query.Kind) (c : Class) (may : Sym → Prop) (fits : Bytes → Prop)
    (out : List Sym) : Prop where
  /-- they are members of `c` in the current files, fit and may be used -/
  right : ∀ y ∈ out, ∃ x, Live env L x ∧ x.stored = y ∧ kindOf x = some k ∧ may x ∧ fits (nameOf x) ∧
    ∃ d, Above env L c d ∧ (Own env L d x ∨ Asked env L d x)
  /-- every such member is there, or another of its name -/
  all : ∀ x, Live env L x → kindOf x = some k → (∃ d, Above env L c d ∧ (Own env L d x ∨ Asked env L d x)) → may x →
    fits (nameOf x) → ∃ y ∈ out, nameOf y = nameOf x
  /-- no name is there twice -/
  once : (out.map nameOf).Nodup
  /-- of several members of a name the nearest that may be used is there -/
  nearest : ∀ ds e, (c :: ds).getLast? = some e → (c :: ds).IsChain (Extends env L) → (c :: ds).Nodup →
    ∀ x, Live env L x → kindOf x = some k → scopeOf x = e.name.fqn → may x → fits (nameOf x) →
    (∀ y, Live env L y → kindOf y = some k → nameOf y = nameOf x → may y →
      (Own env L e y → y = x) ∧ ∀ d ∈ (c :: ds).dropLast, ¬ Own env L d y) → x.stored ∈ out

end Verif.Whole
