import Verif.Query.Spec
import Verif.Query.Refer

/-! Which declarations a use of a name refers to. -/

namespace Verif.Query

open Verif.Types Verif.Imports

/-- Some class is called like that and is the declaration `d`; names of classes do not depend on case. -/
def NamesClass (w : World) (fqn : Bytes) (d : Nat) : Prop := ∃ c ∈ w.classes, w.key c.name = w.key fqn ∧ c.decl = d

/-- The same for interfaces. -/
def NamesInterface (w : World) (fqn : Bytes) (d : Nat) : Prop :=
  ∃ i ∈ w.interfaces, w.key i.name = w.key fqn ∧ i.decl = d

/-- The same for traits. -/
def NamesTrait (w : World) (fqn : Bytes) (d : Nat) : Prop := ∃ t ∈ w.traits, w.key t.name = w.key fqn ∧ t.decl = d

/-- What is called `t` has members from the declaration called `scope`. -/
def HasFrom (w : World) (t scope : Bytes) : Prop :=
  (∃ c ∈ w.classes, w.key c.name = w.key t ∧ Provides w c scope) ∨
  (∃ i ∈ w.interfaces, w.key i.name = w.key t ∧ IntfProvides w i scope) ∨
  (∃ x ∈ w.traits, w.key x.name = w.key t ∧ scope = x.name)

/-- `d` is a member of this name of what is called `t`. -/
def MemberOf (w : World) (u : MemberUse) (name t : Bytes) (m : Member) : Prop :=
  ∃ scope, HasFrom w t scope ∧ m ∈ w.members u.kind scope (u.key name)

/-- The members that the index has for this name are called exactly so: the name is written as it is declared, in every
class. (The index ignores the case of methods and takes constants whose names only start like that.) -/
def AsNamed (w : World) (u : MemberUse) (name : Bytes) : Prop :=
  ∀ scope, ∀ m ∈ w.members u.kind scope (u.key name), m.name = u.key name

/-- A name is written as it is declared. -/
def AsDeclared (w : World) (fqn : Bytes) : Prop :=
  (∀ i ∈ w.interfaces, w.key i.name = w.key fqn → i.name = fqn) ∧ ∀ t ∈ w.traits, w.key t.name = w.key fqn → t.name = fqn

/-- May the member be used, as the access rules have it (C31)? No relation between classes is given. -/
def Usable (u : MemberUse) (cur : Bytes) (a : Access) (m : Member) : Prop :=
  match u with
  | .prop => isInherited cur a [] m = true
  | .method => isInherited cur a [] m = true
  | _ => isInheritedStatic cur a [] m = true

/-- The class itself has the member: it declares it or, for methods, one of its traits does. -/
def Own (w : World) (u : MemberUse) (name : Bytes) (d : Cls) (m : Member) : Prop :=
  m ∈ w.members u.kind d.name (u.key name) ∨
  u.kind = .methods ∧ ∃ x ∈ w.traits, x.name ∈ d.uses ∧ x.name ≠ [] ∧ m ∈ w.members .methods x.name (u.key name)

/-- An interface of the class has the member. -/
def OfInterface (w : World) (u : MemberUse) (name : Bytes) (d : Cls) (m : Member) : Prop :=
  ∃ i ∈ w.interfaces, i.name ∈ d.impls ∧ i.name ≠ [] ∧ ∃ scope, IntfProvides w i scope ∧
    m ∈ w.members u.kind scope (u.key name)

/-- No interface and no trait is called like the class. -/
def Alone (w : World) (c : Cls) : Prop :=
  (∀ i ∈ w.interfaces, w.key i.name ≠ w.key c.name) ∧ ∀ x ∈ w.traits, w.key x.name ≠ w.key c.name

/-- The declarations that a use refers to. Names of functions and constants are resolved as in C27. -/
def Refers (s : Site) (tbl : Table) (d : Nat) : Use → Prop
  | .new_ ts => ∃ t ∈ ts, NamesClass s.world t.fqn d
  | .cls ts => ∃ t ∈ ts, NamesClass s.world t.fqn d ∨ NamesInterface s.world t.fqn d
  | .intf ts => ∃ t ∈ ts, NamesInterface s.world t.fqn d
  | .trt ts => ∃ t ∈ ts, NamesTrait s.world t.fqn d
  | .typ ts => ∃ t ∈ ts, NamesClass s.world t.fqn d ∨ NamesInterface s.world t.fqn d
  | .constant name =>
    let fqn := tbl.getConstReferenceFQN (fun x => s.consts x ≠ []) (fun x => s.defines x ≠ []) name
    d ∈ s.consts fqn ∨ d ∈ s.defines fqn
  | .function name => d ∈ s.functions (tbl.getFunctionReferenceFQN (fun x => s.functions x ≠ []) name)
  | .member u a name _ => ∃ t ∈ a.types, ∃ m, MemberOf s.world u name t m ∧ m.name = u.key name ∧ m.decl = d

/-- The use is a class constant. -/
def Use.isConst : Use → Prop
  | .member .const _ _ _ => True
  | _ => False

/-- No import has the first part of the qualified name as its alias. -/
def Unaliased (tbl : Table) (t : Ty) : Prop := tbl.classes.get t.firstAndRest.1 = none ∧ isFQN t.fqn = true

end Verif.Query
