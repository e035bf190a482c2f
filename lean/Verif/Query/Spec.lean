import Verif.Query.Model
import Mathlib.Data.List.Chain

/-! What the members of a class are: those declared in the classes, traits and interfaces that can be reached
from it. -/

namespace Verif.Query

/-- `d` is `c` or one of the classes it extends, directly or not. -/
inductive Ancestor (w : World) (c : Cls) : Cls → Prop where
  | self : Ancestor w c c
  | parent {d e : Cls} : Ancestor w c d → d.ext ≠ [] → e ∈ w.classes → w.key e.name = w.key d.ext → Ancestor w c e

/-- `j` is `i` or one of the interfaces it extends, directly or not. -/
inductive IntfAncestor (w : World) (i : Intf) : Intf → Prop where
  | self : IntfAncestor w i i
  | parent {j e : Intf} : IntfAncestor w i j → e.name ∈ j.exts → e.name ≠ [] → e ∈ w.interfaces →
      IntfAncestor w i e

/-- `u` is `t` or one of the traits it uses, directly or not. -/
inductive TraitAncestor (w : World) (t : Trt) : Trt → Prop where
  | self : TraitAncestor w t t
  | parent {u e : Trt} : TraitAncestor w t u → e.name ∈ u.uses → e.name ≠ [] → e ∈ w.traits → TraitAncestor w t e

/-- `scope` is the name of a declaration from which `c` has methods. -/
def Provides (w : World) (c : Cls) (scope : Bytes) : Prop :=
  ∃ d, Ancestor w c d ∧
    (scope = d.name ∨
     (∃ t ∈ w.traits, t.name ∈ d.uses ∧ t.name ≠ [] ∧ ∃ u, TraitAncestor w t u ∧ scope = u.name) ∨
     (∃ i ∈ w.interfaces, i.name ∈ d.impls ∧ i.name ≠ [] ∧ ∃ j, IntfAncestor w i j ∧ scope = j.name))

/-- `scope` is the name of a declaration from which `i` has methods. -/
def IntfProvides (w : World) (i : Intf) (scope : Bytes) : Prop := ∃ j, IntfAncestor w i j ∧ scope = j.name

/-- No two classes are called the same, no two interfaces are. -/
structure Distinct (w : World) : Prop where
  classes : (w.classes.map fun c => w.key c.name).Nodup
  interfaces : (w.interfaces.map (·.name)).Nodup

/-- No class is called like an interface. -/
def Apart (w : World) : Prop := ∀ c ∈ w.classes, ∀ i ∈ w.interfaces, w.key c.name ≠ w.key i.name

/-- The states that calls with one query lead to. -/
inductive Reachable (w : World) : St → Prop where
  | new : Reachable w St.new
  | newSet {st} : Reachable w st → Reachable w st.newSet.2
  | merged {st} (m o : Inherited) : Reachable w st → Reachable w (merge m o st).2
  | interface {st k n i name o r} : Reachable w st → i ∈ w.interfaces → getInterface w k n i name o st = some r →
      Reachable w r.2
  | trait {st t name} : Reachable w st → t ∈ w.traits → Reachable w (getTrait w t name st).2
  | methods {st n ni c name o r} : Reachable w st → c ∈ w.classes → getClassMethods w n ni c name o st = some r →
      Reachable w r.2
  | plain {st k n ni c name o r} : Reachable w st → k ≠ .methods → c ∈ w.classes →
      getClassPlain w k n ni c name o st = some r → Reachable w r.2

/-- `e` is the class that `d` extends. -/
def ParentOf (w : World) (d e : Cls) : Prop := d.ext ≠ [] ∧ e ∈ w.classes ∧ w.key e.name = w.key d.ext

/-- `l` is `c`, its parent, the parent of that and so on, up to a class without a known parent or, in a cycle, up to the
class whose parent is in the list already. -/
structure Lineage (w : World) (c : Cls) (l : List Cls) : Prop where
  head : l.head? = some c
  chain : l.IsChain (ParentOf w)
  nodup : l.Nodup
  last : ∀ d, l.getLast? = some d → ∀ e, ParentOf w d e → e ∈ l

/-- PHP's rule: may code in the class `cur` (empty outside of classes) use a member? `sub a b`: the class `a` is `b` or
extends it, directly or not. -/
def Allowed (sub : Bytes → Bytes → Prop) (cur : Bytes) (m : Member) : Prop :=
  match m.vis with
  | .pub => True
  | .protected_ => sub cur m.scope ∨ sub m.scope cur
  | .private_ => cur = m.scope

end Verif.Query
