import Verif.Query.ReferSpec
import Verif.Complete.Members

/-! Which members should be offered after `->` and `::`. -/

namespace Verif.Complete

open Verif.Query

/-- What was typed fits the name. -/
def Suits (isMatch : Bytes → Option Int) (word name : Bytes) : Prop := word = [] ∨ (isMatch name).isSome = true

/-- The editor's rule after `->`: public members; in the code of the class `cur` all members of an object of that class,
and through `$this` what is its own or not private. -/
def OpenArrow (cur : Bytes) (a : Access) (m : Member) : Prop :=
  m.vis = .pub ∨ cur ∈ a.types ∨ a.scopeName = b!"$this" ∧ (m.scope = cur ∨ m.vis ≠ .private_)

/-- The editor's rule after `::`. After `parent` what other classes declare and is not private; after `self`, `static` and
`$this` what the class declares or is not private; after other names the static members that are public or declared by the
class itself. -/
def OpenScope (cur : Bytes) (a : Access) (m : Member) : Prop :=
  if a.scopeName = b!"parent" then m.scope ≠ cur ∧ m.vis ≠ .private_
  else if a.scopeName ∈ [b!"self", b!"static", b!"$this"] then m.scope = cur ∨ m.vis ≠ .private_
  else m.isStatic = true ∧ (m.vis = .pub ∨ m.scope ∈ a.types)

/-- A member of what is called `t`. -/
def MemberOfType (w : World) (k : Kind) (t : Bytes) (m : Member) : Prop := ∃ scope, HasFrom w t scope ∧ m ∈ w.members k scope []

/-- The class itself has the member: it declares it or, for methods, one of its traits does. -/
def Has (w : World) (k : Kind) (d : Cls) (m : Member) : Prop :=
  m ∈ w.members k d.name [] ∨
  k = .methods ∧ ∃ x ∈ w.traits, x.name ∈ d.uses ∧ x.name ≠ [] ∧ m ∈ w.members .methods x.name []

/-- An interface of the class has the member. -/
def HasByInterface (w : World) (k : Kind) (d : Cls) (m : Member) : Prop :=
  ∃ i ∈ w.interfaces, i.name ∈ d.impls ∧ i.name ≠ [] ∧ ∃ scope, IntfProvides w i scope ∧ m ∈ w.members k scope []

/-- The members `out` are right for a class with the lineage `l`: they fit and may be used and no nearer class has one of
the name that may be used; there is one for the name of every member that fits and may be used; no name is there
twice. -/
structure OffersFor (w : World) (k : Kind) (l : List Cls) (mayUse : Member → Prop) (fits : Bytes → Prop) (out : List Member) :
    Prop where
  right : ∀ m ∈ out, mayUse m ∧ fits m.name ∧
    ((∃ near d far, l = near ++ d :: far ∧ Has w k d m ∧
        ∀ e ∈ near, ∀ x, Has w k e x → x.name = m.name → ¬ mayUse x) ∨
     ((∃ d ∈ l, HasByInterface w k d m) ∧ ∀ e ∈ l, ∀ x, Has w k e x → x.name = m.name → ¬ mayUse x))
  all : ∀ d ∈ l, ∀ m, Has w k d m ∨ HasByInterface w k d m → mayUse m → fits m.name → ∃ m' ∈ out, m'.name = m.name
  once : (out.map (·.name)).Nodup

/-- The members of one kind that are offered. -/
def offered (k : Kind) (items : List MItem) : List Member :=
  (items.filter fun it => it.kind = k).map fun it => it.found.member

/-- The keys by which results are merged end with `::` and no member has a colon in its name. -/
structure Names (w : World) (keyOf : Bytes → Bytes) : Prop where
  keys : ∀ s, ∃ p, keyOf s = p ++ b!"::"
  plain : ∀ k scope name, ∀ m ∈ w.members k scope name, (58 : UInt8) ∉ m.name

end Verif.Complete
