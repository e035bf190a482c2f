import Verif.Query.Bare

/-! C30 for queries that were asked before. -/

namespace Verif.Query

/-- C30 for properties and constants, whatever was asked before with the same query: nothing that the class or a class above it
declares is missing (that nothing else is there is `C30_sound`). -/
theorem C30_plain_any_state (w : World) (hw : Distinct w) (ha : Apart w) (k : Kind) (hk : k ≠ .methods) (st : St)
    (hst : Resolving w st) (c : Cls) (hc : c ∈ w.classes) (name : Bytes) (n ni : Nat) (r : Inherited × St)
    (h : getClassPlain w k n ni c name none st = some r) :
    ∀ d, Ancestor w c d → ∀ f ∈ w.found k d.name name, f ∈ r.1.members :=
  (getClassPlain_all hw ha hc (hst.plain_inv hw ha hk) h).2

/-- C30 for methods, whatever was asked before with the same query: nothing that the class, a class above it or a trait that one
of them uses declares is missing, if none of these classes implements an interface (`C30_false_second_call` is about classes
that do). -/
theorem C30_methods_any_state (w : World) (hw : Distinct w) (st : St)
    (hst : Resolving w st) (c : Cls) (hc : c ∈ w.classes) (name : Bytes) (n ni : Nat) (r : Inherited × St)
    (hb : ∀ d, Ancestor w c d → ∀ i ∈ w.interfaces, i.name ∉ d.impls)
    (h : getClassMethods w n ni c name none st = some r) :
    ∀ d, Ancestor w c d →
      (∀ f ∈ w.found .methods d.name name, f ∈ r.1.members) ∧
      (∀ t ∈ w.traits, t.name ∈ d.uses → t.name ≠ [] → ∀ f ∈ w.found .methods t.name name, f ∈ r.1.members) := by
  intro d hd
  have hall := (getClassMethods_bare hw hc (hst.bare_inv hw) h).2 (fun d hd => List.eq_nil_iff_forall_not_mem.mpr fun i hi =>
    hb d hd i ((mem_implemented w d i).mp hi).2.2 ((mem_implemented w d i).mp hi).1) d hd
  exact ⟨fun f hf => hall f (List.mem_append_left _ hf), fun t h1 h2 h3 f hf => hall f (List.mem_append_right _
    (List.mem_flatMap.mpr ⟨t, (mem_used w d t).mpr ⟨h2, h3, h1⟩, hf⟩))⟩

/-- The classes above `B` of `demo`. -/
theorem demo_above {d : Cls} (h : Ancestor demo ⟨b!"B", b!"C", [], [], 0⟩ d) : d.impls = [] := by
  have : d = ⟨b!"B", b!"C", [], [], 0⟩ ∨ d = ⟨b!"C", [], [], [b!"T"], 0⟩ := by
    induction h with
    | self => exact .inl rfl
    | @parent d e _ h1 h2 h3 ih =>
      rcases ih with rfl | rfl
      · right
        have : ∀ e ∈ demo.classes, demo.key e.name = demo.key b!"C" → e = ⟨b!"C", [], [], [b!"T"], 0⟩ := by decide +kernel
        exact this e h2 h3
      · exact absurd rfl h1
  rcases this with rfl | rfl <;> rfl

/-- Non-vacuity of both: after the methods and properties of `A` were asked for, those of its parent `B` are all there: its own
methods `m` and `p`, the method `t` of the trait that `C` uses, and the property `$x` of `C`. -/
example : Distinct demo ∧ Apart demo ∧
    (∀ d, Ancestor demo ⟨b!"B", b!"C", [], [], 0⟩ d → ∀ i ∈ demo.interfaces, i.name ∉ d.impls) ∧
    ∃ st, Resolving demo st ∧
      ((getClassMethods demo 9 9 ⟨b!"B", b!"C", [], [], 0⟩ [] none st).map fun r =>
        r.1.members.map fun f => f.member.name) = some [b!"m", b!"p", b!"t"] ∧
      ((getClassPlain demo .props 9 9 ⟨b!"B", b!"C", [], [], 0⟩ [] none st).map fun r =>
        r.1.members.map fun f => f.member.name) = some [b!"$x"] := by
  refine ⟨demo_distinct, demo_apart, fun d hd i _ => by simp [demo_above hd], ?_⟩
  have h1 : ∃ r, getClassMethods demo 9 9 ⟨b!"A", b!"B", [b!"I"], [], 0⟩ [] none St.new = some r ∧
      ∃ r', getClassPlain demo .props 9 9 ⟨b!"A", b!"B", [b!"I"], [], 0⟩ [] none r.2 = some r' ∧
      ((getClassMethods demo 9 9 ⟨b!"B", b!"C", [], [], 0⟩ [] none r'.2).map fun r =>
        r.1.members.map fun f => f.member.name) = some [b!"m", b!"p", b!"t"] ∧
      ((getClassPlain demo .props 9 9 ⟨b!"B", b!"C", [], [], 0⟩ [] none r'.2).map fun r =>
        r.1.members.map fun f => f.member.name) = some [b!"$x"] := by
    refine ⟨_, rfl, _, rfl, ?_, ?_⟩ <;> decide +kernel
  obtain ⟨r, h1, r', h2, h3, h4⟩ := h1
  exact ⟨r'.2, .plain (.methods .new (by decide +kernel) h1) (by decide) (by decide +kernel) h2, h3, h4⟩

end Verif.Query
