import Verif.Imports.Props
import Mathlib.Data.List.TakeWhile

/-! C53 (unused imports), C49 (insertion of `use`), C55 (names offered by completion), and the tables of a file
for C28. -/

namespace Verif.Imports
open Verif.Types

/-! ## C27: the hypotheses are met -/

theorem demo_same (m : GoMap Bytes Item) (a : Bytes)
    (h : (m.all fun e => asciiLower e.1 != asciiLower a || e.1 == a) = true) : SameCase m a := by
  intro e he hl
  have := List.all_eq_true.mp h e he
  simp only [Bool.or_eq_true, bne_iff_ne, beq_iff_eq] at this
  exact this.resolve_left (fun hn => hn hl)

/-- A call of the global `strlen` in `namespace App`. -/
example : demo.getFunctionReferenceFQN (fun n => n == b!"\\strlen") (nm b!"strlen") =
    phpFunctionName (fun n => n == b!"\\strlen") demo.getNamespace (names demo.classes) (names demo.functions)
      b!"strlen" :=
  C27_function_partial demo (nm b!"strlen") _ (by decide +kernel) (fun h => absurd h (by decide))
    (fun h => absurd h (by decide)) ⟨demo_same _ _ (by decide +kernel), demo_same _ _ (by decide +kernel)⟩
    (fun _ _ => .inl ⟨by decide, by decide +kernel⟩) (fun _ _ => .inl (by decide +kernel))

/-- A qualified call `Sub\f` of a function of `namespace App\Sub`. -/
example : demo.getFunctionReferenceFQN (fun n => n == b!"\\App\\Sub\\f") (nm b!"Sub\\f") = b!"\\App\\Sub\\f" :=
  (C27_function_partial demo (nm b!"Sub\\f") _ (by decide +kernel) (fun _ => by decide +kernel)
    (fun h => absurd h (by decide)) ⟨demo_same _ _ (by decide +kernel), demo_same _ _ (by decide +kernel)⟩
    (fun _ h => absurd h (by decide +kernel)) (fun h => absurd (by decide : Qualified b!"Sub\\f") h)).trans
    (by decide +kernel)

/-- A constant `M_PI` declared with `define`. -/
example : demo.getConstReferenceFQN (fun _ => false) (fun n => n == b!"\\M_PI") (nm b!"M_PI") = b!"\\M_PI" :=
  (C27_constant_partial demo (nm b!"M_PI") _ _ (by decide +kernel) (fun h => absurd h (by decide))
    (fun h => absurd h (by decide)) (demo_same _ _ (by decide +kernel))
    (fun _ _ => .inl ⟨by decide, by decide +kernel⟩) (fun _ _ => .inl (by decide +kernel))).trans
    (by decide +kernel)

/-! ## C53: unused imports -/

/-- The kinds of `use`. -/
inductive Kind where
  | cls | fn | const
  deriving DecidableEq, Repr

/-- Specification: the alias a `use` introduces: the one given, or the last segment of the name. -/
def aliasIntroduced (al name : Bytes) : Bytes :=
  if al = [] then (name.reverse.takeWhile (· ≠ 92)).reverse else al

/-- Specification: the event is the declaration of `x` as alias `a`. -/
def Declares (k : Kind) (a : Bytes) (x : Item) : Event → Prop
  | .useClass al n r => k = .cls ∧ aliasIntroduced al n = a ∧ x = ⟨n, r, false⟩
  | .useFunction al n r => k = .fn ∧ aliasIntroduced al n = a ∧ x = ⟨n, r, false⟩
  | .useConst al n r => k = .const ∧ aliasIntroduced al n = a ∧ x = ⟨n, r, false⟩
  | _ => False

/-- Specification: the event is a use of the alias `a` by PHP's rules: a class name whose first segment is the
alias, a function or constant name that is qualified and has it as first segment (class alias), or that is
unqualified and equal to it (function and constant aliases). -/
def Refers (k : Kind) (a : Bytes) : Event → Prop
  | .classRef n => k = .cls ∧ ¬ FullyQualified n.fqn ∧ firstSegment n.fqn = a
  | .functionRef n =>
    ¬ FullyQualified n.fqn ∧ (k = .cls ∧ Qualified n.fqn ∧ firstSegment n.fqn = a ∨
      k = .fn ∧ ¬ Qualified n.fqn ∧ n.fqn = a)
  | .constRef n =>
    ¬ FullyQualified n.fqn ∧ (k = .cls ∧ Qualified n.fqn ∧ firstSegment n.fqn = a ∨
      k = .const ∧ ¬ Qualified n.fqn ∧ n.fqn = a)
  | _ => False

/-- Specification: a new namespace block begins. -/
def IsNamespace : Event → Bool
  | .namespace _ _ => true
  | _ => false

/-- Specification: `x`, declared as alias `a`, is not used: it is declared somewhere, and in the rest of its
block the alias is not used and not declared again. -/
def Unused (evs : List Event) (k : Kind) (a : Bytes) (x : Item) : Prop :=
  ∃ pre d post, evs = pre ++ d :: post ∧ Declares k a x d ∧
    ∀ e ∈ post.takeWhile (fun e => !IsNamespace e), ¬ Refers k a e ∧ ∀ y, ¬ Declares k a y e

/-- The event is not a reference with a leading backslash. -/
def Plain : Event → Prop
  | .classRef n => ¬ FullyQualified n.fqn
  | .functionRef n => ¬ FullyQualified n.fqn
  | .constRef n => ¬ FullyQualified n.fqn
  | _ => True

/-- The references in the file have no leading backslash. -/
def NoFullyQualified (evs : List Event) : Prop := ∀ e ∈ evs, Plain e

/-- The items of a kind. -/
def Table.items (t : Table) : Kind → GoMap Bytes Item
  | .cls => t.classes
  | .fn => t.functions
  | .const => t.constants

/-- The maps of a table are maps. -/
def Table.WF (t : Table) : Prop := ∀ k, (t.items k).WF

theorem sureAlias_eq (a n : Bytes) : sureAlias a n = aliasIntroduced a n := by
  unfold sureAlias aliasIntroduced
  split
  · have key : ∀ n : Bytes, (splitB 92 n).getLast (splitB_ne_nil _ _) = (n.reverse.takeWhile (· ≠ 92)).reverse := by
      intro n
      induction n with
      | nil => rfl
      | cons c n ih =>
        by_cases hc : c = 92
        · subst hc
          have e : splitB 92 ((92 : UInt8) :: n) = [] :: splitB 92 n := by simp [splitB]
          simp only [e]
          rw [List.getLast_cons (splitB_ne_nil 92 n), ih, List.reverse_cons]
          by_cases hq : (92 : UInt8) ∈ n
          · rw [List.takeWhile_append]
            split
            · rename_i h
              exfalso
              have h2 : n.reverse.takeWhile (· ≠ 92) = n.reverse :=
                (List.takeWhile_prefix _).eq_of_length h
              have h3 := List.all_eq_true.mp (List.all_takeWhile (p := fun x : UInt8 => decide (x ≠ 92)) (l := n.reverse)) 92
                (by rw [h2]; exact List.mem_reverse.mpr hq)
              simp at h3
            · rfl
          · rw [List.takeWhile_append]
            split
            · simp only [ne_eq, not_true_eq_false, decide_false, Bool.false_eq_true, not_false_eq_true,
                List.takeWhile_cons_of_neg, List.append_nil]
              rename_i h
              rw [(List.takeWhile_prefix _).eq_of_length h]
            · rfl
        · cases hs : splitB 92 n with
          | nil => exact absurd hs (splitB_ne_nil _ _)
          | cons p ps =>
            have e : splitB 92 (c :: n) = (c :: p) :: ps := by simp [splitB, hc, hs]
            simp only [e]
            simp only [hs] at ih
            rw [List.reverse_cons, List.takeWhile_append]
            cases ps with
            | nil =>
              simp only [List.getLast_singleton] at ih ⊢
              have hn : p = n := by
                have := joinB_splitB 92 n
                rw [hs] at this
                simpa [joinB] using this
              have : (n.reverse.takeWhile (· ≠ 92)).length = n.reverse.length := by
                have := congrArg List.length ih
                simpa [hn] using this.symm
              rw [if_pos this]
              simp [hc, hn]
            | cons q qs =>
              simp only [List.getLast_cons_cons] at ih ⊢
              rw [ih]
              have : (n.reverse.takeWhile (· ≠ 92)).length ≠ n.reverse.length := by
                intro h
                have h2 := (List.takeWhile_prefix (p := fun x : UInt8 => decide (x ≠ 92)) (l := n.reverse)).eq_of_length h
                have hq : (92 : UInt8) ∈ n := by
                  have := joinB_splitB 92 n
                  rw [hs] at this
                  rw [← this]
                  simp [joinB]
                have h3 := List.all_eq_true.mp (List.all_takeWhile (p := fun x : UInt8 => decide (x ≠ 92)) (l := n.reverse)) 92
                  (by rw [h2]; exact List.mem_reverse.mpr hq)
                simp at h3
              rw [if_neg this]
    exact key n
  · rfl

theorem get_use (m : GoMap Bytes Item) (n a : Bytes) :
    GoMap.get (match GoMap.get m n with
      | some item => m.set n { item with isUsed := true }
      | none => m) a =
      if a = n then (m.get a).map fun x => { x with isUsed := true } else m.get a := by
  cases h : GoMap.get m n with
  | none =>
    dsimp only
    split
    · rename_i e; subst e; simp [h]
    · rfl
  | some item =>
    simp only [GoMap.get_set]
    split
    · rename_i e; subst e; simp [h]
    · rfl

/-- What an event does to one entry. -/
theorem onTable_get (t : Table) (e : Event) (k : Kind) (a : Bytes)
    (hf : Plain e) :
    (∀ x, Declares k a x e → ((e.onTable t).items k).get a = some x) ∧
    (Refers k a e → ((e.onTable t).items k).get a = ((t.items k).get a).map fun x => { x with isUsed := true }) ∧
    ((∀ x, ¬ Declares k a x e) → ¬ Refers k a e → ((e.onTable t).items k).get a = (t.items k).get a) := by
  have useC : ∀ n, ((t.useClass n).items k).get a =
      if k = .cls ∧ a = n then ((t.items k).get a).map fun x => { x with isUsed := true } else (t.items k).get a := by
    intro n
    have := get_use t.classes n a
    unfold Table.useClass
    cases h : t.classes.get n with
    | none =>
      rw [h] at this
      cases k <;> simp only [Table.items, true_and, reduceCtorEq, false_and, if_false]
      exact this
    | some item =>
      rw [h] at this
      cases k <;> simp only [Table.items, true_and, reduceCtorEq, false_and, if_false]
      exact this
  have useF : ∀ n, ((t.useFunction n).items k).get a =
      if k = .fn ∧ a = n then ((t.items k).get a).map fun x => { x with isUsed := true } else (t.items k).get a := by
    intro n
    have := get_use t.functions n a
    unfold Table.useFunction
    cases h : t.functions.get n with
    | none =>
      rw [h] at this
      cases k <;> simp only [Table.items, true_and, reduceCtorEq, false_and, if_false]
      exact this
    | some item =>
      rw [h] at this
      cases k <;> simp only [Table.items, true_and, reduceCtorEq, false_and, if_false]
      exact this
  have useK : ∀ n, ((t.useConstant n).items k).get a =
      if k = .const ∧ a = n then ((t.items k).get a).map fun x => { x with isUsed := true } else (t.items k).get a := by
    intro n
    have := get_use t.constants n a
    unfold Table.useConstant
    cases h : t.constants.get n with
    | none =>
      rw [h] at this
      cases k <;> simp only [Table.items, true_and, reduceCtorEq, false_and, if_false]
      exact this
    | some item =>
      rw [h] at this
      cases k <;> simp only [Table.items, true_and, reduceCtorEq, false_and, if_false]
      exact this
  cases e with
  | «namespace» s n => simp [Declares, Refers, Event.onTable]
  | useClass al n r =>
    refine ⟨?_, by simp [Refers], ?_⟩
    · rintro x ⟨rfl, rfl, rfl⟩
      simp [Event.onTable, Table.addClassName, Table.items, GoMap.get_set, sureAlias_eq]
    · intro h _
      cases k <;> simp only [Event.onTable, Table.addClassName, Table.items, GoMap.get_set, sureAlias_eq]
      rw [if_neg]
      intro e
      exact h ⟨n, r, false⟩ ⟨rfl, e.symm, rfl⟩
  | useFunction al n r =>
    refine ⟨?_, by simp [Refers], ?_⟩
    · rintro x ⟨rfl, rfl, rfl⟩
      simp [Event.onTable, Table.addFunctionName, Table.items, GoMap.get_set, sureAlias_eq]
    · intro h _
      cases k <;> simp only [Event.onTable, Table.addFunctionName, Table.items, GoMap.get_set, sureAlias_eq]
      rw [if_neg]
      intro e
      exact h ⟨n, r, false⟩ ⟨rfl, e.symm, rfl⟩
  | useConst al n r =>
    refine ⟨?_, by simp [Refers], ?_⟩
    · rintro x ⟨rfl, rfl, rfl⟩
      simp [Event.onTable, Table.addConstName, Table.items, GoMap.get_set, sureAlias_eq]
    · intro h _
      cases k <;> simp only [Event.onTable, Table.addConstName, Table.items, GoMap.get_set, sureAlias_eq]
      rw [if_neg]
      intro e
      exact h ⟨n, r, false⟩ ⟨rfl, e.symm, rfl⟩
  | classRef n =>
    have hf : ¬ FullyQualified n.fqn := hf
    have fr := firstAndRest_plain n hf
    have e2 : (Event.classRef n).onTable t = t.useClass (firstSegment n.fqn) := by
      simp only [Event.onTable, Table.getClassReferenceFQN, fr.1]
      cases h : t.classes.get (firstSegment n.fqn) with
      | some item => rfl
      | none => simp [Table.useClass, h]
    rw [e2, useC]
    refine ⟨by simp [Declares], ?_, ?_⟩
    · rintro ⟨rfl, -, rfl⟩; simp
    · intro _ h
      rw [if_neg]
      rintro ⟨rfl, rfl⟩
      exact h ⟨rfl, hf, rfl⟩
  | functionRef n =>
    have hf : ¬ FullyQualified n.fqn := hf
    have fr := firstAndRest_plain n hf
    have e2 : (Event.functionRef n).onTable t =
        if Qualified n.fqn then t.useClass (firstSegment n.fqn) else t.useFunction (firstSegment n.fqn) := by
      simp only [Event.onTable, Table.useFunctionOrClass, fr.1, fr.2.1]
    rw [e2]
    refine ⟨by simp [Declares], ?_, ?_⟩
    · rintro ⟨-, ⟨rfl, hq, rfl⟩ | ⟨rfl, hq, rfl⟩⟩
      · rw [if_pos hq, useC]; simp
      · rw [if_neg hq, useF, firstSegment_self _ hq]; simp
    · intro _ h
      by_cases hq : Qualified n.fqn
      · rw [if_pos hq, useC, if_neg]
        rintro ⟨rfl, rfl⟩
        exact h ⟨hf, .inl ⟨rfl, hq, rfl⟩⟩
      · rw [if_neg hq, useF, if_neg]
        rintro ⟨rfl, rfl⟩
        exact h ⟨hf, .inr ⟨rfl, hq, (firstSegment_self _ hq).symm⟩⟩
  | constRef n =>
    have hf : ¬ FullyQualified n.fqn := hf
    have fr := firstAndRest_plain n hf
    have e2 : (Event.constRef n).onTable t =
        if Qualified n.fqn then t.useClass (firstSegment n.fqn) else t.useConstant (firstSegment n.fqn) := by
      simp only [Event.onTable, Table.useConstOrClass, fr.1, fr.2.1]
    rw [e2]
    refine ⟨by simp [Declares], ?_, ?_⟩
    · rintro ⟨-, ⟨rfl, hq, rfl⟩ | ⟨rfl, hq, rfl⟩⟩
      · rw [if_pos hq, useC]; simp
      · rw [if_neg hq, useK, firstSegment_self _ hq]; simp
    · intro _ h
      by_cases hq : Qualified n.fqn
      · rw [if_pos hq, useC, if_neg]
        rintro ⟨rfl, rfl⟩
        exact h ⟨hf, .inl ⟨rfl, hq, rfl⟩⟩
      · rw [if_neg hq, useK, if_neg]
        rintro ⟨rfl, rfl⟩
        exact h ⟨hf, .inr ⟨rfl, hq, (firstSegment_self _ hq).symm⟩⟩

theorem onTable_wf (t : Table) (e : Event) (h : t.WF) : (e.onTable t).WF := by
  have useC : ∀ n, (t.useClass n).WF := by
    intro n k
    unfold Table.useClass
    cases t.classes.get n with
    | none => exact h k
    | some item => cases k <;> first | exact GoMap.wf_set (h .cls) _ _ | exact h .fn | exact h .const
  have useF : ∀ n, (t.useFunction n).WF := by
    intro n k
    unfold Table.useFunction
    cases t.functions.get n with
    | none => exact h k
    | some item => cases k <;> first | exact GoMap.wf_set (h .fn) _ _ | exact h .cls | exact h .const
  have useK : ∀ n, (t.useConstant n).WF := by
    intro n k
    unfold Table.useConstant
    cases t.constants.get n with
    | none => exact h k
    | some item => cases k <;> first | exact GoMap.wf_set (h .const) _ _ | exact h .cls | exact h .fn
  cases e with
  | «namespace» s n => exact h
  | useClass al n r =>
    intro k; cases k <;> first | exact GoMap.wf_set (h .cls) _ _ | exact h .fn | exact h .const
  | useFunction al n r =>
    intro k; cases k <;> first | exact GoMap.wf_set (h .fn) _ _ | exact h .cls | exact h .const
  | useConst al n r =>
    intro k; cases k <;> first | exact GoMap.wf_set (h .const) _ _ | exact h .cls | exact h .fn
  | classRef n =>
    simp only [Event.onTable, Table.getClassReferenceFQN]
    split
    · exact useC _
    · exact h
  | functionRef n =>
    simp only [Event.onTable, Table.useFunctionOrClass]
    split
    · exact useC _
    · exact useF _
  | constRef n =>
    simp only [Event.onTable, Table.useConstOrClass]
    split
    · exact useC _
    · exact useK _

theorem newTable_wf (p : Pos) (ns : Option Bytes) : ({ newTable p with ns := ns } : Table).WF := by
  intro k; cases k <;> simp [Table.items, newTable, GoMap.WF]

theorem mem_unused (t : Table) (h : t.WF) (x : Item) :
    x ∈ t.unusedImportItems ↔ ∃ k a, (t.items k).get a = some x ∧ x.isUsed = false := by
  simp only [Table.unusedImportItems, List.mem_filter, List.map_append, List.mem_append, List.mem_map,
    Bool.not_eq_true']
  constructor
  · rintro ⟨((⟨⟨a, x⟩, hm, rfl⟩ | ⟨⟨a, x⟩, hm, rfl⟩) | ⟨⟨a, x⟩, hm, rfl⟩), hu⟩
    · exact ⟨.cls, a, (GoMap.mem_iff_get (h .cls) a x).mp hm, hu⟩
    · exact ⟨.fn, a, (GoMap.mem_iff_get (h .fn) a x).mp hm, hu⟩
    · exact ⟨.const, a, (GoMap.mem_iff_get (h .const) a x).mp hm, hu⟩
  · rintro ⟨k, a, hg, hu⟩
    refine ⟨?_, hu⟩
    cases k
    · exact .inl (.inl ⟨(a, x), GoMap.mem_of_get hg, rfl⟩)
    · exact .inl (.inr ⟨(a, x), GoMap.mem_of_get hg, rfl⟩)
    · exact .inr ⟨(a, x), GoMap.mem_of_get hg, rfl⟩

/-- In the rest of the block the alias is not used and not declared again. -/
def Untouched (evs : List Event) (k : Kind) (a : Bytes) : Prop :=
  ∀ e ∈ evs.takeWhile (fun e => !IsNamespace e), ¬ Refers k a e ∧ ∀ y, ¬ Declares k a y e

theorem run_last (root : Pos) (ts : List Table) (t : Table) (e : Event) (h : IsNamespace e = false) :
    e.run root (ts ++ [t]) = ts ++ [e.onTable t] := by
  cases e <;> first | (simp [IsNamespace] at h; done) | simp [Event.run]

theorem noFQ_cons {e : Event} {evs : List Event} (h : NoFullyQualified (e :: evs)) :
    Plain e ∧ NoFullyQualified evs :=
  ⟨h e (by simp), fun x hx => h x (by simp [hx])⟩

theorem declares_unused {k : Kind} {a : Bytes} {x : Item} {e : Event} (h : Declares k a x e) : x.isUsed = false := by
  cases e <;> simp only [Declares] at h <;> obtain ⟨-, -, rfl⟩ := h <;> rfl

theorem declares_inj {k : Kind} {a : Bytes} {x y : Item} {e : Event} (h : Declares k a x e) (h' : Declares k a y e) :
    x = y := by
  cases e <;> simp only [Declares] at h h' <;> rw [h.2.2, h'.2.2]

theorem not_both {k : Kind} {a : Bytes} {x : Item} {e : Event} (h : Declares k a x e) : ¬ Refers k a e := by
  cases e <;> simp_all [Declares, Refers]

theorem unused_run (root : Pos) (evs : List Event) (hfq : NoFullyQualified evs) (ts : List Table) (t : Table)
    (hwf : t.WF) (x : Item) :
    x ∈ unusedImports (evs.foldl (Event.run root) (ts ++ [t])) ↔
      x ∈ unusedImports ts ∨
      (∃ k a, (t.items k).get a = some x ∧ x.isUsed = false ∧ Untouched evs k a) ∨
      ∃ k a, Unused evs k a x := by
  induction evs generalizing ts t with
  | nil =>
    simp only [List.foldl_nil, unusedImports, List.flatMap_append, List.mem_append, List.flatMap_singleton,
      mem_unused t hwf]
    constructor
    · rintro (h | ⟨k, a, h1, h2⟩)
      · exact .inl h
      · exact .inr (.inl ⟨k, a, h1, h2, by simp [Untouched]⟩)
    · rintro (h | ⟨k, a, h1, h2, -⟩ | ⟨k, a, pre, d, post, he, -⟩)
      · exact .inl h
      · exact .inr ⟨k, a, h1, h2⟩
      · simp at he
  | cons e evs ih =>
    obtain ⟨hfe, hfr⟩ := noFQ_cons hfq
    have unused_cons : ∀ k a, Unused (e :: evs) k a x ↔
        (Declares k a x e ∧ Untouched evs k a) ∨ Unused evs k a x := by
      intro k a
      constructor
      · rintro ⟨pre, d, post, he, hd, hu⟩
        cases pre with
        | nil => simp only [List.nil_append, List.cons.injEq] at he; obtain ⟨rfl, rfl⟩ := he; exact .inl ⟨hd, hu⟩
        | cons p pre =>
          simp only [List.cons_append, List.cons.injEq] at he
          exact .inr ⟨pre, d, post, he.2, hd, hu⟩
      · rintro (⟨hd, hu⟩ | ⟨pre, d, post, rfl, hd, hu⟩)
        · exact ⟨[], e, evs, rfl, hd, hu⟩
        · exact ⟨e :: pre, d, post, rfl, hd, hu⟩
    rw [List.foldl_cons]
    by_cases hn : IsNamespace e = true
    · obtain ⟨s, n, rfl⟩ : ∃ s n, e = .namespace s n := by cases e <;> simp_all [IsNamespace]
      show x ∈ unusedImports (evs.foldl (Event.run root) ((ts ++ [t]) ++ [_])) ↔ _
      rw [ih hfr (ts ++ [t]) _ (newTable_wf s (some n))]
      have hnone : ∀ k a, ((({ newTable s with ns := some n } : Table).items k).get a) = none := by
        intro k a; cases k <;> rfl
      simp only [unusedImports, List.flatMap_append, List.mem_append, List.flatMap_singleton,
        mem_unused t hwf, hnone, unused_cons, Declares, false_and, false_or, reduceCtorEq, exists_false]
      have hun : ∀ k a, Untouched (.namespace s n :: evs) k a := by
        intro k a
        simp [Untouched, IsNamespace]
      simp only [hun, and_true]
      simp only [exists_and_right, false_and, exists_false, false_or, or_assoc]
    · rw [Bool.not_eq_true] at hn
      rw [run_last root ts t e hn, ih hfr ts _ (onTable_wf t e hwf)]
      have huc : ∀ k a, Untouched (e :: evs) k a ↔ (¬ Refers k a e ∧ ∀ y, ¬ Declares k a y e) ∧ Untouched evs k a := by
        intro k a
        simp [Untouched, hn]
      have hentry : ∀ k a, ((e.onTable t).items k).get a = some x ∧ x.isUsed = false ↔
          Declares k a x e ∨
          ((t.items k).get a = some x ∧ x.isUsed = false ∧ ¬ Refers k a e ∧ ∀ y, ¬ Declares k a y e) := by
        intro k a
        obtain ⟨h1, h2, h3⟩ := onTable_get t e k a hfe
        by_cases hd : ∃ y, Declares k a y e
        · obtain ⟨y, hy⟩ := hd
          rw [h1 y hy]
          constructor
          · rintro ⟨hxy, hu⟩
            simp only [Option.some.injEq] at hxy
            exact .inl (hxy ▸ hy)
          · rintro (hx | ⟨_, _, _, hx⟩)
            · exact ⟨by rw [declares_inj hx hy], declares_unused hx⟩
            · exact absurd hy (hx y)
        · have hd' : ∀ y, ¬ Declares k a y e := fun y hy => hd ⟨y, hy⟩
          by_cases hr : Refers k a e
          · rw [h2 hr]
            constructor
            · rintro ⟨hx, hu⟩
              obtain ⟨z, -, rfl⟩ := Option.map_eq_some_iff.mp hx
              simp at hu
            · rintro (hx | ⟨_, _, hx, _⟩)
              · exact absurd hx (hd' x)
              · exact absurd hr hx
          · rw [h3 hd' hr]
            constructor
            · rintro ⟨hx, hu⟩; exact .inr ⟨hx, hu, hr, hd'⟩
            · rintro (hx | ⟨hx, hu, _, _⟩)
              · exact absurd hx (hd' x)
              · exact ⟨hx, hu⟩
      constructor
      · rintro (h | ⟨k, a, hg, hu, ht⟩ | ⟨k, a, hx⟩)
        · exact .inl h
        · rcases (hentry k a).mp ⟨hg, hu⟩ with hd | ⟨g1, g2, g3, g4⟩
          · exact .inr (.inr ⟨k, a, (unused_cons k a).mpr (.inl ⟨hd, ht⟩)⟩)
          · exact .inr (.inl ⟨k, a, g1, g2, (huc k a).mpr ⟨⟨g3, g4⟩, ht⟩⟩)
        · exact .inr (.inr ⟨k, a, (unused_cons k a).mpr (.inr hx)⟩)
      · rintro (h | ⟨k, a, hg, hu, ht⟩ | ⟨k, a, hx⟩)
        · exact .inl h
        · obtain ⟨⟨g3, g4⟩, g5⟩ := (huc k a).mp ht
          have := (hentry k a).mpr (.inr ⟨hg, hu, g3, g4⟩)
          exact .inr (.inl ⟨k, a, this.1, this.2, g5⟩)
        · rcases (unused_cons k a).mp hx with ⟨hd, ht⟩ | hx
          · have := (hentry k a).mpr (.inl hd)
            exact .inr (.inl ⟨k, a, this.1, this.2, ht⟩)
          · exact .inr (.inr ⟨k, a, hx⟩)

/-- C53 (partial: fully qualified references and references differing in case are treated differently, see
below): the imports reported as unused are exactly those whose alias is not used in the rest of their block. -/
theorem C53_unused_partial (root : Pos) (evs : List Event) (hfq : NoFullyQualified evs) (x : Item) :
    x ∈ unusedImports (load root evs) ↔ ∃ k a, Unused evs k a x := by
  cases evs with
  | nil =>
    simp only [load, List.foldl_nil, unusedImports, Unused]
    constructor
    · intro h; simp [Table.unusedImportItems, newTable] at h
    · rintro ⟨k, a, pre, d, post, he, -⟩; simp at he
  | cons e evs =>
    have h0 : ∃ t, (e :: evs).foldl (Event.run root) [] = evs.foldl (Event.run root) ([] ++ [t]) ∧
        (t = e.onTable (newTable root) ∧ IsNamespace e = false ∨
          ∃ s n, e = .namespace s n ∧ t = { newTable s with ns := some n }) := by
      by_cases hn : IsNamespace e = true
      · obtain ⟨s, n, rfl⟩ : ∃ s n, e = .namespace s n := by cases e <;> simp_all [IsNamespace]
        exact ⟨_, rfl, .inr ⟨s, n, rfl, rfl⟩⟩
      · rw [Bool.not_eq_true] at hn
        refine ⟨_, ?_, .inl ⟨rfl, hn⟩⟩
        rw [List.foldl_cons]
        cases e <;> first | (simp [IsNamespace] at hn; done) | rfl
    -- running from the empty list is running from a new root table, apart from that table
    have h1 : x ∈ unusedImports ((e :: evs).foldl (Event.run root) []) ↔
        x ∈ unusedImports ((e :: evs).foldl (Event.run root) ([] ++ [newTable root])) := by
      obtain ⟨t, ht, hcase⟩ := h0
      rw [ht]
      rcases hcase with ⟨rfl, hn⟩ | ⟨s, n, rfl, rfl⟩
      · rw [List.foldl_cons, run_last root [] (newTable root) e hn]
      · have hfr := (noFQ_cons hfq).2
        have e2 : (Event.namespace s n :: evs).foldl (Event.run root) ([] ++ [newTable root]) =
            evs.foldl (Event.run root) ([newTable root] ++ [{ newTable s with ns := some n }]) := rfl
        rw [e2, unused_run root evs hfr [] _ (newTable_wf s _), unused_run root evs hfr [newTable root] _ (newTable_wf s _)]
        have : x ∉ unusedImports [newTable root] := by simp [unusedImports, Table.unusedImportItems, newTable]
        simp only [unusedImports, List.flatMap_nil, List.not_mem_nil] at this ⊢
        simp only [this]
    have h2 : load root (e :: evs) = (e :: evs).foldl (Event.run root) [] := by
      have : (e :: evs).foldl (Event.run root) [] ≠ [] := by
        obtain ⟨t, ht, -⟩ := h0
        rw [ht]
        have : ∀ (l : List Event) (ts : List Table), ts ≠ [] → l.foldl (Event.run root) ts ≠ [] := by
          intro l
          induction l with
          | nil => intro ts h; simpa using h
          | cons a l ih =>
            intro ts h
            rw [List.foldl_cons]
            apply ih
            cases a <;> simp only [Event.run] <;> first | (split <;> simp; done) | simp
        exact this _ _ (by simp)
      unfold load
      split
      · rename_i h; exact absurd h this
      · rfl
    rw [h2, h1, unused_run root _ hfq [] (newTable root) (newTable_wf root none)]
    have hnone : ∀ k a, (((newTable root).items k).get a) = none := by intro k a; cases k <;> rfl
    simp only [unusedImports, List.flatMap_nil, List.not_mem_nil, hnone, reduceCtorEq, false_and, exists_false,
      false_or]

/-- A file with two blocks: `use A\Foo`, `use A\Bar` and `Foo` used in the first; the second does not use its own
`use A\Foo`. -/
def demoEvents : List Event :=
  [.namespace ⟨1, 0⟩ b!"N", .useClass [] b!"A\\Foo" ⟨⟨2, 0⟩, ⟨2, 9⟩⟩, .useClass [] b!"A\\Bar" ⟨⟨3, 0⟩, ⟨3, 9⟩⟩,
    .useFunction b!"g" b!"A\\f" ⟨⟨4, 0⟩, ⟨4, 9⟩⟩, .classRef (nm b!"Foo\\X"), .functionRef (nm b!"g"),
    .namespace ⟨8, 0⟩ b!"M", .useClass [] b!"A\\Foo" ⟨⟨9, 0⟩, ⟨9, 9⟩⟩]

example : NoFullyQualified demoEvents ∧ unusedImports (load ⟨0, 0⟩ demoEvents) =
    [⟨b!"A\\Bar", ⟨⟨3, 0⟩, ⟨3, 9⟩⟩, false⟩, ⟨b!"A\\Foo", ⟨⟨9, 0⟩, ⟨9, 9⟩⟩, false⟩] := by
  refine ⟨?_, by decide +kernel⟩
  intro e he
  simp only [demoEvents, List.mem_cons, List.not_mem_nil, or_false] at he
  rcases he with rfl | rfl | rfl | rfl | rfl | rfl | rfl | rfl <;> simp only [Plain] <;> decide

/-- C53 is false with fully qualified names: `\Foo` refers to the global class, but makes the import of `A\Foo`
count as used. -/
theorem C53_false_fully_qualified :
    unusedImports (load ⟨0, 0⟩ [.useClass [] b!"A\\Foo" default, .classRef (nm b!"\\Foo")]) = [] ∧
    Unused [.useClass [] b!"A\\Foo" default, .classRef (nm b!"\\Foo")] .cls b!"Foo" ⟨b!"A\\Foo", default, false⟩ := by
  refine ⟨by decide +kernel, [], _, _, rfl, ⟨rfl, by decide +kernel, rfl⟩, ?_⟩
  intro e he
  simp only [IsNamespace, Bool.not_false, List.takeWhile_cons_of_pos, List.takeWhile_nil, List.mem_singleton] at he
  subst he
  exact ⟨fun h => h.2.1 (by decide), fun y h => h⟩

/-- C53 is false with respect to PHP's case-insensitive class aliases: an import used with different case is
reported as unused. -/
theorem C53_false_case :
    unusedImports (load ⟨0, 0⟩ [.useClass [] b!"A\\Foo" default, .classRef (nm b!"foo")]) =
      [⟨b!"A\\Foo", default, false⟩] ∧
    phpClassName natives [] [(b!"Foo", b!"A\\Foo")] b!"foo" = b!"\\A\\Foo" := by decide +kernel

/-! ## C28: the tables of a file -/

/-- The positions at which namespace definitions start. -/
def namespaceStarts (evs : List Event) : List Pos := evs.filterMap fun
  | .namespace s _ => some s
  | _ => none

theorem load_starts (root : Pos) (evs : List Event) (ts : List Table) (hne : ts ≠ []) :
    (evs.foldl (Event.run root) ts).map Table.start = ts.map Table.start ++ namespaceStarts evs ∧
    evs.foldl (Event.run root) ts ≠ [] := by
  have honT : ∀ (e : Event) (t : Table), (e.onTable t).start = t.start := by
    intro e t
    cases e <;> simp only [Event.onTable, Table.addClassName, Table.addFunctionName, Table.addConstName,
      Table.getClassReferenceFQN, Table.useFunctionOrClass, Table.useConstOrClass, Table.useClass,
      Table.useFunction, Table.useConstant]
    all_goals repeat' split
    all_goals rfl
  induction evs generalizing ts with
  | nil => exact ⟨by simp [namespaceStarts], hne⟩
  | cons e evs ih =>
    rw [List.foldl_cons]
    obtain ⟨ts', t, rfl⟩ := List.eq_nil_or_concat ts |>.resolve_left hne
    rw [List.concat_eq_append]
    by_cases hn : IsNamespace e = true
    · obtain ⟨s, n, rfl⟩ : ∃ s n, e = .namespace s n := by cases e <;> simp_all [IsNamespace]
      have e2 : (Event.namespace s n).run root (ts' ++ [t]) = ts' ++ [t] ++ [{ newTable s with ns := some n }] := rfl
      rw [e2]
      refine ⟨?_, (ih _ (by simp)).2⟩
      rw [(ih _ (by simp)).1]
      simp [namespaceStarts, newTable]
    · rw [Bool.not_eq_true] at hn
      rw [run_last root ts' t e hn]
      refine ⟨?_, (ih _ (by simp)).2⟩
      rw [(ih _ (by simp)).1]
      have : namespaceStarts (e :: evs) = namespaceStarts evs := by
        cases e <;> first | (simp [IsNamespace] at hn; done) | rfl
      simp [this, honT]

/-- C28 for the tables of a file: if its namespace definitions follow each other after the start of the file,
there is a table, and the tables are ordered, so that `C28_last_block_before` applies. -/
theorem C28_file (root : Pos) (evs : List Event)
    (hroot : ∀ s ∈ namespaceStarts evs, Position.Before root s)
    (hord : (namespaceStarts evs).Pairwise Position.Before) :
    load root evs ≠ [] ∧ Ordered (load root evs) := by
  have hstarts : (load root evs).map Table.start = root :: namespaceStarts evs ∨
      (load root evs).map Table.start = namespaceStarts evs ∧ load root evs ≠ [] := by
    cases evs with
    | nil => left; rfl
    | cons e evs =>
      have hl : ∀ t : Table, (e :: evs).foldl (Event.run root) [] = evs.foldl (Event.run root) [t] →
          load root (e :: evs) = evs.foldl (Event.run root) [t] := by
        intro t ht
        unfold load
        rw [ht]
        split
        · rename_i h; exact absurd h (load_starts root evs [t] (by simp)).2
        · rfl
      by_cases hn : IsNamespace e = true
      · obtain ⟨s, n, rfl⟩ : ∃ s n, e = .namespace s n := by cases e <;> simp_all [IsNamespace]
        have hd := hl { newTable s with ns := some n } rfl
        have := load_starts root evs [{ newTable s with ns := some n }] (by simp)
        right
        rw [hd]
        exact ⟨by rw [this.1]; simp [namespaceStarts, newTable], this.2⟩
      · rw [Bool.not_eq_true] at hn
        have hd := hl (e.onTable (newTable root)) (by
          rw [List.foldl_cons]
          cases e <;> first | (simp [IsNamespace] at hn; done) | rfl)
        have h1 := load_starts root [e] [newTable root] (by simp)
        have e2 : [e].foldl (Event.run root) [newTable root] = [e.onTable (newTable root)] := by
          simpa using run_last root [] (newTable root) e hn
        rw [e2] at h1
        have h3 : namespaceStarts [e] = [] := by cases e <;> first | (simp [IsNamespace] at hn; done) | rfl
        have h4 : namespaceStarts (e :: evs) = namespaceStarts evs := by
          cases e <;> first | (simp [IsNamespace] at hn; done) | rfl
        left
        rw [hd, (load_starts root evs _ (by simp)).1, h1.1, h3, h4]
        rfl
  have key : ∀ ts : List Table, (ts.map Table.start).Pairwise Position.Before → Ordered ts := by
    intro ts h
    exact List.pairwise_map.mp h
  rcases hstarts with h | ⟨h, hne⟩
  · refine ⟨?_, key _ ?_⟩
    · intro e; rw [e] at h; simp at h
    · rw [h, List.pairwise_cons]; exact ⟨hroot, hord⟩
  · exact ⟨hne, key _ (h ▸ hord)⟩

example : namespaceStarts demoEvents = [⟨1, 0⟩, ⟨8, 0⟩] := by decide +kernel

/-! ## C49: where `use` is inserted -/

/-- What the scan keeps: the first inline text, the last namespace definition and the last `use`. -/
theorem context_spec (nodes : List Node) (c : InsertUse) :
    (nodes.foldl InsertUse.step c).lastUse =
      ((nodes.filter fun n => n.kind = .namespaceUse).getLast?).or c.lastUse ∧
    (nodes.foldl InsertUse.step c).namespaceDef =
      ((nodes.filter fun n => n.kind = .namespaceDefinition).getLast?).or c.namespaceDef ∧
    (nodes.foldl InsertUse.step c).firstInline =
      c.firstInline.or ((nodes.filter fun n => n.kind = .inlineText).head?) := by
  induction nodes generalizing c with
  | nil => simp
  | cons n nodes ih =>
    rw [List.foldl_cons]
    obtain ⟨h1, h2, h3⟩ := ih (c.step n)
    rw [h1, h2, h3]
    unfold InsertUse.step
    cases hk : n.kind with
    | inlineText =>
      cases hc : c.firstInline with
      | none => simp [hk]
      | some m => simp [hk, hc]
    | namespaceDefinition =>
      simp only [List.filter_cons, hk]
      simp [List.getLast?_cons]
    | namespaceUse =>
      simp only [List.filter_cons, hk]
      simp [List.getLast?_cons]
    | other => simp [hk]

theorem last_of_filter {p : Node → Bool} {nodes : List Node} {n : Node}
    (h : (nodes.filter p).getLast? = some n) : ∃ a b, nodes = a ++ n :: b ∧ p n = true ∧ ∀ x ∈ b, p x = false := by
  induction nodes with
  | nil => simp at h
  | cons m nodes ih =>
    rw [List.filter_cons] at h
    by_cases hm : p m = true
    · rw [if_pos hm, List.getLast?_cons] at h
      cases hl : (nodes.filter p).getLast? with
      | none =>
        rw [hl] at h
        simp only [Option.getD_none, Option.some.injEq] at h
        subst h
        refine ⟨[], nodes, rfl, hm, fun x hx => ?_⟩
        rw [List.getLast?_eq_none_iff, List.filter_eq_nil_iff] at hl
        simpa using hl x hx
      | some y =>
        rw [hl] at h
        simp only [Option.getD_some, Option.some.injEq] at h
        subst h
        obtain ⟨a, b, rfl, h1, h2⟩ := ih hl
        exact ⟨m :: a, b, rfl, h1, h2⟩
    · rw [if_neg hm] at h
      obtain ⟨a, b, rfl, h1, h2⟩ := ih h
      exact ⟨m :: a, b, rfl, h1, h2⟩

theorem first_of_filter {p : Node → Bool} {nodes : List Node} {n : Node}
    (h : (nodes.filter p).head? = some n) : ∃ a b, nodes = a ++ n :: b ∧ p n = true ∧ ∀ x ∈ a, p x = false := by
  induction nodes with
  | nil => simp at h
  | cons m nodes ih =>
    rw [List.filter_cons] at h
    by_cases hm : p m = true
    · rw [if_pos hm] at h
      simp only [List.head?_cons, Option.some.injEq] at h
      subst h
      exact ⟨[], nodes, rfl, hm, by simp⟩
    · rw [if_neg hm] at h
      obtain ⟨a, b, rfl, h1, h2⟩ := ih h
      refine ⟨m :: a, b, rfl, h1, fun x hx => ?_⟩
      rw [List.mem_cons] at hx
      rcases hx with rfl | hx
      · simpa using hm
      · exact h2 x hx

/-- C49: a `use` statement is inserted right after the last `use` declaration of the top level, or else after
the last namespace definition, or else after the first inline text (with the opening tag); if there is none of
these, nothing is inserted. -/
theorem C49_place (nodes : List Node) (eol fqn : Bytes) (sym : SymKind) (al : Bytes) (hf : fqn ≠ []) :
    match (insertUseContext nodes).useEdit eol fqn sym al with
    | some (off, _) =>
      ∃ a n b, nodes = a ++ n :: b ∧ off = n.stop ∧
        (n.kind = .namespaceUse ∧ (∀ x ∈ b, x.kind ≠ .namespaceUse) ∨
         n.kind = .namespaceDefinition ∧ (∀ x ∈ b, x.kind ≠ .namespaceDefinition) ∧
          (∀ x ∈ nodes, x.kind ≠ .namespaceUse) ∨
         n.kind = .inlineText ∧ (∀ x ∈ a, x.kind ≠ .inlineText) ∧
          ∀ x ∈ nodes, x.kind ≠ .namespaceUse ∧ x.kind ≠ .namespaceDefinition)
    | none => ∀ x ∈ nodes, x.kind = .other := by
  obtain ⟨h1, h2, h3⟩ := context_spec nodes { firstInline := none, namespaceDef := none, lastUse := none }
  simp only [Option.or_none, Option.none_or] at h1 h2 h3
  unfold InsertUse.useEdit InsertUse.afterNode insertUseContext
  rw [if_neg hf, h1, h2, h3]
  have nil_last : ∀ p : Node → Bool, (nodes.filter p).getLast? = none → ∀ x ∈ nodes, p x = false := by
    intro p h x hx
    rw [List.getLast?_eq_none_iff, List.filter_eq_nil_iff] at h
    simpa using h x hx
  cases hu : (nodes.filter fun n => n.kind = .namespaceUse).getLast? with
  | some n =>
    obtain ⟨a, b, e, hp, hq⟩ := last_of_filter hu
    exact ⟨a, n, b, e, rfl, .inl ⟨by simpa using hp, fun x hx => by simpa using hq x hx⟩⟩
  | none =>
    have nu := nil_last _ hu
    cases hd : (nodes.filter fun n => n.kind = .namespaceDefinition).getLast? with
    | some n =>
      obtain ⟨a, b, e, hp, hq⟩ := last_of_filter hd
      exact ⟨a, n, b, e, rfl, .inr (.inl ⟨by simpa using hp, fun x hx => by simpa using hq x hx,
        fun x hx => by simpa using nu x hx⟩)⟩
    | none =>
      have nd := nil_last _ hd
      cases hi : (nodes.filter fun n => n.kind = .inlineText).head? with
      | some n =>
        obtain ⟨a, b, e, hp, hq⟩ := first_of_filter hi
        exact ⟨a, n, b, e, rfl, .inr (.inr ⟨by simpa using hp, fun x hx => by simpa using hq x hx,
          fun x hx => ⟨by simpa using nu x hx, by simpa using nd x hx⟩⟩)⟩
      | none =>
        intro x hx
        rw [List.head?_eq_none_iff, List.filter_eq_nil_iff] at hi
        have a1 := nu x hx
        have a2 := nd x hx
        have a3 := hi x hx
        cases hk : x.kind <;> simp_all

/-- C49: the inserted text is a `use` statement for the name without its leading backslash, on a line of its own. -/
theorem C49_text (nodes : List Node) (eol n al : Bytes) (sym : SymKind) (off : Nat) (text : Bytes)
    (h : (insertUseContext nodes).useEdit eol (92 :: n) sym al = some (off, text)) :
    ∃ before, (∃ m ∈ nodes, m.stop = off ∧ (before = eol ++ m.indentation ∨
        m.kind = .namespaceDefinition ∧ before = eol ++ eol ++ m.indentation)) ∧
      text = before ++ b!"use " ++
        (match sym with | .function => b!"function " | .other => [] | _ => b!"const ") ++ n ++
        (if al = [] then [] else b!" as " ++ al) ++ b!";" := by
  have hpl := C49_place nodes eol (92 :: n) sym al (by simp)
  rw [h] at hpl
  obtain ⟨h1, h2, h3⟩ := context_spec nodes { firstInline := none, namespaceDef := none, lastUse := none }
  simp only [Option.or_none, Option.none_or] at h1 h2 h3
  have hmem : ∀ m, (insertUseContext nodes).afterNode = some m → m ∈ nodes := by
    intro m hm
    unfold InsertUse.afterNode insertUseContext at hm
    rw [h1, h2, h3] at hm
    cases hu : (nodes.filter fun n => n.kind = .namespaceUse).getLast? with
    | some y =>
      rw [hu] at hm
      simp only [Option.some.injEq] at hm
      subst hm
      exact (List.mem_filter.mp (List.mem_of_getLast? hu)).1
    | none =>
      rw [hu] at hm
      simp only at hm
      cases hd : (nodes.filter fun n => n.kind = .namespaceDefinition).getLast? with
      | some y =>
        rw [hd] at hm
        simp only [Option.some.injEq] at hm
        subst hm
        exact (List.mem_filter.mp (List.mem_of_getLast? hd)).1
      | none =>
        rw [hd] at hm
        simp only at hm
        exact (List.mem_filter.mp (List.mem_of_mem_head? hm)).1
  unfold InsertUse.useEdit at h
  rw [if_neg (by simp)] at h
  cases ha : (insertUseContext nodes).afterNode with
  | none => rw [ha] at h; simp at h
  | some m =>
    rw [ha] at h
    simp only [Option.some.injEq, Prod.mk.injEq, List.drop_succ_cons, List.drop_zero] at h
    obtain ⟨rfl, rfl⟩ := h
    by_cases hk : m.kind = .namespaceDefinition
    · refine ⟨eol ++ eol ++ m.indentation, ⟨m, hmem m ha, rfl, .inr ⟨hk, rfl⟩⟩, ?_⟩
      simp only [hk, if_true]
      cases sym <;> by_cases hal : al = [] <;> simp [hal]
    · refine ⟨eol ++ m.indentation, ⟨m, hmem m ha, rfl, .inl rfl⟩, ?_⟩
      simp only [hk, if_false]
      cases sym <;> by_cases hal : al = [] <;> simp [hal]

/-- `<?php`, `namespace App;`, `use A;`, a class. -/
example : (insertUseContext [⟨.inlineText, 0, 6, []⟩, ⟨.namespaceDefinition, 6, 20, []⟩, ⟨.namespaceUse, 21, 27, []⟩,
    ⟨.other, 30, 90, []⟩]).useEdit b!"\n" b!"\\Lib\\Foo" .other [] = some (27, b!"\nuse Lib\\Foo;") := by decide +kernel

/-- C49 is false for namespaces with braces: the `use` goes after the closing brace, outside of the block in which
the name was completed, even if the block has `use` declarations of its own (they are not at the top level). -/
theorem C49_false_braces :
    let block : Node := ⟨.namespaceDefinition, 6, 90, []⟩
    let cursor := 50
    (block.start ≤ cursor ∧ cursor < block.stop) ∧
    (insertUseContext [⟨.inlineText, 0, 6, []⟩, block]).useEdit b!"\n" b!"\\Lib\\Foo" .other [] =
      some (block.stop, b!"\n\nuse Lib\\Foo;") := by decide +kernel

/-- C49 is false with several namespaces: completing in the first one inserts into the last one. -/
theorem C49_false_several :
    let first : Node := ⟨.namespaceDefinition, 6, 20, []⟩
    let second : Node := ⟨.namespaceDefinition, 60, 74, []⟩
    let cursor := 50
    (first.stop ≤ cursor ∧ cursor < second.start) ∧
    (insertUseContext [⟨.inlineText, 0, 6, []⟩, first, ⟨.other, 22, 55, []⟩, second]).useEdit b!"\n" b!"\\Lib\\Foo"
      .other [] = some (second.stop, b!"\n\nuse Lib\\Foo;") := by decide +kernel

/-! ## C55: names offered by completion -/

/-- The table after accepting the completion item. -/
def Offer.accept (o : Offer) (i : Table) : Table :=
  match o.use with
  | some (fqn, _) => i.addClassName [] (fqn.drop 1) default
  | none => i

theorem splitB_joined (n short : Bytes) (h : (92 : UInt8) ∉ short) :
    splitB 92 (n ++ 92 :: short) = splitB 92 n ++ [short] := by
  induction n with
  | nil => simp [splitB, splitB_of_no_sep _ _ h]
  | cons c n ih =>
    by_cases hc : c = 92
    · subst hc; simp [splitB, ih]
    · simp only [List.cons_append, splitB, if_neg hc, ih]
      cases hs : splitB 92 n with
      | nil => exact absurd hs (splitB_ne_nil _ _)
      | cons p ps => simp

theorem lastIndexB_joined (n short : Bytes) (h : (92 : UInt8) ∉ short) :
    lastIndexB 92 (n ++ 92 :: short) = some n.length := by
  have h0 : ∀ s : Bytes, (92 : UInt8) ∉ s → lastIndexB 92 s = none := by
    intro s hs
    induction s with
    | nil => rfl
    | cons c s ih =>
      simp only [List.mem_cons, not_or] at hs
      simp [lastIndexB, ih hs.2, Ne.symm hs.1]
  induction n with
  | nil => simp [lastIndexB, h0 short h]
  | cons c n ih => simp [lastIndexB, ih]

theorem getNamespace_joined (n short : Bytes) (t : Ty) (h : (92 : UInt8) ∉ short) (e : t.fqn = inNamespace n short) :
    t.getNamespace = 92 :: n := by
  unfold Ty.getNamespace
  rw [e]
  unfold inNamespace
  by_cases hn : n = []
  · subst hn
    have := lastIndexB_joined [] short h
    simp only [List.nil_append, List.length_nil] at this
    simp [this]
  · rw [if_neg hn]
    have := lastIndexB_joined (92 :: n) short h
    rw [this]
    simp

/-- C55 (partial: see the theorems below for what is excluded): accepting the completion of a class makes the
inserted name refer to that class. The word typed is not qualified and not empty and does not parse to a built-in
name; the class has the short name `short` in namespace `ns`; no import has `short` as alias unless it is the
import of this class; the word does not begin with the name of an import having the first segment of the class
name as alias. -/
theorem C55_accepted_refers_partial (i : Table) (ns short word : Bytes) (w : Ty) (t : Ty)
    (hshort : (92 : UInt8) ∉ short) (hne : short ≠ []) (hnat : short ∉ natives)
    (ho : t.original = short) (hfq : t.fqn = inNamespace ns short)
    (hw : newTypeString word = some w) (hwne : word ≠ []) (hwq : ¬ Qualified word) (hwq' : ¬ Qualified w.fqn)
    (hwnat : word ∉ natives) (hwnat' : w.fqn ∉ natives)
    (halias : ∀ item, i.classes.get short = some item → 92 :: item.name = t.fqn)
    (hwf : i.classes.WF)
    (haliases : ∀ e ∈ i.classes, e.1 ≠ [] ∧ ¬ Qualified e.1)
    (hprefix : ∀ item, i.classes.get (firstSegment (t.fqn.drop 1)) = some item → startsWith word item.name = false) :
    ∃ o, i.resolveToQualified .other t word = some o ∧
      ((o.accept i).getClassReferenceFQN (nm o.label)).1 = t.fqn := by
  have hwf1 : isFQN word = false := by
    rw [Bool.eq_false_iff]
    intro h
    rcases (isFQN_iff _).mp h with h | h
    · exact hwnat h
    · apply hwq
      obtain ⟨c, r, rfl⟩ : ∃ c r, word = c :: r := by
        cases word with
        | nil => exact absurd rfl hwne
        | cons c r => exact ⟨c, r, rfl⟩
      simp only [FullyQualified, List.head?_cons, Option.some.injEq] at h
      simp [Qualified, h]
  have hshortq : ¬ Qualified short := hshort
  have hshortf : ¬ FullyQualified short := by
    intro h
    cases short with
    | nil => exact hne rfl
    | cons c r =>
      simp only [FullyQualified, List.head?_cons, Option.some.injEq] at h
      exact hshort (by simp [h])
  have haf : afterFirst short = [] := by
    have hf : ∀ x ∈ short, x ≠ 92 := fun x hx e => hshort (e ▸ hx)
    unfold afterFirst
    rw [List.dropWhile_eq_nil_iff]
    intro x hx
    simpa using hf x hx
  -- resolving the short name, given what the tables say about it
  have res_short : ∀ j : Table, j.ns = i.ns →
      (j.getClassReferenceFQN (nm short)).1 =
        match j.classes.get short with
        | some item => 92 :: item.name
        | none => inNamespace i.getNamespace short := by
    intro j hj
    rw [C26_resolution]
    have e1 : (nm short).fqn = short := rfl
    simp only [e1, hshortf, if_false, hnat, or_self, firstSegment_self _ hshortq, haf, List.append_nil]
    have : j.getNamespace = i.getNamespace := by simp [Table.getNamespace, hj]
    rw [this]
    cases j.classes.get short <;> rfl
  have hns : t.getNamespace = 92 :: ns := getNamespace_joined ns short t hshort hfq
  have hwns : (w.setNamespace i.getNamespace).getNamespace = 92 :: i.getNamespace := by
    apply getNamespace_joined i.getNamespace w.fqn _ hwq'
    rw [setNamespace_fqn]
    have : isFQN w.fqn = false := by
      rw [Bool.eq_false_iff]
      intro h
      rcases (isFQN_iff _).mp h with h | h
      · exact hwnat' h
      · apply hwq'
        cases hh : w.fqn with
        | nil => rw [hh] at h; simp [FullyQualified] at h
        | cons c r =>
          rw [hh] at h
          simp only [FullyQualified, List.head?_cons, Option.some.injEq] at h
          simp [Qualified, h]
    simp [this]
  have hscope : (getScopeAndName word).1 = [] := by
    unfold getScopeAndName
    rw [if_neg hwne, splitB_of_no_sep 92 word hwq]
  have hfirst : t.firstAndRest.1 = firstSegment (t.fqn.drop 1) := by
    obtain ⟨m, hm⟩ : ∃ m, t.fqn = 92 :: m := by
      rw [hfq]; unfold inNamespace; split
      · exact ⟨_, rfl⟩
      · exact ⟨_, rfl⟩
    rw [(firstAndRest_full t m hm).1, hm]; rfl
  unfold Table.resolveToQualified
  rw [hwf1, hw]
  simp only [Bool.false_eq_true, if_false, hwns, hns, List.cons.injEq, true_and]
  have hon : t.original ≠ [] := by rw [ho]; exact hne
  simp only [hon, or_false, hfirst]
  by_cases hsame : i.getNamespace = ns
  · rw [if_pos hsame]
    refine ⟨_, rfl, ?_⟩
    simp only [Offer.accept, ho]
    rw [res_short i rfl]
    cases hg : i.classes.get short with
    | some item => exact halias item hg
    | none => rw [hfq, hsame]
  · rw [if_neg hsame]
    have hrest : ∃ o, (if SymKind.other ≠ .other ∧ (92 :: ns : Bytes) = b!"\\" then
          some ({ label := t.original, use := none } : Offer)
        else match i.classes.find? fun e => 92 :: e.2.name == t.fqn with
          | some e => some { label := e.1, use := none }
          | none =>
            if (getScopeAndName word).1 ≠ [] ∧ (getScopeAndName word).1 = 92 :: ns then
              some { label := t.original, use := some (92 :: ns, .other) }
            else some { label := t.original, use := some (t.fqn, .other) }) = some o ∧
        ((o.accept i).getClassReferenceFQN (nm o.label)).1 = t.fqn := by
      rw [if_neg (by simp), hscope]
      cases hfnd : i.classes.find? fun e => 92 :: e.2.name == t.fqn with
      | some e =>
        refine ⟨_, rfl, ?_⟩
        have hmem := List.mem_of_find?_eq_some hfnd
        have hp := List.find?_some hfnd
        simp only [beq_iff_eq] at hp
        have hget := (GoMap.mem_iff_get hwf e.1 e.2).mp hmem
        obtain ⟨hane, haq⟩ := haliases e hmem
        have haf' : ¬ FullyQualified e.1 := by
          intro h
          cases hh : e.1 with
          | nil => exact hane hh
          | cons c r =>
            rw [hh] at h haq
            simp only [FullyQualified, List.head?_cons, Option.some.injEq] at h
            exact haq (by simp [Qualified, h])
        have hafter : afterFirst e.1 = [] := by
          unfold afterFirst
          rw [List.dropWhile_eq_nil_iff]
          intro x hx
          have : x ≠ 92 := by rintro rfl; exact haq hx
          simpa using this
        simp only [Offer.accept]
        rw [C26_resolution]
        have e1 : (nm e.1).fqn = e.1 := rfl
        simp only [e1, haf', if_false, firstSegment_self _ haq, hget, hafter, List.append_nil]
        exact hp
      | none =>
        refine ⟨⟨t.original, some (t.fqn, .other)⟩, by simp, ?_⟩
        have hal : sureAlias [] (t.fqn.drop 1) = short := by
          unfold sureAlias
          simp only [if_true]
          have : splitB 92 (t.fqn.drop 1) = (if ns = [] then [] else splitB 92 ns) ++ [short] := by
            rw [hfq]
            unfold inNamespace
            by_cases hn : ns = []
            · simp [hn, splitB_of_no_sep _ _ hshort]
            · rw [if_neg hn, if_neg hn]
              have := splitB_joined ns short hshort
              simpa using this
          simp only [this]
          simp
        simp only [Offer.accept, ho]
        rw [res_short (i.addClassName [] (t.fqn.drop 1) default) rfl]
        simp only [Table.addClassName, hal, GoMap.get_set, if_true]
        rw [hfq]
        unfold inNamespace
        split <;> rfl
    cases hg : i.classes.get (firstSegment (t.fqn.drop 1)) with
    | none => exact hrest
    | some item =>
      simp only [hprefix item hg, Bool.false_eq_true, if_false]
      exact hrest

/-- In `namespace App` with `use Lib\Foo; use Lib\Sub as S;`: completing `Lib\Other\Bar` inserts its `use`,
completing `Lib\Foo` the alias, completing `App\Baz` the short name. -/
example : demo.resolveToQualified .other ⟨b!"\\Lib\\Other\\Bar", b!"Bar", 0⟩ b!"Ba" =
      some ⟨b!"Bar", some (b!"\\Lib\\Other\\Bar", .other)⟩ ∧
    demo.resolveToQualified .other ⟨b!"\\Lib\\Sub", b!"Sub", 0⟩ b!"Su" = some ⟨b!"S", none⟩ ∧
    demo.resolveToQualified .other ⟨b!"\\App\\Baz", b!"Baz", 0⟩ b!"Ba" = some ⟨b!"Baz", none⟩ := by decide +kernel

example : ∃ o, demo.resolveToQualified .other ⟨b!"\\Lib\\Other\\Bar", b!"Bar", 0⟩ b!"Ba" = some o ∧
    ((o.accept demo).getClassReferenceFQN (nm o.label)).1 = b!"\\Lib\\Other\\Bar" := by
  refine C55_accepted_refers_partial demo b!"Lib\\Other" b!"Bar" b!"Ba" (nm b!"Ba") ⟨b!"\\Lib\\Other\\Bar", b!"Bar", 0⟩
    (by decide) (by decide) (by decide +kernel) rfl (by decide +kernel) (by decide +kernel) (by decide)
    (by decide) (by decide) (by decide +kernel) (by decide +kernel) ?_ ?_ ?_ ?_
  · have : demo.classes.get b!"Bar" = none := by decide +kernel
    simp [this]
  · unfold GoMap.WF; decide +kernel
  · have : ∀ e ∈ demo.classes, e.1 ≠ [] ∧ ¬ Qualified e.1 := by decide +kernel
    exact this
  · have : demo.classes.get (firstSegment (b!"\\Lib\\Other\\Bar".drop 1)) = none := by decide +kernel
    intro item h
    exact absurd (h.symm.trans this) (by simp)

/-- C55 is false if an import shadows the short name of a class of the same namespace: `App\Foo` is offered as
`Foo`, which is `Lib\Foo` here. -/
theorem C55_false_shadowed : ∃ o, demo.resolveToQualified .other ⟨b!"\\App\\Foo", b!"Foo", 0⟩ b!"Fo" = some o ∧
    ((o.accept demo).getClassReferenceFQN (nm o.label)).1 = b!"\\Lib\\Foo" := by
  exact ⟨⟨b!"Foo", none⟩, by decide +kernel, by decide +kernel⟩

/-- C55 is false if the word starts with the name of an import: with `use A;`, completing `Ap` to the class
`A\Apple` inserts `Apple`, which is `App\Apple` here. -/
theorem C55_false_prefix :
    let i := ({ newTable ⟨1, 0⟩ with ns := some b!"App" } : Table).addClassName [] b!"A" default
    ∃ o, i.resolveToQualified .other ⟨b!"\\A\\Apple", b!"Apple", 0⟩ b!"Ap" = some o ∧
      ((o.accept i).getClassReferenceFQN (nm o.label)).1 = b!"\\App\\Apple" := by
  exact ⟨⟨b!"Apple", none⟩, by decide +kernel, by decide +kernel⟩

/-- C55 is false for the empty word: completing a class of the root namespace inserts the text `use ;`. -/
theorem C55_false_empty_word :
    demo.resolveToQualified .other ⟨b!"\\DateTime", b!"DateTime", 0⟩ [] =
      some ⟨b!"DateTime", some (b!"\\", .other)⟩ ∧
    (insertUseContext [⟨.inlineText, 0, 6, []⟩]).useEdit b!"\n" b!"\\" .other [] = some (6, b!"\nuse ;") := by
  decide +kernel

end Verif.Imports
