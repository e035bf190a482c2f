import Verif.Imports.Model
import Verif.Imports.Spec
import Verif.Position.Props

/-! C26, C27 (name resolution), C28 (import table at a position). -/

namespace Verif.Imports
open Verif.Types

/-- The `use` declarations of a table. -/
def names (m : GoMap Bytes Item) : List (Bytes × Bytes) := m.map fun e => (e.1, e.2.name)

/-- The alias that would be matched, if any, is written with the same case as the name. -/
def SameCase (m : GoMap Bytes Item) (a : Bytes) : Prop :=
  ∀ e ∈ m, asciiLower e.1 = asciiLower a → e.1 = a

/-! ## Segments -/

theorem splitB_first (n : Bytes) :
    (splitB 92 n).head? = some (firstSegment n) ∧
    ((splitB 92 n).tail = [] ↔ ¬ Qualified n) ∧
    afterFirst n = if (splitB 92 n).tail.length > 0 then 92 :: joinB 92 (splitB 92 n).tail else [] := by
  induction n with
  | nil => simp [splitB, firstSegment, afterFirst, Qualified]
  | cons c n ih =>
    by_cases hc : c = 92
    · subst hc
      have e : splitB 92 ((92 : UInt8) :: n) = [] :: splitB 92 n := by simp [splitB]
      have hne := splitB_ne_nil 92 n
      have hl : (splitB 92 n).length > 0 := List.length_pos_iff.mpr hne
      rw [e]
      refine ⟨by simp [firstSegment], by simp [hne, Qualified], ?_⟩
      simp only [afterFirst, List.tail_cons, hl, if_true, joinB_splitB]
      simp
    · cases hs : splitB 92 n with
      | nil => exact absurd hs (splitB_ne_nil 92 n)
      | cons p ps =>
        have e : splitB 92 (c :: n) = (c :: p) :: ps := by simp [splitB, hc, hs]
        rw [hs] at ih
        rw [e]
        refine ⟨?_, ?_, ?_⟩
        · have := ih.1
          simp only [List.head?_cons, Option.some.injEq] at this ⊢
          simp [firstSegment, this, hc]
        · have := ih.2.1
          simp only [List.tail_cons, Qualified] at this ⊢
          rw [this]
          simp [Ne.symm hc]
        · have := ih.2.2
          have e2 : afterFirst (c :: n) = afterFirst n := by simp [afterFirst, hc]
          rw [e2]
          exact this

theorem firstAndRest_plain (t : Ty) (h : ¬ FullyQualified t.fqn) :
    t.firstAndRest.1 = firstSegment t.fqn ∧ (t.firstAndRest.2.length > 0 ↔ Qualified t.fqn) ∧
    afterFirst t.fqn = if t.firstAndRest.2.length > 0 then 92 :: joinB 92 t.firstAndRest.2 else [] := by
  obtain ⟨h1, h2, h3⟩ := splitB_first t.fqn
  have hlen : ∀ l : List Bytes, l.length > 0 ↔ ¬ l = [] := fun l => List.length_pos_iff
  unfold Ty.firstAndRest Ty.getParts
  cases hs : splitB 92 t.fqn with
  | nil => exact absurd hs (splitB_ne_nil _ _)
  | cons p ps =>
    rw [hs] at h1 h2 h3
    simp only [List.head?_cons, Option.some.injEq, List.tail_cons] at h1 h2 h3
    cases p with
    | nil =>
      -- the name is empty: no other name without leading backslash has an empty first segment
      cases hn : t.fqn with
      | nil =>
        rw [hn] at hs
        simp only [splitB, List.cons.injEq] at hs
        obtain ⟨_, rfl⟩ := hs
        simp [firstSegment, Qualified, afterFirst]
      | cons c r =>
        exfalso
        rw [hn] at h1 h
        have hc : c ≠ 92 := fun e => h (by simp [FullyQualified, e])
        simp [firstSegment, hc] at h1
    | cons c r =>
      simp only
      refine ⟨h1, ?_, h3⟩
      rw [hlen, h2, not_not]

theorem firstAndRest_full (t : Ty) (m : Bytes) (h : t.fqn = 92 :: m) :
    t.firstAndRest.1 = firstSegment m ∧ (t.firstAndRest.2.length > 0 ↔ Qualified m) := by
  obtain ⟨h1, h2, -⟩ := splitB_first m
  have e : splitB 92 t.fqn = [] :: splitB 92 m := by rw [h]; simp [splitB]
  unfold Ty.firstAndRest Ty.getParts
  rw [e]
  cases hs : splitB 92 m with
  | nil => exact absurd hs (splitB_ne_nil _ _)
  | cons p ps =>
    rw [hs] at h1 h2
    simp only [List.head?_cons, Option.some.injEq, List.tail_cons] at h1 h2
    simp only
    refine ⟨h1, ?_⟩
    rw [gt_iff_lt, List.length_pos_iff, ne_eq, h2, not_not]

theorem get_names (m : GoMap Bytes Item) (a : Bytes) (h : SameCase m a) :
    importedAs (names m) a = (m.get a).map Item.name := by
  induction m with
  | nil => rfl
  | cons e t ih =>
    obtain ⟨k, v⟩ := e
    have ht : SameCase t a := fun e he => h e (List.mem_cons_of_mem _ he)
    simp only [importedAs, names, List.map_cons, List.find?_cons, GoMap.get] at ih ⊢
    by_cases hk : k = a
    · subst hk; simp
    · have : asciiLower k ≠ asciiLower a := fun e => hk (h (k, v) (by simp) e)
      simp only [beq_eq_false_iff_ne.mpr this, if_neg hk]
      exact ih ht

theorem get_names_exact (m : GoMap Bytes Item) (a : Bytes) :
    importedAsExactly (names m) a = (m.get a).map Item.name := by
  induction m with
  | nil => rfl
  | cons e t ih =>
    obtain ⟨k, v⟩ := e
    simp only [importedAsExactly, names, List.map_cons, List.find?_cons, GoMap.get] at ih ⊢
    by_cases hk : k = a
    · subst hk; simp
    · simp only [beq_eq_false_iff_ne.mpr hk, if_neg hk]
      exact ih

theorem isFQN_iff (n : Bytes) : isFQN n = true ↔ n ∈ natives ∨ FullyQualified n := by
  cases n with
  | nil => simp [isFQN, FullyQualified, natives]
  | cons c r =>
    simp only [isFQN, Bool.or_eq_true, List.contains_iff_mem, beq_iff_eq, FullyQualified, List.head?_cons,
      Option.some.injEq]

theorem native_plain (n : Bytes) (h : n ∈ natives) : ¬ FullyQualified n ∧ ¬ Qualified n := by
  have : ∀ n ∈ natives, ¬ FullyQualified n ∧ ¬ Qualified n := by decide +kernel
  exact this n h

theorem firstSegment_self (n : Bytes) (h : ¬ Qualified n) : firstSegment n = n := by
  induction n with
  | nil => rfl
  | cons c n ih =>
    simp only [Qualified, List.mem_cons, not_or] at h ih
    simp [firstSegment, Ne.symm h.1] at ih ⊢
    exact ih h.2

theorem setNamespace_fqn (t : Ty) (ns : Bytes) :
    (t.setNamespace ns).fqn = if isFQN t.fqn then t.fqn else inNamespace ns t.fqn := by
  unfold Ty.setNamespace inNamespace
  repeat' split
  all_goals rfl

/-! ## C26 -/

/-- C26, as the code does it: if the first part of the name (without leading backslash) is an alias, the name is
resolved through it; otherwise it is kept if fully qualified or built-in, and put into the namespace if not. -/
theorem C26_resolution (i : Table) (t : Ty) :
    (i.getClassReferenceFQN t).1 =
      match (if FullyQualified t.fqn then i.classes.get (firstSegment (t.fqn.drop 1))
             else i.classes.get (firstSegment t.fqn)) with
      | some item =>
        92 :: item.name ++ (if FullyQualified t.fqn then afterFirst (t.fqn.drop 1) else afterFirst t.fqn)
      | none =>
        if FullyQualified t.fqn ∨ t.fqn ∈ natives then t.fqn else inNamespace i.getNamespace t.fqn := by
  have hsn : (t.setNamespace i.getNamespace).fqn =
      if FullyQualified t.fqn ∨ t.fqn ∈ natives then t.fqn else inNamespace i.getNamespace t.fqn := by
    rw [setNamespace_fqn]
    by_cases h : isFQN t.fqn = true
    · rw [if_pos h, if_pos (((isFQN_iff _).mp h).symm)]
    · rw [if_neg h, if_neg (fun hh => h ((isFQN_iff _).mpr hh.symm))]
  unfold Table.getClassReferenceFQN
  by_cases hf : FullyQualified t.fqn
  · obtain ⟨m, hm⟩ : ∃ m, t.fqn = 92 :: m := by
      cases hn : t.fqn with
      | nil => rw [hn] at hf; simp [FullyQualified] at hf
      | cons c r => rw [hn] at hf; simp [FullyQualified] at hf; exact ⟨r, by rw [hf]⟩
    have e : splitB 92 t.fqn = [] :: splitB 92 m := by rw [hm]; simp [splitB]
    obtain ⟨h1, h2, h3⟩ := splitB_first m
    have fr := firstAndRest_full t m hm
    have rest : t.firstAndRest.2 = (splitB 92 m).tail := by
      unfold Ty.firstAndRest Ty.getParts
      rw [e]
      cases splitB 92 m <;> rfl
    have hd : t.fqn.drop 1 = m := by rw [hm]; rfl
    rw [if_pos (.inl hf)] at hsn
    rw [if_pos hf, if_pos hf, if_pos (Or.inl hf), hd, fr.1, rest]
    simp only []
    cases hg : i.classes.get (firstSegment m) with
    | none => simpa using hsn
    | some item => simp only [h3]
  · have fr := firstAndRest_plain t hf
    simp only [hf, if_false, false_or, fr.1] at hsn ⊢
    cases i.classes.get (firstSegment t.fqn) with
    | none => simpa using hsn
    | some item => simp only [fr.2.2]

/-- C26: the result is always fully qualified or a built-in type. -/
theorem C26_always_qualified (i : Table) (t : Ty) :
    FullyQualified (i.getClassReferenceFQN t).1 ∨ (i.getClassReferenceFQN t).1 ∈ natives := by
  rw [C26_resolution]
  generalize (if FullyQualified t.fqn then i.classes.get (firstSegment (t.fqn.drop 1))
    else i.classes.get (firstSegment t.fqn)) = x
  cases x with
  | some item => left; simp [FullyQualified]
  | none =>
    simp only
    split
    · assumption
    · left; unfold inNamespace FullyQualified; split <;> simp

/-- C26 against PHP's rules (partial: fully qualified and built-in names whose first segment is also an alias,
and aliases written with different case, are resolved differently; see the theorems below). -/
theorem C26_php_partial (i : Table) (t : Ty) (hcase : SameCase i.classes (firstSegment t.fqn))
    (hfull : FullyQualified t.fqn → i.classes.get (firstSegment (t.fqn.drop 1)) = none)
    (hbuiltin : t.fqn ∈ natives → i.classes.get t.fqn = none) :
    (i.getClassReferenceFQN t).1 = phpClassName natives i.getNamespace (names i.classes) t.fqn := by
  rw [C26_resolution]
  unfold phpClassName
  by_cases hf : FullyQualified t.fqn
  · rw [if_pos hf, if_pos hf, if_pos hf, hfull hf]
    simp [hf]
  · simp only [hf, if_false, false_or]
    by_cases hb : t.fqn ∈ natives
    · have : firstSegment t.fqn = t.fqn := by
        exact firstSegment_self _ (native_plain _ hb).2
      simp [hb, this, hbuiltin hb]
    · simp only [hb, if_false]
      rw [get_names _ _ hcase]
      cases i.classes.get (firstSegment t.fqn) <;> rfl

/-- A table with `namespace App; use Lib\Foo; use Lib\Sub as S; use function Lib\run; use const Lib\MAX;`. -/
def demo : Table :=
  ((((({ newTable ⟨1, 0⟩ with ns := some b!"App" } : Table).addClassName [] b!"Lib\\Foo" default).addClassName
    b!"S" b!"Lib\\Sub" default).addFunctionName [] b!"Lib\\run" default).addConstName [] b!"Lib\\MAX" default)

/-- A name as parsed. -/
def nm (s : Bytes) : Ty := { fqn := s, original := s, arrayLevel := 0 }

example : (demo.getClassReferenceFQN (nm b!"S\\T\\U")).1 = b!"\\Lib\\Sub\\T\\U" ∧
    (demo.getClassReferenceFQN (nm b!"Bar")).1 = b!"\\App\\Bar" ∧
    (demo.getClassReferenceFQN (nm b!"\\Bar")).1 = b!"\\Bar" ∧
    (demo.getClassReferenceFQN (nm b!"int")).1 = b!"int" ∧
    SameCase demo.classes (firstSegment b!"S\\T\\U") ∧
    phpClassName natives b!"App" (names demo.classes) b!"S\\T\\U" = b!"\\Lib\\Sub\\T\\U" := by
  refine ⟨by decide +kernel, by decide +kernel, by decide +kernel, by decide +kernel, ?_, by decide +kernel⟩
  have : ∀ e ∈ demo.classes, asciiLower e.1 = asciiLower (firstSegment b!"S\\T\\U") →
      e.1 = firstSegment b!"S\\T\\U" := by decide +kernel
  exact this

/-- C26 is false of PHP's rules: the fully qualified name `\Foo` is taken for the alias `Foo`. -/
theorem C26_false_fully_qualified : (demo.getClassReferenceFQN (nm b!"\\Foo")).1 = b!"\\Lib\\Foo" ∧
    phpClassName natives demo.getNamespace (names demo.classes) b!"\\Foo" = b!"\\Foo" := by decide +kernel

/-- C26 is false of PHP's rules: an alias is not recognised if the name is written with different case. -/
theorem C26_false_case : (demo.getClassReferenceFQN (nm b!"foo")).1 = b!"\\App\\foo" ∧
    phpClassName natives demo.getNamespace (names demo.classes) b!"foo" = b!"\\Lib\\Foo" := by decide +kernel

/-! ## C27 -/

theorem imported_plain (i : Table) (own : GoMap Bytes Item) (t : Ty) (h : ¬ FullyQualified t.fqn)
    (hq : ¬ Qualified t.fqn) : i.importedFQN own t = (own.get t.fqn).map fun x => 92 :: x.name := by
  have fr := firstAndRest_plain t h
  have e := firstSegment_self _ hq
  unfold Table.importedFQN
  simp only [fr.2.1, hq, if_false, fr.1, e]

theorem imported_qualified (i : Table) (own : GoMap Bytes Item) (t : Ty) (h : ¬ FullyQualified t.fqn)
    (hq : Qualified t.fqn) :
    i.importedFQN own t = (i.classes.get (firstSegment t.fqn)).map fun x => 92 :: x.name := by
  have fr := firstAndRest_plain t h
  unfold Table.importedFQN
  simp only [fr.2.1, hq, if_true, fr.1]

theorem full_cases (t : Ty) (h : FullyQualified t.fqn) : ∃ m, t.fqn = 92 :: m := by
  cases hn : t.fqn with
  | nil => rw [hn] at h; simp [FullyQualified] at h
  | cons c r => rw [hn] at h; simp [FullyQualified] at h; exact ⟨r, by rw [h]⟩

theorem imported_full (i : Table) (own : GoMap Bytes Item) (t : Ty) (m : Bytes) (h : t.fqn = 92 :: m) :
    i.importedFQN own t =
      ((if Qualified m then i.classes else own).get (firstSegment m)).map fun x => 92 :: x.name := by
  have fr := firstAndRest_full t m h
  unfold Table.importedFQN
  rw [fr.1]
  by_cases hq : Qualified m
  · simp only [fr.2, hq, if_true]
  · simp only [fr.2, hq, if_false]

/-- The segment that is looked up in the tables. -/
def lookedUp (n : Bytes) : Bytes := if FullyQualified n then firstSegment (n.drop 1) else firstSegment n

/-- C27, function calls (partial: see the theorems below for the cases in which it differs): the name found is
the one PHP's rules give, if the first segment of a qualified name is not an alias (for these, the remaining
segments are lost), the global and the namespaced function do not both exist, one of the two exists for
unqualified names, and the name is not that of a built-in type. -/
theorem C27_function_partial (i : Table) (t : Ty) (defined : Bytes → Bool)
    (hnat : t.fqn ∉ natives)
    (hq : Qualified t.fqn → i.classes.get (lookedUp t.fqn) = none)
    (hfull : FullyQualified t.fqn → i.functions.get (lookedUp t.fqn) = none)
    (hcase : SameCase i.classes (firstSegment t.fqn) ∧ SameCase i.functions t.fqn)
    (hglobal : ¬ FullyQualified t.fqn → defined (92 :: t.fqn) = true →
      ¬ Qualified t.fqn ∧ defined (inNamespace i.getNamespace t.fqn) = false ∨ i.getNamespace = [])
    (hsome : ¬ Qualified t.fqn → i.functions.get t.fqn = none →
      defined (92 :: t.fqn) = true ∨ defined (inNamespace i.getNamespace t.fqn) = true) :
    i.getFunctionReferenceFQN defined t =
      phpFunctionName defined i.getNamespace (names i.classes) (names i.functions) t.fqn := by
  unfold Table.getFunctionReferenceFQN phpFunctionName
  have hsn := setNamespace_fqn t i.getNamespace
  by_cases hf : FullyQualified t.fqn
  · obtain ⟨m, hm⟩ := full_cases t hf
    have hlu : lookedUp t.fqn = firstSegment m := by simp [lookedUp, hm, FullyQualified]
    have hQ : Qualified t.fqn := by simp [Qualified, hm]
    have himp : i.importedFQN i.functions t = none := by
      rw [imported_full i i.functions t m hm]
      split
      · rw [← hlu, hq hQ]; rfl
      · rw [← hlu, hfull hf]; rfl
    have hfq : isFQN t.fqn = true := (isFQN_iff _).mpr (.inr hf)
    rw [himp, if_pos hf]
    simp only [globalFQN, hfq, if_true, hsn, ite_self]
  · have hnf : isFQN t.fqn = false := by
      rw [Bool.eq_false_iff]
      intro h
      rcases (isFQN_iff _).mp h with h | h
      · exact hnat h
      · exact hf h
    rw [if_neg hf]
    by_cases hQ : Qualified t.fqn
    · have hlu : lookedUp t.fqn = firstSegment t.fqn := by simp [lookedUp, hf]
      have hg := hq hQ
      rw [hlu] at hg
      rw [imported_qualified i _ t hf hQ, hg, if_pos hQ, get_names _ _ hcase.1, hg]
      simp only [Option.map_none, globalFQN, hnf, Bool.false_eq_true, if_false, hsn]
      by_cases hd : defined (92 :: t.fqn) = true
      · rcases hglobal hf hd with h | h
        · exact absurd hQ h.1
        · simp [hd, h, inNamespace]
      · simp [hd]
    · rw [imported_plain i _ t hf hQ, if_neg hQ, get_names _ _ hcase.2]
      cases hg : i.functions.get t.fqn with
      | some x => rfl
      | none =>
        simp only [Option.map_none, globalFQN, hnf, Bool.false_eq_true, if_false, hsn]
        by_cases hd : defined (92 :: t.fqn) = true
        · rcases hglobal hf hd with h | h
          · simp [hd, h.2]
          · simp [hd, h, inNamespace]
        · rcases hsome hQ hg with h | h
          · exact absurd h hd
          · simp [hd, h]

/-- C27, references: the possible targets of a call include the function PHP's rules give, if the first segment
of a qualified name is not an alias and the name is not that of a built-in type. -/
theorem C27_possible_targets_partial (i : Table) (t : Ty) (defined : Bytes → Bool)
    (hnat : t.fqn ∉ natives)
    (hq : Qualified t.fqn → i.classes.get (lookedUp t.fqn) = none)
    (hfull : FullyQualified t.fqn → i.functions.get (lookedUp t.fqn) = none)
    (hcase : SameCase i.classes (firstSegment t.fqn) ∧ SameCase i.functions t.fqn) :
    phpFunctionName defined i.getNamespace (names i.classes) (names i.functions) t.fqn ∈
      i.functionPossibleFQNs t := by
  unfold Table.functionPossibleFQNs phpFunctionName
  have hsn := setNamespace_fqn t i.getNamespace
  have hmem : ∀ a b x : Bytes, x = a ∨ x = b → x ∈ (if b ≠ a then [a, b] else [a]) := by
    intro a b x h
    split
    · simpa using h
    · rename_i hab
      rw [not_not] at hab
      subst hab
      simpa using h
  by_cases hf : FullyQualified t.fqn
  · obtain ⟨m, hm⟩ := full_cases t hf
    have hlu : lookedUp t.fqn = firstSegment m := by simp [lookedUp, hm, FullyQualified]
    have hQ : Qualified t.fqn := by simp [Qualified, hm]
    have himp : i.importedFQN i.functions t = none := by
      rw [imported_full i i.functions t m hm]
      split
      · rw [← hlu, hq hQ]; rfl
      · rw [← hlu, hfull hf]; rfl
    have hfq : isFQN t.fqn = true := (isFQN_iff _).mpr (.inr hf)
    rw [himp, if_pos hf]
    apply hmem
    left
    simp only [globalFQN, hfq, if_true]
  · have hnf : isFQN t.fqn = false := by
      rw [Bool.eq_false_iff]
      intro h
      rcases (isFQN_iff _).mp h with h | h
      · exact hnat h
      · exact hf h
    rw [if_neg hf]
    by_cases hQ : Qualified t.fqn
    · have hlu : lookedUp t.fqn = firstSegment t.fqn := by simp [lookedUp, hf]
      have hg := hq hQ
      rw [hlu] at hg
      rw [imported_qualified i _ t hf hQ, hg, if_pos hQ, get_names _ _ hcase.1, hg]
      apply hmem
      right
      simp only [Option.map_none, hsn, hnf, Bool.false_eq_true, if_false]
    · rw [imported_plain i _ t hf hQ, if_neg hQ, get_names _ _ hcase.2]
      cases hg : i.functions.get t.fqn with
      | some x => simp
      | none =>
        apply hmem
        simp only [Option.map_none, globalFQN, hnf, Bool.false_eq_true, if_false, hsn]
        by_cases hd : defined (inNamespace i.getNamespace t.fqn) = true
        · right; simp [hd]
        · left; simp [hd]

/-- C27, constants (partial as for functions): constants declared with `const` and with `define` count alike. -/
theorem C27_constant_partial (i : Table) (t : Ty) (consts defines : Bytes → Bool)
    (hnat : t.fqn ∉ natives)
    (hq : Qualified t.fqn → i.classes.get (lookedUp t.fqn) = none)
    (hfull : FullyQualified t.fqn → i.constants.get (lookedUp t.fqn) = none)
    (hcase : SameCase i.classes (firstSegment t.fqn))
    (hglobal : ¬ FullyQualified t.fqn → (consts (92 :: t.fqn) || defines (92 :: t.fqn)) = true →
      ¬ Qualified t.fqn ∧ (consts (inNamespace i.getNamespace t.fqn) ||
        defines (inNamespace i.getNamespace t.fqn)) = false ∨ i.getNamespace = [])
    (hsome : ¬ Qualified t.fqn → i.constants.get t.fqn = none →
      (consts (92 :: t.fqn) || defines (92 :: t.fqn)) = true ∨
      (consts (inNamespace i.getNamespace t.fqn) || defines (inNamespace i.getNamespace t.fqn)) = true) :
    i.getConstReferenceFQN consts defines t =
      phpConstName (fun n => consts n || defines n) i.getNamespace (names i.classes) (names i.constants) t.fqn := by
  unfold Table.getConstReferenceFQN phpConstName
  have hsn := setNamespace_fqn t i.getNamespace
  have two : ∀ g n : Bytes, (if consts g = true then g else if defines g = true then g else n) =
      if (consts g || defines g) = true then g else n := by
    intro g n
    cases consts g <;> cases defines g <;> rfl
  by_cases hf : FullyQualified t.fqn
  · obtain ⟨m, hm⟩ := full_cases t hf
    have hlu : lookedUp t.fqn = firstSegment m := by simp [lookedUp, hm, FullyQualified]
    have hQ : Qualified t.fqn := by simp [Qualified, hm]
    have himp : i.importedFQN i.constants t = none := by
      rw [imported_full i i.constants t m hm]
      split
      · rw [← hlu, hq hQ]; rfl
      · rw [← hlu, hfull hf]; rfl
    have hfq : isFQN t.fqn = true := (isFQN_iff _).mpr (.inr hf)
    rw [himp, if_pos hf]
    simp only [globalFQN, hfq, if_true, hsn, ite_self]
  · have hnf : isFQN t.fqn = false := by
      rw [Bool.eq_false_iff]
      intro h
      rcases (isFQN_iff _).mp h with h | h
      · exact hnat h
      · exact hf h
    rw [if_neg hf]
    by_cases hQ : Qualified t.fqn
    · have hlu : lookedUp t.fqn = firstSegment t.fqn := by simp [lookedUp, hf]
      have hg := hq hQ
      rw [hlu] at hg
      rw [imported_qualified i _ t hf hQ, hg, if_pos hQ, get_names _ _ hcase, hg]
      simp only [Option.map_none, globalFQN, hnf, Bool.false_eq_true, if_false, hsn, two]
      by_cases hd : (consts (92 :: t.fqn) || defines (92 :: t.fqn)) = true
      · rcases hglobal hf hd with h | h
        · exact absurd hQ h.1
        · rw [if_pos hd, h]; rfl
      · rw [if_neg hd]
    · rw [imported_plain i _ t hf hQ, if_neg hQ, get_names_exact]
      cases hg : i.constants.get t.fqn with
      | some x => rfl
      | none =>
        simp only [Option.map_none, globalFQN, hnf, Bool.false_eq_true, if_false, hsn, two]
        by_cases hd : (consts (92 :: t.fqn) || defines (92 :: t.fqn)) = true
        · rcases hglobal hf hd with h | h
          · rw [if_pos hd, if_neg (by simp [h.2])]
          · rw [if_pos hd, h]; simp [inNamespace]
        · rcases hsome hQ hg with h | h
          · exact absurd h hd
          · rw [if_neg hd, if_pos h]

/-- `run` is imported; `f` exists in the namespace only; `strlen` globally only. -/
example : demo.getFunctionReferenceFQN (fun _ => false) (nm b!"run") = b!"\\Lib\\run" ∧
    demo.getFunctionReferenceFQN (fun n => n == b!"\\App\\f") (nm b!"f") = b!"\\App\\f" ∧
    demo.getFunctionReferenceFQN (fun n => n == b!"\\strlen") (nm b!"strlen") = b!"\\strlen" ∧
    demo.getConstReferenceFQN (fun _ => false) (fun _ => false) (nm b!"MAX") = b!"\\Lib\\MAX" ∧
    demo.functionPossibleFQNs (nm b!"f") = [b!"\\f", b!"\\App\\f"] := by decide +kernel

/-- C27 is false: in a qualified name starting with an alias, the remaining segments are lost. -/
theorem C27_false_rest_dropped :
    demo.getFunctionReferenceFQN (fun n => n == b!"\\Lib\\Sub\\f") (nm b!"S\\f") = b!"\\Lib\\Sub" ∧
    phpFunctionName (fun n => n == b!"\\Lib\\Sub\\f") demo.getNamespace (names demo.classes)
      (names demo.functions) b!"S\\f" = b!"\\Lib\\Sub\\f" ∧
    demo.functionPossibleFQNs (nm b!"S\\f") = [b!"\\Lib\\Sub"] ∧
    demo.getConstReferenceFQN (fun _ => true) (fun _ => true) (nm b!"S\\X") = b!"\\Lib\\Sub" ∧
    phpConstName (fun _ => true) demo.getNamespace (names demo.classes) (names demo.constants) b!"S\\X" =
      b!"\\Lib\\Sub\\X" := by decide +kernel

/-- C27 is false: the global function is preferred to the one of the namespace. -/
theorem C27_false_global_first :
    demo.getFunctionReferenceFQN (fun _ => true) (nm b!"f") = b!"\\f" ∧
    phpFunctionName (fun _ => true) demo.getNamespace (names demo.classes) (names demo.functions) b!"f" =
      b!"\\App\\f" ∧
    demo.getFunctionReferenceFQN (fun _ => true) (nm b!"A\\f") = b!"\\A\\f" ∧
    phpFunctionName (fun _ => true) demo.getNamespace (names demo.classes) (names demo.functions) b!"A\\f" =
      b!"\\App\\A\\f" := by decide +kernel

/-- C27 is false: fully qualified names are taken for aliases, and a function with the name of a built-in type
is looked up without a backslash. -/
theorem C27_false_fully_qualified :
    demo.getFunctionReferenceFQN (fun _ => true) (nm b!"\\run") = b!"\\Lib\\run" ∧
    phpFunctionName (fun _ => true) demo.getNamespace (names demo.classes) (names demo.functions) b!"\\run" =
      b!"\\run" ∧
    demo.getFunctionReferenceFQN (fun _ => true) (nm b!"real") = b!"real" := by decide +kernel

/-! ## C28 -/

/-- The tables start one after the other. -/
def Ordered (ts : List Table) : Prop := ts.Pairwise fun a b => Position.Before a.start b.start

/-- C28: the table used at a position is that of the last block starting before it, or the first one if there
is none. -/
theorem C28_last_block_before (ts : List Table) (pos : Pos) (hne : ts ≠ []) (ho : Ordered ts) :
    ∃ t, importTableAtPos ts pos = some t ∧
      ((∃ a b, ts = a ++ t :: b ∧ Position.Before t.start pos ∧ ∀ x ∈ b, ¬ Position.Before x.start pos) ∨
       (ts.head? = some t ∧ ∀ x ∈ ts, ¬ Position.Before x.start pos)) := by
  have hcmp : ∀ p q : Pos, comparePos p q ≤ 0 ↔ ¬ Position.Before q p := Position.le_zero_iff
  let f : Nat → Bool := fun i =>
    match ts[i]? with
    | some t => comparePos pos t.start ≤ 0
    | none => false
  have hf : ∀ i (h : i < ts.length), f i = true ↔ ¬ Position.Before ts[i].start pos := by
    intro i h
    simp only [f, List.getElem?_eq_getElem h, decide_eq_true_eq]
    exact hcmp _ _
  have hpw := List.pairwise_iff_getElem.mp ho
  have mono : ∀ a b, a ≤ b → b < ts.length → f a = true → f b = true := by
    intro a b hab hb ha
    rcases Nat.eq_or_lt_of_le hab with e | hlt
    · exact e ▸ ha
    · have h1 := (hf a (by omega)).mp ha
      rw [hf b hb]
      have := hpw a b (by omega) hb hlt
      revert h1 this
      simp only [Position.Before]
      omega
  obtain ⟨hbelow, hle, hat⟩ := goSearch_spec ts.length f mono
  have habove : ∀ i, goSearch ts.length f ≤ i → i < ts.length → f i = true := fun i h1 h2 =>
    mono _ i h1 h2 (hat (by omega))
  have hdef : importTableAtPos ts pos =
      if goSearch ts.length f = 0 then ts[0]? else ts[goSearch ts.length f - 1]? := rfl
  rw [hdef]
  generalize hk : goSearch ts.length f = k at *
  have hlen : ts.length > 0 := List.length_pos_iff.mpr hne
  by_cases h0 : k = 0
  · subst h0
    rw [if_pos rfl, List.getElem?_eq_getElem hlen]
    refine ⟨_, rfl, .inr ⟨by rw [List.head?_eq_getElem?, List.getElem?_eq_getElem hlen], ?_⟩⟩
    intro x hx
    obtain ⟨i, hi, rfl⟩ := List.getElem_of_mem hx
    exact (hf i hi).mp (habove i (by omega) hi)
  · rw [if_neg h0]
    have hk1 : k - 1 < ts.length := by omega
    rw [List.getElem?_eq_getElem hk1]
    refine ⟨_, rfl, .inl ⟨ts.take (k - 1), ts.drop k, ?_, ?_, ?_⟩⟩
    · have e : k - 1 + 1 = k := by omega
      conv => lhs; rw [← List.take_append_drop (k - 1) ts, List.drop_eq_getElem_cons hk1, e]
    · have := hbelow (k - 1) (by omega)
      by_contra hh
      rw [(hf (k - 1) hk1).mpr hh] at this
      simp at this
    · intro x hx
      obtain ⟨i, hi, rfl⟩ := List.getElem_of_mem hx
      rw [List.getElem_drop]
      have hi' : k + i < ts.length := by
        rw [List.length_drop] at hi; omega
      exact (hf _ hi').mp (habove _ (by omega) hi')

/-- Two blocks, `namespace A` with `use function Lib\f` and `namespace B`. -/
def twoBlocks : List Table := load ⟨0, 0⟩
  [.namespace ⟨1, 0⟩ b!"A", .useFunction [] b!"Lib\\f" default, .namespace ⟨9, 0⟩ b!"B"]

example : Ordered twoBlocks ∧ (importTableAtPos twoBlocks ⟨5, 0⟩).map Table.ns = some (some b!"A") ∧
    (importTableAtPos twoBlocks ⟨9, 1⟩).map Table.ns = some (some b!"B") := by
  refine ⟨?_, by decide +kernel, by decide +kernel⟩
  have : twoBlocks = [⟨⟨1, 0⟩, some b!"A", [], [(b!"f", ⟨b!"Lib\\f", default, false⟩)], []⟩,
    ⟨⟨9, 0⟩, some b!"B", [], [], []⟩] := by decide +kernel
  rw [this]
  simp [Ordered, Position.Before]

/-- C28 is false for the types and signatures of function calls: a call in the first block is resolved with the
imports of the last block. -/
theorem C28_false_function_calls :
    (importTableAtPos twoBlocks ⟨5, 0⟩).map (fun t => t.getFunctionReferenceFQN (fun _ => false) (nm b!"f")) =
      some b!"\\Lib\\f" ∧
    (functionCallTable twoBlocks ⟨5, 0⟩).map (fun t => t.getFunctionReferenceFQN (fun _ => false) (nm b!"f")) =
      some b!"\\B\\f" := by decide +kernel

end Verif.Imports
