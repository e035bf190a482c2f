import Verif.Marks.Errors
import Verif.Common.Tactics
import Mathlib.Data.List.Forall2

/-! C121: the marks for syntax errors. -/

namespace Verif.Marks

/-! ### one error -/

theorem covers_of {posAt : Nat → Pos} {e : ParseError} {r : Rng} (h : errorRange posAt e = some r) : Covers posAt e r := by
  unfold errorRange at h
  cases hc : e.children with
  | nil =>
    rw [hc] at h
    simp only [Option.map_eq_some_iff] at h
    obtain ⟨t, h1, h2⟩ := h
    exact .inr ⟨hc, t, h1, h2.symm⟩
  | cons k ks =>
    rw [hc] at h
    simp only at h
    cases hk : k with
    | phrase => rw [hk] at h; simp [Skipped.asToken] at h
    | token f =>
      cases hl : (k :: ks).getLast (List.cons_ne_nil k ks) with
      | phrase => rw [hl] at h; simp [Skipped.asToken] at h
      | token l =>
        rw [hl, hk] at h
        simp only [Skipped.asToken, Option.some.injEq] at h
        refine .inl ⟨f, l, by rw [hc, hk]; rfl, ?_, h.symm⟩
        rw [hc, List.getLast?_eq_some_getLast (List.cons_ne_nil k ks), hl]

theorem errorRange_none {posAt : Nat → Pos} {e : ParseError} : errorRange posAt e = none ↔ ¬ Placed e := by
  unfold errorRange Placed
  cases hc : e.children with
  | nil => simp
  | cons k ks =>
    simp only [List.head?_cons, Option.some.injEq, List.getLast?_eq_some_getLast (List.cons_ne_nil k ks), reduceCtorEq,
      false_and, or_false]
    cases hk : k with
    | phrase => simp [Skipped.asToken]
    | token f =>
      subst hk
      cases hl : (Skipped.token f :: ks).getLast (List.cons_ne_nil _ ks) with
      | phrase => simp [Skipped.asToken]
      | token l => simp [Skipped.asToken]

theorem says_of (e : ParseError) : Says e (errorMessage e) := by
  unfold errorMessage Says
  cases hu : e.unexpected with
  | none =>
    cases hx : e.expected with
    | none => exact .inr (.inr (.inr ⟨rfl, rfl, by simp⟩))
    | some x => exact .inr (.inr (.inl ⟨x, rfl, rfl, by simp⟩))
  | some t =>
    cases hx : e.expected with
    | none => exact .inr (.inl ⟨t, rfl, rfl, by simp⟩)
    | some x =>
      refine .inl ⟨t, x, rfl, rfl, ?_⟩
      simp

/-! ### the errors of a syntax tree -/

mutual

/-- The errors of a syntax tree that are not in a doc comment, with their paths. -/
def errorsOf (pre : List Nat) : Tree → List (List Nat × ParseError)
  | .token _ => []
  | .error e => [(pre, e)]
  | .phrase true _ => []
  | .phrase false kids => errorsFrom pre 0 kids

/-- The same for some children, the first of which is number `i`. -/
def errorsFrom (pre : List Nat) (i : Nat) : List Tree → List (List Nat × ParseError)
  | [] => []
  | k :: ks => errorsOf (pre ++ [i]) k ++ errorsFrom pre (i + 1) ks

end

/-- The diagnostics of some errors. -/
def collect (posAt : Nat → Pos) : List (List Nat × ParseError) → Option (List Diagnostic)
  | [] => some []
  | (_, e) :: es =>
    match errorDiagnostic posAt e, collect posAt es with
    | some d, some ds => some (d :: ds)
    | _, _ => none

theorem collect_append (posAt : Nat → Pos) (es fs : List (List Nat × ParseError)) :
    collect posAt (es ++ fs) = (collect posAt es).bind fun a => (collect posAt fs).map (a ++ ·) := by
  induction es with
  | nil => simp [collect]
  | cons x es ih =>
    obtain ⟨p, e⟩ := x
    simp only [List.cons_append, collect, ih]
    cases errorDiagnostic posAt e with
    | none => simp
    | some d =>
      cases collect posAt es with
      | none => simp
      | some a => cases collect posAt fs <;> simp

mutual

theorem traverse_eq (posAt : Nat → Pos) : ∀ (t : Tree) (pre : List Nat) (ds : List Diagnostic),
    traverse posAt ds t = (collect posAt (errorsOf pre t)).map (ds ++ ·)
  | .token t, pre, ds => by simp [traverse, visit, errorsOf, collect]
  | .error e, pre, ds => by
    simp only [traverse, visit, errorsOf, collect]
    cases errorDiagnostic posAt e <;> simp
  | .phrase true kids, pre, ds => by simp [traverse, visit, errorsOf, collect]
  | .phrase false kids, pre, ds => by
    simp only [traverse, visit, errorsOf, Bool.not_true, Bool.false_eq_true, if_false]
    exact traverseAll_eq posAt kids pre 0 ds

theorem traverseAll_eq (posAt : Nat → Pos) : ∀ (ks : List Tree) (pre : List Nat) (i : Nat) (ds : List Diagnostic),
    traverseAll posAt ds ks = (collect posAt (errorsFrom pre i ks)).map (ds ++ ·)
  | [], pre, i, ds => by simp [traverseAll, errorsFrom, collect]
  | k :: ks, pre, i, ds => by
    simp only [traverseAll, errorsFrom, collect_append, traverse_eq posAt k (pre ++ [i]) ds]
    cases collect posAt (errorsOf (pre ++ [i]) k) with
    | none => simp
    | some a =>
      simp only [Option.map_some, traverseAll_eq posAt ks pre (i + 1), Option.bind_some, Option.map_map]
      congr 1
      funext x
      simp

end

theorem errorAt_phrase {kids : List Tree} {i : Nat} {p : List Nat} {e : ParseError} :
    ErrorAt (.phrase false kids) (i :: p) e ↔ ∃ k, kids[i]? = some k ∧ ErrorAt k p e := by
  constructor
  · rintro ⟨h1, h2⟩
    cases hk : kids[i]? with
    | none => simp [nodeAt, hk] at h1
    | some k =>
      refine ⟨k, rfl, by simpa [nodeAt, hk] using h1, fun q hq ks he => ?_⟩
      refine h2 (i :: q) (by obtain ⟨r, rfl⟩ := hq; exact ⟨r, rfl⟩) ks ?_
      simpa [nodeAt, hk] using he
  · rintro ⟨k, hk, h1, h2⟩
    refine ⟨by simpa [nodeAt, hk] using h1, fun q hq ks he => ?_⟩
    cases q with
    | nil => simp [nodeAt] at he
    | cons j q =>
      obtain ⟨r, hr⟩ := hq
      simp only [List.cons_append, List.cons.injEq] at hr
      obtain ⟨rfl, rfl⟩ := hr
      refine h2 q ⟨r, rfl⟩ ks ?_
      simpa [nodeAt, hk] using he

mutual

theorem mem_errorsOf : ∀ (t : Tree) (pre p : List Nat) (e : ParseError),
    (p, e) ∈ errorsOf pre t ↔ ∃ q, p = pre ++ q ∧ ErrorAt t q e
  | .token t, pre, p, e => by
    simp only [errorsOf, List.not_mem_nil, false_iff, not_exists, not_and]
    rintro q - ⟨h, -⟩
    cases q <;> simp [nodeAt] at h
  | .error e', pre, p, e => by
    simp only [errorsOf, List.mem_singleton, Prod.mk.injEq]
    constructor
    · rintro ⟨rfl, rfl⟩
      refine ⟨[], by simp, rfl, fun q hq ks he => ?_⟩
      rw [List.prefix_nil] at hq
      subst hq
      simp [nodeAt] at he
    · rintro ⟨q, rfl, h, -⟩
      cases q with
      | nil => simp only [nodeAt, Option.some.injEq, Tree.error.injEq] at h; simp [h]
      | cons i q => simp [nodeAt] at h
  | .phrase true kids, pre, p, e => by
    simp only [errorsOf, List.not_mem_nil, false_iff, not_exists, not_and]
    rintro q - ⟨-, h⟩
    exact h [] List.nil_prefix kids rfl
  | .phrase false kids, pre, p, e => by
    simp only [errorsOf, mem_errorsFrom kids pre 0 p e]
    constructor
    · rintro ⟨i, k, q, rfl, h1, h2⟩
      exact ⟨i :: q, by simp, errorAt_phrase.mpr ⟨k, h1, h2⟩⟩
    · rintro ⟨q, rfl, h⟩
      cases q with
      | nil => have := h.1; simp [nodeAt] at this
      | cons i q =>
        obtain ⟨k, h1, h2⟩ := errorAt_phrase.mp h
        exact ⟨i, k, q, by simp, h1, h2⟩

theorem mem_errorsFrom : ∀ (ks : List Tree) (pre : List Nat) (n : Nat) (p : List Nat) (e : ParseError),
    (p, e) ∈ errorsFrom pre n ks ↔ ∃ i k q, p = pre ++ (n + i) :: q ∧ ks[i]? = some k ∧ ErrorAt k q e
  | [], pre, n, p, e => by simp [errorsFrom]
  | k :: ks, pre, n, p, e => by
    simp only [errorsFrom, List.mem_append, mem_errorsOf k, mem_errorsFrom ks]
    constructor
    · rintro (⟨q, rfl, h⟩ | ⟨i, k', q, rfl, h1, h2⟩)
      · exact ⟨0, k, q, by simp, rfl, h⟩
      · exact ⟨i + 1, k', q, by simp; omega, by simpa using h1, h2⟩
    · rintro ⟨i, k', q, rfl, h1, h2⟩
      cases i with
      | zero =>
        simp only [List.getElem?_cons_zero, Option.some.injEq] at h1
        subst h1
        exact .inl ⟨q, by simp, h2⟩
      | succ i => exact .inr ⟨i, k', q, by simp; omega, by simpa using h1, h2⟩

end

theorem lex_append (pre : List Nat) {p q : List Nat} (h : List.Lex (· < ·) p q) :
    List.Lex (· < ·) (pre ++ p) (pre ++ q) := by
  induction pre with
  | nil => exact h
  | cons a pre ih => exact .cons ih

mutual

theorem errorsOf_sorted : ∀ (t : Tree) (pre : List Nat),
    ((errorsOf pre t).map Prod.fst).Pairwise (List.Lex (· < ·))
  | .token _, _ => by simp [errorsOf]
  | .error _, _ => by simp [errorsOf]
  | .phrase true _, _ => by simp [errorsOf]
  | .phrase false kids, pre => by simpa [errorsOf] using errorsFrom_sorted kids pre 0

theorem errorsFrom_sorted : ∀ (ks : List Tree) (pre : List Nat) (n : Nat),
    ((errorsFrom pre n ks).map Prod.fst).Pairwise (List.Lex (· < ·))
  | [], _, _ => by simp [errorsFrom]
  | k :: ks, pre, n => by
    simp only [errorsFrom, List.map_append, List.pairwise_append]
    refine ⟨errorsOf_sorted k _, errorsFrom_sorted ks pre (n + 1), ?_⟩
    intro p hp q hq
    simp only [List.mem_map, Prod.exists, exists_and_right, exists_eq_right] at hp hq
    obtain ⟨e, hp⟩ := hp
    obtain ⟨e', hq⟩ := hq
    obtain ⟨p', rfl, -⟩ := (mem_errorsOf _ _ _ _).mp hp
    obtain ⟨i, k', q', rfl, -⟩ := (mem_errorsFrom _ _ _ _ _).mp hq
    rw [List.append_assoc]
    exact lex_append pre (.rel (by omega))

end

/-! ### the property -/

/-- C121: the marks for syntax errors. Each error of the document outside of doc comments has one mark, and there are no
other marks. They are in the order of the text. Each is where the skipped text is, or the token that was not expected if
nothing was skipped, and says which token was not expected and which one was. -/
theorem C121_errors (posAt : Nat → Pos) (root : Tree) (ds : List Diagnostic)
    (h : parserDiagnostics posAt root = some ds) :
    ∃ ps : List (List Nat), ps.Pairwise (List.Lex (· < ·)) ∧ (∀ p, p ∈ ps ↔ ∃ e, ErrorAt root p e) ∧
      List.Forall₂ (fun p d => ∃ e, ErrorAt root p e ∧ Covers posAt e d.range ∧ Says e d.message ∧ d.severity = .error)
        ps ds := by
  refine ⟨(errorsOf [] root).map Prod.fst, errorsOf_sorted root [], fun p => ?_, ?_⟩
  · simp only [List.mem_map, Prod.exists, exists_and_right, exists_eq_right, mem_errorsOf, List.nil_append]
    constructor
    · rintro ⟨e, q, rfl, h⟩; exact ⟨e, h⟩
    · rintro ⟨e, h⟩; exact ⟨e, p, rfl, h⟩
  · rw [parserDiagnostics, traverse_eq posAt root []] at h
    have hc : collect posAt (errorsOf [] root) = some ds := by
      cases hc : collect posAt (errorsOf [] root) with
      | none => rw [hc] at h; cases h
      | some a => rw [hc] at h; simpa using h
    have hm : ∀ x ∈ errorsOf [] root, ErrorAt root x.1 x.2 := by
      intro x hx
      obtain ⟨q, h1, h2⟩ := (mem_errorsOf _ _ _ _).mp hx
      rw [h1]
      exact h2
    revert hm hc
    generalize errorsOf [] root = es
    intro hc hm
    clear h
    induction es generalizing ds with
    | nil => simp only [collect, Option.some.injEq] at hc; subst hc; exact .nil
    | cons x es ih =>
      obtain ⟨p, e⟩ := x
      simp only [collect] at hc
      cases hd : errorDiagnostic posAt e with
      | none => rw [hd] at hc; simp at hc
      | some d =>
        cases hr : collect posAt es with
        | none => rw [hd, hr] at hc; simp at hc
        | some a =>
          rw [hd, hr] at hc
          simp only [Option.some.injEq] at hc
          subst hc
          refine .cons ?_ (ih a hr fun x hx => hm x (List.mem_cons_of_mem _ hx))
          simp only [errorDiagnostic, Option.map_eq_some_iff] at hd
          obtain ⟨r, h1, rfl⟩ := hd
          exact ⟨e, hm (p, e) List.mem_cons_self, covers_of h1, says_of e, rfl⟩

/-- C121: marking fails (the server panics) exactly if one of these errors has no place: something other than a token was
skipped first or last, or nothing was skipped and there is no token that was not expected. -/
theorem C121_fails_iff (posAt : Nat → Pos) (root : Tree) :
    parserDiagnostics posAt root = none ↔ ∃ p e, ErrorAt root p e ∧ ¬ Placed e := by
  rw [parserDiagnostics, traverse_eq posAt root [], Option.map_eq_none_iff]
  have : (∃ p e, ErrorAt root p e ∧ ¬ Placed e) ↔ ∃ x ∈ errorsOf [] root, ¬ Placed x.2 := by
    constructor
    · rintro ⟨p, e, h1, h2⟩
      exact ⟨(p, e), (mem_errorsOf _ _ _ _).mpr ⟨p, rfl, h1⟩, h2⟩
    · rintro ⟨x, hx, h⟩
      obtain ⟨q, -, h2⟩ := (mem_errorsOf _ _ _ _).mp hx
      exact ⟨q, x.2, h2, h⟩
  rw [this]
  generalize errorsOf [] root = es
  induction es with
  | nil => simp [collect]
  | cons x es ih =>
    obtain ⟨p, e⟩ := x
    refine Iff.trans ?_ (List.exists_mem_cons_iff ..).symm
    refine Iff.trans ?_ (or_congr (errorRange_none (posAt := posAt)) ih)
    simp only [collect, errorDiagnostic]
    cases errorRange posAt e with
    | none => simp
    | some r => cases collect posAt es <;> simp

/-! ### examples -/

/-- `<?php f(; /** @x ( */ $a = 1`: an unexpected `;`, an error in a doc comment, two skipped tokens, a missing `;`. -/
def broken : Tree :=
  .phrase false [.token ⟨b!"OpenTag", 0, 6⟩,
    .phrase false [.token ⟨b!"Name", 6, 1⟩, .error ⟨some ⟨b!"Semicolon", 8, 1⟩, some b!"CloseParenthesis", []⟩],
    .phrase true [.error ⟨some ⟨b!"OpenParenthesis", 17, 1⟩, none, []⟩],
    .phrase false [.error ⟨none, some b!"Semicolon", [.token ⟨b!"VariableName", 22, 2⟩, .phrase, .token ⟨b!"Equals", 25, 1⟩]⟩]]

example : parserDiagnostics (fun n => ⟨0, n⟩) broken = some
    [⟨⟨⟨0, 8⟩, ⟨0, 9⟩⟩, b!"Unexpected Semicolon. Expected CloseParenthesis.", .error⟩,
      ⟨⟨⟨0, 22⟩, ⟨0, 26⟩⟩, b!"Expected Semicolon.", .error⟩] := by decide +kernel

example : ErrorAt broken [1, 1] ⟨some ⟨b!"Semicolon", 8, 1⟩, some b!"CloseParenthesis", []⟩ := by
  refine ⟨rfl, fun q hq kids h => ?_⟩
  obtain ⟨r, hr⟩ := hq
  rcases q with _ | ⟨a, _ | ⟨b, _ | ⟨c, q⟩⟩⟩
  · simp [nodeAt, broken] at h
  · simp only [List.cons_append, List.nil_append, List.cons.injEq] at hr
    obtain ⟨rfl, -⟩ := hr
    simp [nodeAt, broken] at h
  · simp only [List.cons_append, List.nil_append, List.cons.injEq] at hr
    obtain ⟨rfl, rfl, -⟩ := hr
    simp [nodeAt, broken] at h
  · simp at hr

/-- An error without a token stops the server. -/
theorem C121_needs_placed : ∃ root, parserDiagnostics (fun n => ⟨0, n⟩) root = none :=
  ⟨.phrase false [.error ⟨none, some b!"Semicolon", []⟩], by decide +kernel⟩

end Verif.Marks
