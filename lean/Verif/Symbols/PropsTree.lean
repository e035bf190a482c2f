import Verif.Symbols.Tree
import Verif.Common.Tactics

/-! C44: traversals of the tree of symbols. -/

namespace Verif.Symbols
variable {σ α : Type}

theorem Trav.new_stop : Trav.new.shouldStop = false := rfl

mutual
/-- The paths below a symbol whose own path is `pre`, itself first. -/
def pathsOf (pre : Path) : Tree α → List Path
  | .node _ kids => pre :: pathsFrom pre 0 kids

def pathsFrom (pre : Path) (i : Nat) : List (Tree α) → List Path
  | [] => []
  | s :: ss => pathsOf (pre ++ [i]) s ++ pathsFrom pre (i + 1) ss
end

mutual
theorem pathsOf_prefix (pre : Path) : ∀ (s : Tree α) (p : Path), p ∈ pathsOf pre s → pre <+: p
  | .node a kids => by
    intro p hp
    simp only [pathsOf, List.mem_cons] at hp
    rcases hp with rfl | hp
    · exact List.prefix_refl _
    · obtain ⟨j, _, h⟩ := pathsFrom_prefix pre 0 kids p hp
      exact List.IsPrefix.trans (List.prefix_append _ _) h
theorem pathsFrom_prefix (pre : Path) (i : Nat) : ∀ (ss : List (Tree α)) (p : Path), p ∈ pathsFrom pre i ss →
    ∃ j, i ≤ j ∧ (pre ++ [j]) <+: p
  | [] => by intro p hp; simp [pathsFrom] at hp
  | s :: ss => by
    intro p hp
    simp only [pathsFrom, List.mem_append] at hp
    rcases hp with hp | hp
    · exact ⟨i, Nat.le_refl _, pathsOf_prefix _ s p hp⟩
    · obtain ⟨j, h1, h2⟩ := pathsFrom_prefix pre (i + 1) ss p hp
      exact ⟨j, by omega, h2⟩
end

theorem prefix_snoc_inj {pre p : Path} {i j : Nat} (h1 : (pre ++ [i]) <+: p) (h2 : (pre ++ [j]) <+: p) : i = j := by
  obtain ⟨a, rfl⟩ := h1
  obtain ⟨b, hb⟩ := h2
  simp only [List.append_assoc, List.append_cancel_left_eq, List.singleton_append, List.cons.injEq] at hb
  exact hb.1.symm

theorem spineAt_snoc (ts : List (Tree α)) (pre : Path) (i : Nat) :
    ∀ sp s k, spineAt ts pre = some (sp ++ [s]) → s.kids[i]? = some k →
      spineAt ts (pre ++ [i]) = some (sp ++ [s] ++ [k]) := by
  induction pre generalizing ts with
  | nil => intro sp s k h; simp [spineAt] at h
  | cons j pre ih =>
    intro sp s k h hk
    simp only [spineAt, List.cons_append] at h ⊢
    cases hj : ts[j]? with
    | none => simp [hj] at h
    | some t =>
      simp only [hj, Option.map_eq_some_iff] at h ⊢
      obtain ⟨l, hl, he⟩ := h
      cases sp with
      | nil =>
        simp only [List.nil_append, List.cons.injEq] at he
        obtain ⟨rfl, rfl⟩ := he
        cases pre with
        | nil => simp [spineAt, hk]
        | cons a pre =>
          exfalso
          simp only [spineAt] at hl
          split at hl
          · simp at hl
          · simp only [Option.map_eq_some_iff] at hl
            obtain ⟨_, _, h⟩ := hl
            simp at h
      | cons t' sp =>
        simp only [List.cons_append, List.cons.injEq] at he
        obtain ⟨rfl, rfl⟩ := he
        exact ⟨_, ih t.kids sp s k hl hk, by simp⟩

theorem visitAll_skip (fn : Visitor σ α) (ts : List (Tree α)) (refused : List Path) (x : σ) (rest : List Path) :
    ∀ ps : List Path, (∀ p ∈ ps, ∃ r ∈ refused, r <+: p) →
      visitAll fn ts refused x (ps ++ rest) = visitAll fn ts refused x rest
  | [], _ => rfl
  | p :: ps, h => by
    have hp : refused.any (fun r => r.isPrefixOf p) = true := by
      obtain ⟨r, hr, hrp⟩ := h p (by simp)
      exact List.any_eq_true.mpr ⟨r, hr, List.isPrefixOf_iff_prefix.mpr hrp⟩
    simp only [List.cons_append, visitAll, hp, if_true]
    exact visitAll_skip fn ts refused x rest ps (fun q hq => h q (List.mem_cons_of_mem _ hq))

mutual
theorem visit_block (fn : Visitor σ α) (ts : List (Tree α)) (rest : List Path) :
    ∀ (s : Tree α) (pre : Path) (spine : List (Tree α)) (refused : List Path) (x : σ),
      spineAt ts pre = some (spine ++ [s]) → (∀ r ∈ refused, ∀ q, pre <+: q → ¬ r <+: q) →
      ((traverseBlock fn spine x .new s).2.shouldStop = true ∧
        visitAll fn ts refused x (pathsOf pre s ++ rest) = (traverseBlock fn spine x .new s).1) ∨
      ((traverseBlock fn spine x .new s).2 = .new ∧ ∃ refused' : List Path,
        (∀ r ∈ refused', r ∈ refused ∨ pre <+: r) ∧
        visitAll fn ts refused x (pathsOf pre s ++ rest)
          = visitAll fn ts refused' (traverseBlock fn spine x .new s).1 rest)
  | .node a kids, pre, spine, refused, x, hs, hR => by
    have hp : refused.any (fun r => r.isPrefixOf pre) = false := by
      rw [List.any_eq_false]
      intro r hr h
      exact hR r hr pre (List.prefix_refl _) (List.isPrefixOf_iff_prefix.mp h)
    simp only [traverseBlock, pathsOf, List.cons_append, visitAll, hp, hs, Option.getD_some, if_false, Bool.false_eq_true]
    generalize fn x Trav.new (spine ++ [.node a kids]) = r
    by_cases h1 : r.2.shouldStop = true
    · left; simp [h1]
    · simp only [h1, if_false, Bool.false_eq_true]
      have h1' : r.2.shouldStop = false := by simpa using h1
      by_cases h2 : r.2.stopDescent = true
      · right
        simp only [h2, Bool.not_true, Bool.false_eq_true, if_false, if_true]
        refine ⟨by rw [h1']; rfl, pre :: refused, ?_, ?_⟩
        · intro q hq
          rcases List.mem_cons.mp hq with rfl | hq
          · exact .inr (List.prefix_refl _)
          · exact .inl hq
        · refine visitAll_skip fn ts _ _ rest _ (fun q hq => ⟨pre, by simp, ?_⟩)
          obtain ⟨j, _, h⟩ := pathsFrom_prefix pre 0 kids q hq
          exact List.IsPrefix.trans (List.prefix_append _ _) h
      · have h2' : r.2.stopDescent = false := by simpa using h2
        have hnew : r.2 = Trav.new := by
          cases hr2 : r.2 with
          | mk u v => simp only [hr2] at h1' h2'; simp [h1', h2', Trav.new]
        simp only [h2, Bool.not_false, if_true, Bool.false_eq_true, if_false, hnew]
        have hk : ∀ j k, kids[j]? = some k → spineAt ts (pre ++ [0 + j]) = some (spine ++ [.node a kids] ++ [k]) := by
          intro j k hj
          rw [Nat.zero_add]
          exact spineAt_snoc ts pre j spine (.node a kids) k hs hj
        rcases visit_all fn ts rest kids pre 0 (spine ++ [.node a kids]) refused r.1 hk
          (fun q hq p j hj hp => hR q hq p (List.IsPrefix.trans (List.prefix_append _ _) hp)) with ⟨h3, h4⟩ | ⟨h3, rf, h4, h5⟩
        · left; exact ⟨h3, h4⟩
        · right
          refine ⟨by show (⟨(traverseAll fn (spine ++ [.node a kids]) r.1 Trav.new kids).2.shouldStop, false⟩ : Trav) = Trav.new; rw [h3]; rfl, rf, ?_, h5⟩
          intro q hq
          rcases h4 q hq with h | ⟨j, _, h⟩
          · exact .inl h
          · exact .inr (List.IsPrefix.trans (List.prefix_append _ _) h)

theorem visit_all (fn : Visitor σ α) (ts : List (Tree α)) (rest : List Path) :
    ∀ (ss : List (Tree α)) (pre : Path) (i : Nat) (spine : List (Tree α)) (refused : List Path) (x : σ),
      (∀ j k, ss[j]? = some k → spineAt ts (pre ++ [i + j]) = some (spine ++ [k])) →
      (∀ r ∈ refused, ∀ q j, i ≤ j → (pre ++ [j]) <+: q → ¬ r <+: q) →
      ((traverseAll fn spine x .new ss).2.shouldStop = true ∧
        visitAll fn ts refused x (pathsFrom pre i ss ++ rest) = (traverseAll fn spine x .new ss).1) ∨
      ((traverseAll fn spine x .new ss).2 = .new ∧ ∃ refused' : List Path,
        (∀ r ∈ refused', r ∈ refused ∨ ∃ j, i ≤ j ∧ (pre ++ [j]) <+: r) ∧
        visitAll fn ts refused x (pathsFrom pre i ss ++ rest)
          = visitAll fn ts refused' (traverseAll fn spine x .new ss).1 rest)
  | [], pre, i, spine, refused, x, hs, hR => by
    right
    exact ⟨rfl, refused, fun r hr => .inl hr, rfl⟩
  | s :: ss, pre, i, spine, refused, x, hs, hR => by
    simp only [traverseAll, pathsFrom, List.append_assoc]
    have h0 := hs 0 s rfl
    rcases visit_block fn ts (pathsFrom pre (i + 1) ss ++ rest) s (pre ++ [i]) spine refused x h0
      (fun r hr q hq => hR r hr q i (Nat.le_refl _) hq) with ⟨h1, h2⟩ | ⟨h1, rf, h2, h3⟩
    · left; simp only [h1, if_true]; exact ⟨trivial, h2⟩
    · simp only [h1, Trav.new_stop, Bool.false_eq_true, if_false]
      have := visit_all fn ts rest ss pre (i + 1) spine rf (traverseBlock fn spine x .new s).1
        (fun j k hj => by have := hs (j + 1) k hj; rw [← this]; congr 3; omega)
        (by
          intro r hr q j hj hq hrq
          rcases h2 r hr with h | h
          · exact hR r h q j (by omega) hq hrq
          · have := prefix_snoc_inj (List.IsPrefix.trans h hrq) hq
            omega)
      rcases this with ⟨h4, h5⟩ | ⟨h4, rf', h5, h6⟩
      · left; exact ⟨h4, h3.trans h5⟩
      · right
        refine ⟨h4, rf', ?_, h3.trans h6⟩
        intro r hr
        rcases h5 r hr with h | ⟨j, hj, h⟩
        · rcases h2 r h with h | h
          · exact .inl h
          · exact .inr ⟨i, Nat.le_refl _, h⟩
        · exact .inr ⟨j, by omega, h⟩
end

/-! the list of all paths -/

theorem lex_append_left (pre : Path) {p q : Path} (h : List.Lex (· < ·) p q) : List.Lex (· < ·) (pre ++ p) (pre ++ q) := by
  induction pre with
  | nil => exact h
  | cons a pre ih => exact .cons ih

mutual
theorem pathsOf_sorted (pre : Path) : ∀ s : Tree α, InOrder (pathsOf pre s)
  | .node a kids => by
    simp only [pathsOf, InOrder, List.pairwise_cons]
    refine ⟨fun q hq => ?_, pathsFrom_sorted pre 0 kids⟩
    obtain ⟨j, _, ⟨c, rfl⟩⟩ := pathsFrom_prefix pre 0 kids q hq
    have := lex_append_left pre (List.Lex.nil (r := (· < ·)) (a := j) (l := c))
    simpa using this
theorem pathsFrom_sorted (pre : Path) : ∀ (i : Nat) (ss : List (Tree α)), InOrder (pathsFrom pre i ss)
  | _, [] => by simp [pathsFrom, InOrder]
  | i, s :: ss => by
    simp only [pathsFrom, InOrder, List.pairwise_append]
    refine ⟨pathsOf_sorted _ s, pathsFrom_sorted pre (i + 1) ss, fun p hp q hq => ?_⟩
    obtain ⟨c, rfl⟩ := pathsOf_prefix _ s p hp
    obtain ⟨j, hj, ⟨d, rfl⟩⟩ := pathsFrom_prefix pre (i + 1) ss q hq
    have := lex_append_left pre (List.Lex.rel (r := (· < ·)) (show i < j by omega) (l₁ := c) (l₂ := d))
    simpa using this
end

mutual
theorem mem_pathsOf (pre : Path) : ∀ (s : Tree α) (q : Path), pre ++ q ∈ pathsOf pre s ↔ spineAt s.kids q ≠ none
  | .node a kids, [] => by simp [pathsOf, spineAt]
  | .node a kids, i :: q => by
    have := mem_pathsFrom pre kids 0 i q
    simp only [pathsOf, List.mem_cons, Tree.kids]
    rw [← this]
    constructor
    · rintro (h | h)
      · simp at h
      · simpa using h
    · intro h; right; simpa using h
theorem mem_pathsFrom (pre : Path) : ∀ (ss : List (Tree α)) (k i : Nat) (q : Path),
    pre ++ (k + i) :: q ∈ pathsFrom pre k ss ↔ spineAt ss (i :: q) ≠ none
  | [], k, i, q => by simp [pathsFrom, spineAt]
  | s :: ss, k, 0, q => by
    have h := mem_pathsOf (pre ++ [k]) s q
    simp only [pathsFrom, List.mem_append, spineAt, List.getElem?_cons_zero]
    rw [show pre ++ (k + 0) :: q = (pre ++ [k]) ++ q by simp, h]
    constructor
    · rintro (h | h)
      · simpa using h
      · obtain ⟨j, hj, h⟩ := pathsFrom_prefix _ _ _ _ h
        have := prefix_snoc_inj h (List.prefix_append (pre ++ [k]) q)
        omega
    · intro h; left; simpa using h
  | s :: ss, k, i + 1, q => by
    have h := mem_pathsFrom pre ss (k + 1) i q
    simp only [pathsFrom, List.mem_append]
    rw [show spineAt (s :: ss) ((i + 1) :: q) = spineAt ss (i :: q) by simp [spineAt], ← h,
      show k + (i + 1) = k + 1 + i by omega]
    constructor
    · rintro (h | h)
      · have h1 := pathsOf_prefix _ _ _ h
        have := prefix_snoc_inj h1 (p := pre ++ (k + 1 + i) :: q) (j := k + 1 + i) ⟨q, by simp⟩
        omega
      · exact h
    · exact .inr
end

theorem mem_paths (ts : List (Tree α)) (p : Path) : p ∈ pathsFrom [] 0 ts ↔ Valid ts p := by
  cases p with
  | nil =>
    simp only [Valid, ne_eq, not_true, false_and, iff_false]
    intro h
    obtain ⟨j, _, h⟩ := pathsFrom_prefix _ _ _ _ h
    simp at h
  | cons i q =>
    have := mem_pathsFrom [] ts 0 i q
    simp only [List.nil_append, Nat.zero_add] at this
    simp [Valid, this]

/-- C44. Whatever the document and the visitor, the traversal visits the symbols in the order of their paths, each
of them once and with the symbols above it as spine, except that nothing below a symbol for which the visitor
refused descent is visited, and nothing at all after the visitor stopped. -/
theorem C44_traversal {σ α : Type} (fn : Visitor σ α) (x : σ) (doc : List (Tree α)) :
    ∃ ps : List Path, InOrder ps ∧ (∀ p, p ∈ ps ↔ Valid doc p) ∧
      traverseDocument fn x doc = visitAll fn doc [] x ps := by
  refine ⟨pathsFrom [] 0 doc, pathsFrom_sorted _ _ _, mem_paths doc, ?_⟩
  have := visit_all fn doc [] doc [] 0 [] [] x
    (fun j k hj => by simp [spineAt, hj]) (by simp)
  simp only [List.append_nil] at this
  rcases this with ⟨_, h⟩ | ⟨_, rf, _, h⟩
  · exact h.symm
  · rw [traverseDocument, h]; rfl

/-- The list of paths in `C44_traversal` is determined by the document. -/
theorem C44_order_unique (ps qs : List Path) (h1 : InOrder ps) (h2 : InOrder qs) (h : ∀ p, p ∈ ps ↔ p ∈ qs) :
    ps = qs := by
  have hirr : ∀ p : Path, ¬ List.Lex (· < ·) p p := by
    intro p
    induction p with
    | nil => intro h; cases h
    | cons a p ih => intro h; cases h with
      | cons h => exact ih h
      | rel h => exact absurd h (Nat.lt_irrefl _)
  have hasym : ∀ p q : Path, List.Lex (· < ·) p q → ¬ List.Lex (· < ·) q p := by
    intro p q h1
    induction h1 with
    | nil => intro h; cases h
    | cons _ ih => intro h; cases h with
      | cons h => exact ih h
      | rel h => exact absurd h (Nat.lt_irrefl _)
    | rel h => intro h'; cases h' with
      | cons h'' => exact absurd h (Nat.lt_irrefl _)
      | rel h'' => exact absurd h (Nat.lt_asymm h'')
  induction ps generalizing qs with
  | nil => cases qs with
    | nil => rfl
    | cons q qs => exact absurd ((h q).mpr (by simp)) (by simp)
  | cons p ps ih => cases qs with
    | nil => exact absurd ((h p).mp (by simp)) (by simp)
    | cons q qs =>
      obtain ⟨h1a, h1b⟩ := List.pairwise_cons.mp h1
      obtain ⟨h2a, h2b⟩ := List.pairwise_cons.mp h2
      have hpq : p = q := by
        rcases List.mem_cons.mp ((h p).mp (by simp)) with h3 | h3
        · exact h3
        rcases List.mem_cons.mp ((h q).mpr (by simp)) with h4 | h4
        · exact h4.symm
        exact absurd (h1a q h4) (hasym _ _ (h2a p h3))
      subst hpq
      congr 1
      refine ih qs h1b h2b (fun r => ?_)
      constructor
      · intro hr
        rcases List.mem_cons.mp ((h r).mp (List.mem_cons_of_mem _ hr)) with h3 | h3
        · subst h3; exact absurd (h1a _ hr) (hirr _)
        · exact h3
      · intro hr
        rcases List.mem_cons.mp ((h r).mpr (List.mem_cons_of_mem _ hr)) with h3 | h3
        · subst h3; exact absurd (h2a _ hr) (hirr _)
        · exact h3

/-- An example document: two symbols, the first with two children of which the first has a child. -/
def exDoc : List (Tree Nat) := [.node 1 [.node 2 [.node 3 []], .node 4 []], .node 5 []]

/-- A visitor that notes what it sees, refuses to go below the symbols in `no` and stops at `last`. -/
def exVisitor (no : List Nat) (last : Nat) : Visitor (List (List Nat)) Nat := fun x t spine =>
  (x ++ [spine.map Tree.info],
    ⟨t.shouldStop || (spine.map Tree.info).getLast? == some last,
      t.stopDescent || no.any (fun n => (spine.map Tree.info).getLast? == some n)⟩)

/-- Non-vacuity: a traversal that is complete, one that leaves out a subtree and one that stops. -/
example : traverseDocument (exVisitor [] 9) [] exDoc = [[1], [1, 2], [1, 2, 3], [1, 4], [5]]
    ∧ traverseDocument (exVisitor [2] 9) [] exDoc = [[1], [1, 2], [1, 4], [5]]
    ∧ traverseDocument (exVisitor [2] 4) [] exDoc = [[1], [1, 2], [1, 4]]
    ∧ traverseDocument (exVisitor [1] 9) [] exDoc = [[1], [5]]
    ∧ (spineAt exDoc [0, 0, 0]).isSome ∧ (spineAt exDoc [0, 2]).isNone := by decide +kernel

/-! ### pre- and postorder -/

/-- What `traverseSymbols` calls for one document, with the path of the symbol. -/
inductive Call where
  | before (p : Path)
  | after (p : Path)
  deriving DecidableEq, Repr

/-- Make the calls. -/
def callAll (pre post : σ → Tree α → σ) (ts : List (Tree α)) (x : σ) : List Call → σ
  | [] => x
  | .before p :: cs =>
    match (spineAt ts p).bind List.getLast? with
    | some s => callAll pre post ts (pre x s) cs
    | none => callAll pre post ts x cs
  | .after p :: cs =>
    match (spineAt ts p).bind List.getLast? with
    | some s => callAll pre post ts (post x s) cs
    | none => callAll pre post ts x cs

/-- The path a call is made for. -/
def Call.path : Call → Path
  | .before p => p
  | .after p => p

mutual
def callsOf (p : Path) : Tree α → List Call
  | .node _ kids => .before p :: (callsFrom p 0 kids ++ [.after p])
def callsFrom (p : Path) (i : Nat) : List (Tree α) → List Call
  | [] => []
  | s :: ss => callsOf (p ++ [i]) s ++ callsFrom p (i + 1) ss
end

theorem callAll_append (pre post : σ → Tree α → σ) (ts : List (Tree α)) (cs ds : List Call) (x : σ) :
    callAll pre post ts x (cs ++ ds) = callAll pre post ts (callAll pre post ts x cs) ds := by
  induction cs generalizing x with
  | nil => rfl
  | cons c cs ih =>
    cases c <;> simp only [List.cons_append, callAll] <;> split <;> exact ih _

mutual
theorem calls_block (pre post : σ → Tree α → σ) (ts : List (Tree α)) :
    ∀ (s : Tree α) (p : Path) (spine : List (Tree α)) (x : σ), spineAt ts p = some (spine ++ [s]) →
      callAll pre post ts x (callsOf p s) = traverseSymbol pre post x s
  | .node a kids, p, spine, x, hs => by
    have hl : (spineAt ts p).bind List.getLast? = some (.node a kids) := by simp [hs]
    simp only [callsOf, callAll, hl, traverseSymbol, callAll_append]
    rw [calls_all pre post ts kids p 0 (spine ++ [.node a kids]) _
      (fun j k hj => by rw [Nat.zero_add]; exact spineAt_snoc ts p j spine (.node a kids) k hs hj)]
theorem calls_all (pre post : σ → Tree α → σ) (ts : List (Tree α)) :
    ∀ (ss : List (Tree α)) (p : Path) (i : Nat) (spine : List (Tree α)) (x : σ),
      (∀ j k, ss[j]? = some k → spineAt ts (p ++ [i + j]) = some (spine ++ [k])) →
      callAll pre post ts x (callsFrom p i ss) = traverseSymbols pre post x ss
  | [], p, i, spine, x, hs => rfl
  | s :: ss, p, i, spine, x, hs => by
    simp only [callsFrom, traverseSymbols, callAll_append]
    rw [calls_block pre post ts s (p ++ [i]) spine x (hs 0 s rfl),
      calls_all pre post ts ss p (i + 1) spine _
        (fun j k hj => by have := hs (j + 1) k hj; rw [← this]; congr 3; omega)]
end

/-- The calls of one kind. -/
def befores : List Call → List Path
  | [] => []
  | .before p :: cs => p :: befores cs
  | .after _ :: cs => befores cs

theorem befores_append (cs ds : List Call) : befores (cs ++ ds) = befores cs ++ befores ds := by
  induction cs with
  | nil => rfl
  | cons c cs ih => cases c <;> simp [befores, ih]

mutual
theorem befores_callsOf (p : Path) : ∀ s : Tree α, befores (callsOf p s) = pathsOf p s
  | .node a kids => by
    simp only [callsOf, befores, befores_append, pathsOf, befores_callsFrom p 0 kids, List.append_nil]
theorem befores_callsFrom (p : Path) : ∀ (i : Nat) (ss : List (Tree α)), befores (callsFrom p i ss) = pathsFrom p i ss
  | _, [] => rfl
  | i, s :: ss => by
    simp only [callsFrom, befores_append, pathsFrom, befores_callsOf, befores_callsFrom]
end

mutual
theorem callsOf_prefix (p : Path) : ∀ (s : Tree α) (c : Call), c ∈ callsOf p s → p <+: c.path
  | .node a kids, c, h => by
    simp only [callsOf, List.mem_cons, List.mem_append, List.not_mem_nil, or_false] at h
    rcases h with rfl | h | rfl
    · exact List.prefix_refl _
    · obtain ⟨j, _, h⟩ := callsFrom_prefix p 0 kids c h
      exact List.IsPrefix.trans (List.prefix_append _ _) h
    · exact List.prefix_refl _
theorem callsFrom_prefix (p : Path) : ∀ (i : Nat) (ss : List (Tree α)) (c : Call), c ∈ callsFrom p i ss →
    ∃ j, i ≤ j ∧ (p ++ [j]) <+: c.path
  | _, [], c, h => by simp [callsFrom] at h
  | i, s :: ss, c, h => by
    simp only [callsFrom, List.mem_append] at h
    rcases h with h | h
    · exact ⟨i, Nat.le_refl _, callsOf_prefix _ s c h⟩
    · obtain ⟨j, h1, h2⟩ := callsFrom_prefix p (i + 1) ss c h
      exact ⟨j, by omega, h2⟩
end

/-- Around the calls for the symbols strictly below `p`, and nothing else, come the calls for `p`. -/
def Bracketed (cs : List Call) (p : Path) : Prop :=
  ∃ a b c, cs = a ++ .before p :: (b ++ .after p :: c) ∧ (∀ k ∈ b, p <+: k.path ∧ k.path ≠ p) ∧
    (∀ k ∈ a, ¬ p <+: k.path) ∧ (∀ k ∈ c, ¬ p <+: k.path)

mutual
theorem bracketed_block (p : Path) : ∀ (s : Tree α) (q : Path), q ∈ pathsOf p s → Bracketed (callsOf p s) q
  | .node a kids, q, h => by
    simp only [pathsOf, List.mem_cons] at h
    rcases h with rfl | h
    · refine ⟨[], callsFrom q 0 kids, [], rfl, fun k hk => ?_, by simp, by simp⟩
      obtain ⟨j, _, ⟨c, hc⟩⟩ := callsFrom_prefix q 0 kids k hk
      refine ⟨⟨j :: c, by rw [← hc]; simp⟩, fun he => ?_⟩
      have := congrArg List.length (hc.trans he)
      simp at this
    · obtain ⟨u, v, w, h1, h2, h3, h4⟩ := bracketed_all p 0 kids q h
      have hq : ¬ q <+: p := by
        obtain ⟨j, _, ⟨c, hc⟩⟩ := pathsFrom_prefix p 0 kids q h
        intro hqp
        have := hqp.length_le
        rw [← hc] at this
        simp only [List.length_append, List.length_cons, List.length_nil] at this
        omega
      refine ⟨.before p :: u, v, w ++ [.after p], by simp [callsOf, h1], h2, ?_, ?_⟩
      · intro k hk
        rcases List.mem_cons.mp hk with rfl | hk
        · exact hq
        · exact h3 k hk
      · intro k hk
        rcases List.mem_append.mp hk with hk | hk
        · exact h4 k hk
        · rw [List.mem_singleton.mp hk]; exact hq
theorem bracketed_all (p : Path) : ∀ (i : Nat) (ss : List (Tree α)) (q : Path), q ∈ pathsFrom p i ss →
    Bracketed (callsFrom p i ss) q
  | _, [], q, h => by simp [pathsFrom] at h
  | i, s :: ss, q, h => by
    simp only [pathsFrom, List.mem_append] at h
    rcases h with h | h
    · obtain ⟨u, v, w, h1, h2, h3, h4⟩ := bracketed_block (p ++ [i]) s q h
      refine ⟨u, v, w ++ callsFrom p (i + 1) ss, by simp [callsFrom, h1], h2, h3, fun k hk => ?_⟩
      rcases List.mem_append.mp hk with hk | hk
      · exact h4 k hk
      · obtain ⟨j, hj, hjk⟩ := callsFrom_prefix p (i + 1) ss k hk
        intro hqk
        have := prefix_snoc_inj (List.IsPrefix.trans (pathsOf_prefix _ s q h) hqk) hjk
        omega
    · obtain ⟨u, v, w, h1, h2, h3, h4⟩ := bracketed_all p (i + 1) ss q h
      refine ⟨callsOf (p ++ [i]) s ++ u, v, w, by simp [callsFrom, h1], h2, fun k hk => ?_, h4⟩
      rcases List.mem_append.mp hk with hk | hk
      · obtain ⟨j, hj, hjq⟩ := pathsFrom_prefix p (i + 1) ss q h
        intro hqk
        have := prefix_snoc_inj (callsOf_prefix _ s k hk) (List.IsPrefix.trans hjq hqk)
        omega
      · exact h3 k hk
end

theorem mem_befores {cs : List Call} {p : Path} : p ∈ befores cs ↔ Call.before p ∈ cs := by
  induction cs with
  | nil => simp [befores]
  | cons c cs ih => cases c <;> simp [befores, ih]

mutual
theorem after_mem_callsOf (p : Path) : ∀ (s : Tree α) (q : Path), Call.after q ∈ callsOf p s → q ∈ pathsOf p s
  | .node a kids, q, h => by
    simp only [callsOf, List.mem_cons, List.mem_append, List.not_mem_nil, or_false, reduceCtorEq, false_or,
      Call.after.injEq] at h
    rcases h with h | rfl
    · exact List.mem_cons_of_mem _ (after_mem_callsFrom p 0 kids q h)
    · simp [pathsOf]
theorem after_mem_callsFrom (p : Path) : ∀ (i : Nat) (ss : List (Tree α)) (q : Path),
    Call.after q ∈ callsFrom p i ss → q ∈ pathsFrom p i ss
  | _, [], q, h => by simp [callsFrom] at h
  | i, s :: ss, q, h => by
    simp only [callsFrom, List.mem_append, pathsFrom] at h ⊢
    rcases h with h | h
    · exact .inl (after_mem_callsOf _ s q h)
    · exact .inr (after_mem_callsFrom p (i + 1) ss q h)
end

/-- C44. The traversal with a function to call before and one to call after the children: the calls before come in
the order of the text, one for each symbol, and for each symbol the calls between its two calls are exactly the
calls for the symbols below it. -/
theorem C44_pre_post {σ α : Type} (pre post : σ → Tree α → σ) (x : σ) (doc : List (Tree α)) :
    ∃ cs : List Call, InOrder (befores cs) ∧ (∀ c ∈ cs, Valid doc c.path) ∧ (∀ p, Valid doc p → Bracketed cs p) ∧
      traverseSymbols pre post x doc = callAll pre post doc x cs := by
  refine ⟨callsFrom [] 0 doc, ?_, fun c hc => ?_, fun p hp => ?_, ?_⟩
  · rw [befores_callsFrom]; exact pathsFrom_sorted _ _ _
  · rw [← mem_paths]
    cases c with
    | before p => rw [← befores_callsFrom]; exact mem_befores.mpr hc
    | after p => exact after_mem_callsFrom _ _ _ _ hc
  · exact bracketed_all _ _ _ _ ((mem_paths doc p).mpr hp)
  · exact (calls_all pre post doc doc [] 0 [] x (fun j k hj => by simp [spineAt, hj])).symm

/-- Non-vacuity: the calls for the example. -/
example : traverseSymbols (fun x s => x ++ [(true, s.info)]) (fun x s => x ++ [(false, s.info)]) [] exDoc
    = [(true, 1), (true, 2), (true, 3), (false, 3), (false, 2), (true, 4), (false, 4), (false, 1), (true, 5), (false, 5)] := by
  decide +kernel

end Verif.Symbols
