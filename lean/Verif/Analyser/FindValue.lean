import Verif.Analyser.FindExpr

/-!
The constructors for expressions with values, and the table of constructors.
-/

namespace Verif.Analyser
open Verif.Symbols (Tree Var Rec)

variable {c : Ctx} {u : Bool} {e : Env} {x : Fact}

/-- One step of a loop finds something. -/
theorem each_has {f : Item → St → St} {ks : List Item} (hg : ∀ k ∈ ks, ∀ st, StayIn e st (f k st)) {k : Item} (hk : k ∈ ks)
    (hf : ∀ st, Agree e st → (f k st).Has x) {st : St} (ha : Agree e st) : (each f ks st).Has x := by
  unfold each
  induction ks generalizing st with
  | nil => simp at hk
  | cons k' ks ih =>
    rw [List.foldl_cons]
    rcases List.mem_cons.mp hk with rfl | hk
    · have h2 : StayIn e (f k st) (each f ks (f k st)) :=
        PreOrder.each ⟨Within.refl, Within.trans⟩ (fun k' hk' st' => hg k' (by simp [hk']) st') _
      exact (hf st ha).within h2
    · exact ih (fun k hk => hg k (by simp [hk])) hk (ha.within (hg k' (by simp) st))

/-- A loop has what one of its steps adds. -/
theorem each_adds {f : Item → St → St} {ks : List Item} (hg : ∀ k ∈ ks, ∀ st, st.Has x → (f k st).Has x) {k : Item} (hk : k ∈ ks)
    (hf : ∀ st, (f k st).Has x) (st : St) : (each f ks st).Has x := by
  have keep : ∀ (ks : List Item), (∀ k ∈ ks, ∀ st, st.Has x → (f k st).Has x) → ∀ st, st.Has x →
      (each f ks st).Has x := by
    intro ks
    induction ks with
    | nil => exact fun _ _ h => h
    | cons k ks ih => exact fun hg st h => ih (fun k hk => hg k (by simp [hk])) _ (hg k (by simp) st h)
  induction ks generalizing st with
  | nil => simp at hk
  | cons k' ks ih =>
    show (each f ks (f k' st)).Has x
    rcases List.mem_cons.mp hk with rfl | hk
    · exact keep ks (fun k hk => hg k (by simp [hk])) _ (hf st)
    · exact ih (fun k hk => hg k (by simp [hk])) hk _

/-- Only what a phrase itself uses is there, if there is nothing in its children. -/
theorem uses_only {ty : PType} {ks : List Node} (hs : silents c u ks = true) (ho : own c false e ty ks = [])
    (hx : x ∈ facts c u e (.phr ty ks)) : x ∈ usesOf c ty ks := by
  rw [facts, factsOf_silent hs] at hx
  simp only [ite_self, List.append_nil] at hx
  unfold own at hx ho
  dsimp only at hx ho
  rw [if_neg (by simp), List.nil_append] at ho
  rw [ho, List.append_nil] at hx
  split at hx
  · exact hx
  · cases hx

/-- Only expressions are found by `scanForExpression`. -/
theorem expr_other {ty : PType} {ks : List Node} (h : isExprType ty = false) (st : St) :
    (Item.of c (.phr ty ks)).expr st = (st, false) := by
  have h1 : construct c (.mk (.phr ty ks) id (fun st => (st, false)) (Item.ofKids c ks)) st = (st, .nil) := by
    unfold construct Item.type? Item.node
    dsimp only
    cases ty <;> first | rfl | simp [isExprType] at h
  rw [Item.of]
  show scanForExpression c _ st = _
  unfold scanForExpression
  rw [h1]

theorem no_phr {ks : List Node} (h : (ks.filter Node.isPhr).length = 0) :
    factsOf c u e ks = [] := by
  rw [List.eq_nil_iff_forall_not_mem]
  intro x hx
  have := mem_facts_filter hx
  rw [List.length_eq_zero_iff.mp h] at this
  simp [factsOf] at this

/-! ### new -/

theorem find_variables {d : Bool} {ks : List Node} (hd : ∀ k ∈ ks, Deep c u k) (hf : ks.all (only c u [.simpleVariable]) = true)
    {st : St} (ha : Agree e st) (hx : x ∈ factsOf c u e ks) :
    (each (fun k st => if k.type? = some .simpleVariable then newVariable c d k.node st else st)
      (ks.map (Item.of c)) st).Has x := by
  refine seq (fun k hk st => ((stay_pre e).ite fun ht => (hst c e).newVariable (σ := ()) _ trivial (ClosedOn.variable_of_type ht) st).toWithin) (fun k hk st ha hx => ?_) ha hx
  have ht := only_one hx (List.all_eq_true.mp hf k hk)
  rw [if_pos ((type_iff c k _).mpr ht), of_node]
  exact find_variable (hd k hk) ht ha hx

theorem find_objectCreation {n : Item} {ty : PType} {ks : List Node} (p : Parts c u e n ty ks)
    (hf : ks.all (only c u [.classTypeDesignator, .argumentExpressionList, .anonymousClassDeclaration]) = true)
    {st : St} (ha : Agree e st) (hx : x ∈ factsOf c u e ks) : (newClassTypeDesignator c n st).1.Has x := by
  unfold newClassTypeDesignator
  dsimp only
  rw [p.kids]
  refine seq (fun k hk st => ?_) (fun k hk st ha hx => ?_) ha hx
  · have H := hst c e
    have hg := (p.calm k hk).good (c := c)
    refine Grow.toWithin (C := e.cls = none) (N := False) ?_
    split
    · exact (stay_pre e).trans (Grow.add _ _) (H.designatorParts hg.kids _)
    · next ht => exact H.newArgumentList hg ht st
    · exact (Within.popBlock (hg.run _).toWithin).1 (hg.run (st.pushBlock _)).kept
    · exact (stay_pre e).refl st
  · obtain ⟨ty', ht, ms, rfl⟩ := find_only hx (List.all_eq_true.mp hf k hk)
    simp only [List.mem_cons, List.not_mem_nil, or_false] at ht
    rw [of_type]
    rcases ht with rfl | rfl | rfl
    · dsimp only
      obtain ⟨_, _, e1, _, hf', hd'⟩ := (p.deep _ hk).inv hx
      cases e1
      unfold designatorParts
      rw [of_kids]
      refine find_variables hd' (by simpa [fine, isExprType] using hf') ?_
        (facts_inside hx (by simp [own, usesOf]) (by simp [Env.enter]))
      exact ha.stay (Grow.add _ _)
    · exact find_argumentsOf (p.deep _ hk) (p.calm _ hk) (by simp [Node.isPhrase]) ha hx
    · dsimp only
      have hw : StayIn e (st.pushBlock ⟨.designator, c.range (Item.of c (.phr .anonymousClassDeclaration ms)).node, [], []⟩) _ :=
        ((p.calm _ hk).good (c := c)).run _ |>.toWithin
      refine has_block hw ?_
      exact (p.deep _ hk).run (by simp [place, PType.runs]) (p.calm _ hk) (ha.pushBlock _) hx

/-! ### parentheses and clone -/

theorem find_derivedLoop {ks : List Node} (later : List Item) (hd : ∀ k ∈ ks, Deep c u k) (hc : ∀ k ∈ ks, Calm e k)
    (hv : ks.all (value c u) = true)
    (h1 : (ks.filter Node.isPhr).length ≤ 1)
    {st : St} (ha : Agree e st) (hx : x ∈ factsOf c u e ks) :
    (derivedLoop (ks.map (Item.of c)) later st).1.Has x ∨
      ∃ k ∈ ks, Item.of c k ∈ (derivedLoop (ks.map (Item.of c)) later st).2 ∧ place c u k = true ∧ x ∈ facts c u e k := by
  induction ks generalizing later st with
  | nil => simp [factsOf] at hx
  | cons k ks ih =>
    rw [List.map_cons]
    rw [factsOf, List.mem_append] at hx
    have hd' : ∀ k ∈ ks, Deep c u k := fun k hk => hd k (by simp [hk])
    have hc' : ∀ k ∈ ks, Calm e k := fun k hk => hc k (by simp [hk])
    rw [List.all_cons, Bool.and_eq_true] at hv
    have other : ∀ (t : Item.type? (Item.of c k) = none), (∀ ty ms, k ≠ .phr ty ms) →
        (derivedLoop (Item.of c k :: ks.map (Item.of c)) later st).1.Has x ∨
          ∃ k' ∈ k :: ks, Item.of c k' ∈ (derivedLoop (Item.of c k :: ks.map (Item.of c)) later st).2 ∧ place c u k' = true ∧
            x ∈ facts c u e k' := by
      intro t hk
      unfold derivedLoop
      rw [t]
      dsimp only
      have hx' : x ∈ factsOf c u e ks := by
        rcases hx with hx | hx
        · obtain ⟨ty, ms, rfl⟩ := facts_phr hx
          exact absurd rfl (hk ty ms)
        · exact hx
      have h1' : (ks.filter Node.isPhr).length ≤ 1 := by
        cases k with
        | phr ty ms => exact absurd rfl (hk ty ms)
        | tok t => rwa [List.filter_cons_of_neg (by simp [Node.isPhr])] at h1
        | err t => rwa [List.filter_cons_of_neg (by simp [Node.isPhr])] at h1
      rcases ih (later ++ [Item.of c k]) hd' hc' hv.2 h1' ha hx' with h | ⟨k', h2, h3⟩
      · exact Or.inl h
      · exact Or.inr ⟨k', List.mem_cons_of_mem _ h2, h3⟩
    cases k with
    | tok t => exact other (by simp [Item.type?, of_node]) (by simp)
    | err t => exact other (by simp [Item.type?, of_node]) (by simp)
    | phr ty ms =>
      have h0 : factsOf c u e ks = [] := by
        refine no_phr ?_
        rw [List.filter_cons_of_pos (by rfl)] at h1
        simpa using h1
      rw [h0] at hx
      have hx' : x ∈ facts c u e (.phr ty ms) := by simpa using hx
      obtain ⟨_, _, e1, hr, hp, ho⟩ := value_cases hv.1 hx'
      cases e1
      have hgs : ∀ k ∈ ks.map (Item.of c), Good (e.cls = none) False (Stay e) k := by
        intro k hk
        obtain ⟨k', hk', rfl⟩ := List.mem_map.mp hk
        exact (hc' k' hk').good
      unfold derivedLoop
      rw [of_type]
      dsimp only
      by_cases he : isExprType ty = true
      · have h2 := (hd _ (by simp)).expr (ho he) (hc _ (by simp)) ha hx'
        left
        split
        · exact h2
        · exact h2.grow (derivedKeeps hgs _ _)
      · rw [expr_other (by simpa using he), if_neg he]
        dsimp only
        rw [if_neg (by simp)]
        right
        exact ⟨_, by simp, derivedLoop_mem _ _ _ _ (by simp), hp, hx'⟩
where
  derivedKeeps {ks : List Item} (h : ∀ k ∈ ks, Good (e.cls = none) False (Stay e) k) (later : List Item) (st : St) :
      Stay e st (derivedLoop ks later st).1 := by
    induction ks generalizing later st with
    | nil => exact Grow.refl st
    | cons k ks ih =>
      have h' : ∀ k ∈ ks, Good (e.cls = none) False (Stay e) k := fun k hk => h k (by simp [hk])
      unfold derivedLoop
      split
      · dsimp only
        split
        · exact (h k (by simp)).expr st
        · exact ((h k (by simp)).expr st).trans (ih h' _ _)
      · exact ih h' _ _
  derivedLoop_mem (ks later : List Item) (st : St) (k : Item) (hk : k ∈ later) : k ∈ (derivedLoop ks later st).2 := by
    induction ks generalizing later st with
    | nil => exact hk
    | cons k' ks ih =>
      unfold derivedLoop
      split
      · dsimp only
        have : ∀ {p : Prop} [Decidable p], k ∈ (if p then later else later ++ [k']) := by
          intro p _
          split
          · exact hk
          · simp [hk]
        split
        · exact this
        · exact ih _ _ this
      · exact ih _ _ (by simp [hk])

theorem find_derived {n : Item} {ty : PType} {ks : List Node} (p : Parts c u e n ty ks) (hv : ks.all (value c u) = true)
    (h1 : (ks.filter Node.isPhr).length ≤ 1)
    {st : St} (ha : Agree e st) (hx : x ∈ factsOf c u e ks) : (newDerivedExpression c n st).1.Has x := by
  obtain ⟨g1, g2⟩ := (hst c e).derivedLoop n.kids [] p.good.kids (by simp) (st.pushBlock ⟨.derived, c.range n.node, [], []⟩)
  have g3 := (stay_pre e).each (fun k hk => (g2 k hk).run) (derivedLoop n.kids [] (st.pushBlock ⟨.derived, c.range n.node, [], []⟩)).1
  unfold newDerivedExpression
  dsimp only
  refine has_block (g1.trans g3).toWithin ?_
  rw [p.kids] at g1 g2 g3 ⊢
  rcases find_derivedLoop [] p.deep p.calm hv h1 (ha.pushBlock ⟨.derived, c.range n.node, [], []⟩) hx with h | ⟨k, h2, h3, h4, h5⟩
  · exact h.grow g3
  · refine each_has (fun k hk st => ((g2 k hk).run st).toWithin) h3 (fun st ha => (p.deep k h2).run h4 (p.calm k h2) ha h5)
      ((ha.pushBlock _).stay g1)

/-! ### foreach -/

theorem find_foreach {n : Item} {ty : PType} {ks : List Node} (p : Parts c u e n ty ks)
    (hf : ks.all (only c u [.foreachCollection, .foreachValue, .compoundStatement, .statementList]) = true)
    {st : St} (ha : Agree e st) (hx : x ∈ factsOf c u e ks) : (analyseForeach c n st).1.Has x := by
  unfold analyseForeach
  dsimp only
  rw [p.kids]
  refine seq (fun k hk st => ?_) (fun k hk st ha hx => ?_) ha hx
  · have H := hst c e
    have hg := (p.calm k hk).good (c := c)
    refine Grow.toWithin (C := e.cls = none) (N := False) ?_
    split
    · exact (stay_pre e).each (fun x hx st => (stay_pre e).ite fun _ => (hg.kids x hx).expr st) st
    · exact (stay_pre e).each (fun x _ st => (stay_pre e).ite fun ht => H.newVariable (σ := ()) _ trivial (ClosedOn.variable_of_type ht) st) st
    · exact H.scanForChildren hg.kids st
    · exact H.scanForChildren hg.kids st
    · exact (stay_pre e).refl st
  · obtain ⟨ty', ht, ms, rfl⟩ := find_only hx (List.all_eq_true.mp hf k hk)
    simp only [List.mem_cons, List.not_mem_nil, or_false] at ht
    rw [of_type]
    obtain ⟨_, _, e1, _, hf', hd'⟩ := (p.deep _ hk).inv hx
    cases e1
    have pk := Parts.of hd' (p.calm _ hk)
    rcases ht with rfl | rfl | rfl | rfl
    · dsimp only
      rw [of_kids]
      have hf' : ms.all (operand c u) = true := by simpa [fine, isExprType] using hf'
      refine seq (fun k hk st => ((stay_pre e).ite fun _ => ((pk.calm k hk).good).expr st).toWithin) (fun k hk st ha hx => ?_) ha
        (facts_inside hx (by simp [own, usesOf]) (by simp [Env.enter]))
      obtain ⟨ty2, ms2, rfl⟩ := facts_phr hx
      rw [if_pos (by simp [Item.isPhr, of_type])]
      exact (pk.deep _ hk).expr (List.all_eq_true.mp hf' _ hk) (pk.calm _ hk) ha hx
    · dsimp only
      rw [of_kids]
      exact find_variables hd' (by simpa [fine, isExprType] using hf') ha (facts_inside hx (by simp [own, usesOf]) (by simp [Env.enter]))
    · exact find_children pk (by simpa [fine, isExprType] using hf') ha (facts_inside hx (by simp [own, usesOf]) (by simp [Env.enter]))
    · exact find_children pk (by simpa [fine, isExprType] using hf') ha (facts_inside hx (by simp [own, usesOf]) (by simp [Env.enter]))

/-! ### assignments -/

theorem skipTok_map (ty : TokType) (ks : List Node) :
    skipTok ty (ks.map (Item.of c)) =
      (ks.dropWhile (Node.isTok ty)).map (Item.of c) := by
  induction ks with
  | nil => rfl
  | cons k ks ih =>
    rw [List.map_cons, skipTok, List.dropWhile_cons]
    cases k with
    | tok t =>
      have e1 : (Item.of c (.tok t)).tok? = some t := by simp [Item.tok?, of_node]
      rw [e1]
      by_cases ht : t.type = ty
      · simp [ht, ih, Node.isTok]
      · simp [ht, Node.isTok]
    | err t =>
      have e1 : (Item.of c (.err t)).tok? = none := by simp [Item.tok?, of_node]
      rw [e1]; simp [Node.isTok]
    | phr ty' ms =>
      have e1 : (Item.of c (.phr ty' ms)).tok? = none := by simp [Item.tok?, of_node]
      rw [e1]; simp [Node.isTok]

theorem facts_dropWhile (ty : TokType) {ks : List Node} (hx : x ∈ factsOf c u e ks) :
    x ∈ factsOf c u e (ks.dropWhile (Node.isTok ty)) := by
  induction ks with
  | nil => exact hx
  | cons k ks ih =>
    rw [List.dropWhile_cons]
    split
    · refine ih ?_
      rw [factsOf, List.mem_append] at hx
      rcases hx with hx | hx
      · obtain ⟨ty', ms, rfl⟩ := facts_phr hx
        simp [Node.isTok] at *
      · exact hx
    · exact hx

theorem facts_strip : ∀ (tys : List TokType) {ks : List Node}, x ∈ factsOf c u e ks → x ∈ factsOf c u e (strip tys ks)
  | [], _, h => h
  | ty :: tys, _, h => facts_strip tys (facts_dropWhile ty h)

theorem strip_mem : ∀ (tys : List TokType) {ks : List Node} {k : Node}, k ∈ strip tys ks → k ∈ ks
  | [], _, _, h => h
  | ty :: tys, ks, k, h => (List.dropWhile_sublist _).subset (strip_mem tys h)

/-- The value after tokens. -/
theorem oneValue_inv {tys : List TokType} {ks : List Node} (h : oneValue c u tys ks = true) (hx : x ∈ factsOf c u e ks) :
    ∃ k more, strip tys ks = k :: more ∧ k ∈ ks ∧ value c u k = true ∧ x ∈ facts c u e k := by
  have h1 := facts_strip tys hx
  unfold oneValue at h
  cases hs : strip tys ks with
  | nil => rw [hs] at h1; simp [factsOf] at h1
  | cons k more =>
    rw [hs] at h h1
    dsimp only at h
    rw [Bool.and_eq_true] at h
    rw [factsOf, factsOf_silent h.2, List.append_nil] at h1
    exact ⟨k, more, rfl, strip_mem tys (by rw [hs]; simp), h.1, h1⟩

theorem find_variableAssignment {n : Item} {ty : PType} {k : Node} {ks : List Node} (p : Parts c u e n ty (k :: ks))
    (hk : k.isPhrase .simpleVariable = true) (h1 : silents c u (ks.take 1) = true)
    (h2 : oneValue c u ([.whitespace, if ty = .compoundAssignmentExpression then .dotEquals else .equals, .whitespace] ++
      if ty = .byRefAssignmentExpression then [.ampersand, .whitespace] else []) (ks.drop 1) = true)
    {st : St} (ha : Agree e st) (hx : x ∈ factsOf c u e (k :: ks)) :
    (analyseVariableAssignment c n (Item.of c k) (ks.map (Item.of c)) st).Has x := by
  have H := hst c e
  unfold analyseVariableAssignment
  have es : (let ks' := skipTok .whitespace ((ks.map (Item.of c)).drop 1)
      let ks' := skipTok (if n.type? = some .compoundAssignmentExpression then TokType.dotEquals else .equals) ks'
      let ks' := skipTok .whitespace ks'
      if n.type? = some .byRefAssignmentExpression then skipTok .whitespace (skipTok .ampersand ks') else ks') =
      (strip ([.whitespace, if ty = .compoundAssignmentExpression then .dotEquals else .equals, .whitespace] ++
      if ty = .byRefAssignmentExpression then [.ampersand, .whitespace] else []) (ks.drop 1)).map (Item.of c) := by
    dsimp only
    rw [p.type, ← List.map_drop]
    simp only [Option.some.injEq]
    by_cases hb : ty = .byRefAssignmentExpression
    · rw [if_pos hb, if_pos hb]
      simp only [skipTok_map, strip, List.cons_append, List.nil_append]
    · rw [if_neg hb, if_neg hb]
      simp only [skipTok_map, strip, List.append_nil]
  dsimp only at es ⊢
  rw [es]
  have h3 : Stay e st (st.add (symOf c .variable (Item.of c k).node)) := .add _ _
  rw [factsOf, List.mem_append] at hx
  rcases hx with hx | hx
  · have hrec : ∀ st' : St, Agree e st' → (st'.record (c.nodeText (Item.of c k).node) (c.range (Item.of c k).node) (c.range n.node).stop true).Has x := by
      intro st' ha'
      obtain ⟨ty', ms, rfl, _, hf, _⟩ := (p.deep k (by simp)).inv hx
      simp only [Node.isPhrase, decide_eq_true_eq] at hk
      subst hk
      have hs : silents c u ms = true := by
        simp only [fine, Bool.and_eq_true] at hf
        exact hf.2
      rw [facts, factsOf_silent hs] at hx
      simp only [own, usesOf, ite_self, List.append_nil, List.nil_append, List.mem_singleton] at hx
      subst hx
      rw [of_node, ← ha'.scope]
      exact has_record ..
    split
    · exact hrec _ (ha.stay h3)
    · next rhs more e1 =>
      have hr : Good (e.cls = none) False (Stay e) rhs := by
        have hm : rhs ∈ (strip ([.whitespace, if ty = .compoundAssignmentExpression then TokType.dotEquals else .equals, .whitespace] ++
          if ty = .byRefAssignmentExpression then [TokType.ampersand, .whitespace] else []) (ks.drop 1)).map (Item.of c) := by
          rw [e1]; simp [Node.isTok]
        obtain ⟨k', hk', rfl⟩ := List.mem_map.mp hm
        exact (p.calm k' (List.mem_cons_of_mem _ (List.mem_of_mem_drop (strip_mem _ hk')))).good
      split
      · exact (hrec _ (ha.stay h3)).grow (hr.run _)
      · have h4 := hrec _ ((ha.stay h3).stay (hr.expr _))
        split
        · exact h4
        · split
          · exact h4
          · exact h4.grow (hr.run _)
  · have hx' : x ∈ factsOf c u e (ks.drop 1) := by
      rw [← List.take_append_drop 1 ks, mem_factsOf] at hx
      obtain ⟨k', hk', hx⟩ := hx
      rcases List.mem_append.mp hk' with hk' | hk'
      · rw [facts_silent (silents_iff.mp h1 k' hk')] at hx
        cases hx
      · exact mem_factsOf.mpr ⟨k', hk', hx⟩
    obtain ⟨v, more, e1, hm, hv, hxv⟩ := oneValue_inv h2 hx'
    rw [e1, List.map_cons]
    dsimp only
    obtain ⟨tv, ms, rfl, _, hp, ho⟩ := value_cases hv hxv
    have hm' : Node.phr tv ms ∈ k :: ks := List.mem_cons_of_mem _ (List.mem_of_mem_drop hm)
    rw [of_type]
    dsimp only
    by_cases he : isExprType tv = true
    · have h4 := (p.deep _ hm').expr (ho he) (p.calm _ hm') (ha.stay h3) hxv
      have h5 := h4.grow (Grow.record (C := e.cls = none) (N := False) _ (c.nodeText (Item.of c k).node) (c.range (Item.of c k).node) (c.range n.node).stop true)
      rw [if_pos he]
      split
      · exact h5
      · exact h5
    · rw [if_neg he, expr_other (by simpa using he)]
      dsimp only
      rw [if_neg (by simp)]
      exact (p.deep _ hm').run hp (p.calm _ hm') ((ha.stay h3).stay (Grow.record ..)) hxv

theorem find_propertyAssignment {k : Node} {ks : List Node} (hd : ∀ k' ∈ k :: ks, Deep c u k') (hc : ∀ k' ∈ k :: ks, Calm e k')
    (hk : k.isPhrase .propertyAccessExpression = true) (h2 : oneValue c u [.whitespace, .equals, .whitespace] ks = true)
    {st : St} (ha : Agree e st) (hx : x ∈ factsOf c u e (k :: ks)) :
    (processPropertyAssignment (Item.of c k) (ks.map (Item.of c)) st).Has x := by
  have hgs : ∀ k' ∈ ks.map (Item.of c), Good (e.cls = none) False (Stay e) k' := by
    intro k' hk'
    obtain ⟨k2, hk2, rfl⟩ := List.mem_map.mp hk'
    exact (hc k2 (by simp [hk2])).good
  have h0 : Stay e st ((Item.of c k).expr st).1 := (hc k (by simp)).good.expr st
  unfold processPropertyAssignment
  have es : skipTok .whitespace (skipTok .equals (skipTok .whitespace (ks.map (Item.of c)))) =
      (strip [.whitespace, .equals, .whitespace] ks).map (Item.of c) := by
    simp only [skipTok_map, strip]
  dsimp only
  rw [factsOf, List.mem_append] at hx
  rcases hx with hx | hx
  · have ho : operand c u k = true := by
      obtain ⟨ty, ms, rfl⟩ := facts_phr hx
      simp only [Node.isPhrase, decide_eq_true_eq] at hk
      subst hk
      simp [operand, isExprType]
    have h1 := (hd k (by simp)).expr ho (hc k (by simp)) ha hx
    split
    · exact h1
    · next rhs more e1 =>
      have hr := hgs rhs (ClosedOn.skipTok_mem3 e1)
      split
      · split
        · exact h1.grow (hr.expr _)
        · exact (h1.grow (hr.expr _)).grow (hr.run _)
      · exact h1.grow (hr.run _)
  · obtain ⟨v, more, e1, hm, hv, hxv⟩ := oneValue_inv h2 hx
    rw [es, e1, List.map_cons]
    dsimp only
    obtain ⟨tv, ms, rfl, _, hp, ho⟩ := value_cases hv hxv
    have hm' : Node.phr tv ms ∈ k :: ks := List.mem_cons_of_mem _ hm
    rw [if_pos (by simp [Item.isPhr, of_type])]
    by_cases he : isExprType tv = true
    · have h4 := (hd _ hm').expr (ho he) (hc _ hm') (ha.stay h0) hxv
      split
      · exact h4
      · exact h4.grow ((hc _ hm').good.run _)
    · rw [expr_other (by simpa using he)]
      dsimp only
      rw [if_neg (by simp)]
      exact (hd _ hm').run hp (hc _ hm') (ha.stay h0) hxv

theorem find_assignment {n : Item} {ty : PType} {ks : List Node} (p : Parts c u e n ty ks)
    (hf : assignFine c u ty ks = true)
    {st : St} (ha : Agree e st) (hx : x ∈ factsOf c u e ks) : (newAssignment c n st).1.Has x := by
  unfold newAssignment
  rw [p.kids]
  cases ks with
  | nil => simp [factsOf] at hx
  | cons k ks =>
    rw [List.map_cons]
    rw [assignFine] at hf
    dsimp only
    by_cases hv : k.isPhrase .simpleVariable = true
    · rw [if_pos hv, Bool.and_eq_true] at hf
      rw [if_pos ((type_iff c k _).mpr hv)]
      exact find_variableAssignment p hv hf.1 hf.2 ha hx
    · rw [if_neg hv, Bool.and_eq_true] at hf
      rw [if_neg (by rw [type_iff]; exact hv)]
      split
      · next h =>
        have hp := (type_iff c k _).mp h.1
        rw [hp, Bool.not_true, Bool.false_or] at hf
        exact find_propertyAssignment p.deep p.calm hp hf.2 ha hx
      · dsimp only
        have hpl := List.all_eq_true.mp hf.1
        rw [factsOf, List.mem_append] at hx
        have hgs : ∀ st, Stay e st (each Item.run (ks.map (Item.of c)) st) := by
          refine fun st => (stay_pre e).each (fun k' hk' st => ?_) st
          obtain ⟨k2, hk2, rfl⟩ := List.mem_map.mp hk'
          exact (p.calm k2 (by simp [hk2])).good.run st
        rcases hx with hx | hx
        · obtain ⟨ty', ms, rfl⟩ := facts_phr hx
          rw [if_pos (by simp [Item.isPhr, of_type])]
          exact ((p.deep _ (by simp)).run (hpl _ (by simp)) (p.calm _ (by simp)) ha hx).grow (hgs _)
        · refine seq (fun k hk st => ((p.calm k (by simp [hk])).good.run st).toWithin) (fun k hk st ha hx =>
            (p.deep k (by simp [hk])).run (hpl k (by simp [hk])) (p.calm k (by simp [hk])) ha hx) ?_ hx
          exact ha.stay ((stay_pre e).ite fun _ => (p.calm k (by simp)).good.run st)

theorem find_instanceOf {n : Item} {ty : PType} {ks : List Node} (p : Parts c u e n ty ks)
    (hf : instanceFine c u ks = true)
    {st : St} (ha : Agree e st) (hx : x ∈ factsOf c u e ks) : (processInstanceOf n st).1.Has x := by
  unfold processInstanceOf
  rw [p.kids]
  cases ks with
  | nil => simp [factsOf] at hx
  | cons k ks =>
    rw [List.map_cons]
    unfold instanceFine at hf
    dsimp only at hf ⊢
    split at hf
    · next ty1 ms1 ty2 ms2 more e1 =>
      rw [Bool.and_eq_true, Bool.and_eq_true] at hf
      have es : skipTok .whitespace (skipTok .instanceOf (skipTok .whitespace (ks.map (Item.of c)))) =
          (strip [.whitespace, .instanceOf, .whitespace] ks).map (Item.of c) := by
        simp only [skipTok_map, strip]
      rw [es, e1, List.map_cons]
      dsimp only
      rw [if_pos (by simp [Item.isPhr, of_type])]
      have hm : Node.phr ty2 ms2 ∈ Node.phr ty1 ms1 :: ks :=
        List.mem_cons_of_mem _ (strip_mem [.whitespace, .instanceOf, .whitespace] (by rw [e1]; simp))
      rw [factsOf, List.mem_append] at hx
      dsimp only
      rcases hx with hx | hx
      · exact ((p.deep _ (by simp)).expr hf.1.1 (p.calm _ (by simp)) ha hx).grow ((p.calm _ hm).good.expr _)
      · have h1 := facts_strip [.whitespace, .instanceOf, .whitespace] hx
        rw [e1, factsOf, factsOf_silent hf.2, List.append_nil] at h1
        exact (p.deep _ hm).expr hf.1.2 (p.calm _ hm) (ha.stay ((p.calm _ (by simp)).good.expr st)) h1
    · rw [factsOf_silent hf] at hx
      cases hx

/-! ### the table -/

theorem has_expression {n : Item} {st : St} (h : (construct c n st).1.Has x) : (scanForExpression c n st).1.Has x := by
  unfold scanForExpression
  split
  · next e1 => rw [e1] at h; exact h
  · next e1 => rw [e1] at h; exact h
  · next e1 => rw [e1] at h; exact h.grow (Grow.add (C := True) (N := True) _ _)

/-! ### calls and accesses -/

/-- The symbol that a constructor returns is added. -/
theorem has_fresh {n : Item} {st st' : St} {s : Sym} (h : construct c n st = (st', .fresh s)) :
    (scanForExpression c n st).1.Has (.sym s) := by
  unfold scanForExpression
  rw [h]
  exact has_add _ _

/-- The member name after spaces and `->`. -/
theorem skipArrow_member {ks : List Node} {ms more : List Node} (r : Rng)
    (h : ks.dropWhile Node.isArrowOrSpace = .phr .memberName ms :: more) :
    ∃ r', skipArrow c (ks.map (Item.of c)) r = (Item.of c (.phr .memberName ms) :: more.map (Item.of c), r') := by
  induction ks generalizing r with
  | nil => simp at h
  | cons k ks ih =>
    rw [List.map_cons]
    unfold skipArrow
    cases k with
    | tok t =>
      have e1 : (Item.of c (.tok t)).tok? = some t := by simp [Item.tok?, of_node]
      simp only [e1]
      by_cases hw : t.type = .whitespace
      · rw [if_pos hw]
        rw [List.dropWhile_cons_of_pos (by simp [Node.isArrowOrSpace, hw])] at h
        exact ih r h
      · rw [if_neg hw]
        by_cases ha : t.type = .arrow
        · rw [if_pos ha]
          rw [List.dropWhile_cons_of_pos (by simp [Node.isArrowOrSpace, ha])] at h
          exact ih _ h
        · rw [List.dropWhile_cons_of_neg (by simp [Node.isArrowOrSpace, hw, ha])] at h
          cases h
    | err t =>
      rw [List.dropWhile_cons_of_neg (by simp [Node.isArrowOrSpace])] at h
      cases h
    | phr ty ms' =>
      have e1 : (Item.of c (.phr ty ms')).tok? = none := by simp [Item.tok?, of_node]
      simp only [e1]
      rw [List.dropWhile_cons_of_neg (by simp [Node.isArrowOrSpace])] at h
      cases h
      exact ⟨r, rfl⟩

/-- One name among the parts of a member name. -/
theorem memberNameOf_one {ms : List Node} {t : Tok} (h : ms.filter Node.namesMember = [.tok t]) (name : Bytes) :
    memberNameOf c (ms.map (Item.of c)) name = (c.tokText t, none) := by
  have hnone : ∀ (ms : List Node) (name : Bytes), ms.filter Node.namesMember = [] →
      memberNameOf c (ms.map (Item.of c)) name = (name, none) := by
    intro ms
    induction ms with
    | nil => intro name _; rfl
    | cons k ks ih =>
      intro name h
      rw [List.filter_eq_nil_iff] at h
      have hk := h k (by simp)
      have hks := ih name (List.filter_eq_nil_iff.mpr fun a ha => h a (by simp [ha]))
      rw [List.map_cons]
      unfold memberNameOf
      have h1 : ¬ (Item.of c k).type? = some .simpleVariable := by
        rw [type_iff]
        cases k with
        | tok t => simp [Node.isPhrase]
        | err t => simp [Node.isPhrase]
        | phr ty ms => cases ty <;> simp [Node.isPhrase, Node.namesMember] at hk ⊢
      rw [if_neg h1]
      cases k with
      | tok t =>
        have e1 : (Item.of c (.tok t)).tok? = some t := by simp [Item.tok?, of_node]
        simp only [e1]
        have : t.type ≠ .name := by simpa [Node.namesMember] using hk
        rw [if_neg this]
        exact hks
      | err t =>
        have e1 : (Item.of c (.err t)).tok? = none := by simp [Item.tok?, of_node]
        simp only [e1]
        exact hks
      | phr ty ms =>
        have e1 : (Item.of c (.phr ty ms)).tok? = none := by simp [Item.tok?, of_node]
        simp only [e1]
        exact hks
  induction ms generalizing name with
  | nil => simp at h
  | cons k ks ih =>
    by_cases hk : k.namesMember = true
    · rw [List.filter_cons_of_pos hk] at h
      injection h with h1 h2
      subst h1
      rw [List.map_cons]
      unfold memberNameOf
      have e1 : (Item.of c (.tok t)).tok? = some t := by simp [Item.tok?, of_node]
      rw [if_neg (by rw [type_iff]; simp [Node.isPhrase])]
      simp only [e1]
      have : t.type = .name := by simpa [Node.namesMember] using hk
      rw [if_pos this]
      exact hnone ks _ h2
    · rw [List.filter_cons_of_neg hk] at h
      rw [List.map_cons]
      unfold memberNameOf
      have h1 : ¬ (Item.of c k).type? = some .simpleVariable := by
        rw [type_iff]
        cases k with
        | tok t => simp [Node.isPhrase]
        | err t => simp [Node.isPhrase]
        | phr ty ms => cases ty <;> simp [Node.isPhrase, Node.namesMember] at hk ⊢
      rw [if_neg h1]
      split
      · exact ih h _
      · exact ih h _

/-- The member that is read. -/
theorem readMemberName_use {kind : Kind} {ks : List Node} (hx : x ∈ memberUse c kind ks) (st : St) :
    x = .sym ⟨kind, (readMemberName c (ks.map (Item.of c)) st).2.2.2, (readMemberName c (ks.map (Item.of c)) st).2.2.1, []⟩ := by
  unfold memberUse at hx
  split at hx
  · next ms more e1 =>
    split at hx
    · next t e2 =>
      obtain ⟨r', h⟩ := skipArrow_member (c := c) zeroRng e1
      unfold readMemberName
      rw [h]
      dsimp only
      rw [if_pos (by rw [of_type]), of_kids]
      have e3 : memberNameOf c ((Node.phr .memberName ms).kids.map (Item.of c)) [] = (c.tokText t, none) := memberNameOf_one e2 []
      rw [e3]
      dsimp only
      rw [of_node]
      simpa using hx
    · simp at hx
  · simp at hx

/-- The member after `::`. -/
theorem scopedMember_use {kind : Kind} {ks : List Node} (hx : x ∈ scopedUse c kind ks) :
    x = .sym (scopedMember c kind (ks.map (Item.of c))) := by
  unfold scopedUse at hx
  split at hx
  · next ms more e1 =>
    have e2 : (ks.map (Item.of c))[2]? = some (Item.of c (.phr .scopedMemberName ms)) := by
      have : ks[2]? = (ks.drop 2)[0]? := by rw [List.getElem?_drop]
      rw [List.getElem?_map, this, e1]
      rfl
    unfold scopedMember
    rw [e2]
    dsimp only
    rw [of_node, if_pos (by rw [of_type])]
    simpa using hx
  · simp at hx

/-- The class before `::`. -/
theorem scopedClass_use {ks : List Node} (hx : x ∈ classUse c ks) (st : St) : (scopedClass c (ks.map (Item.of c)) st).Has x := by
  unfold classUse at hx
  split at hx
  · next ty ms more =>
    rw [List.mem_singleton] at hx
    subst hx
    rw [List.map_cons]
    unfold scopedClass
    dsimp only
    rw [if_pos (by simp [Item.isPhr, of_type])]
    unfold addClassAccess symOf
    rw [of_node]
    exact has_add _ _
  · simp at hx

/-- What is called or accessed by an expression is found. -/
theorem find_uses {n : Item} {ty : PType} {ks : List Node} (p : Parts c u e n ty ks) (he : isExprType ty = true)
    (hd : isDefineCall c ks = false) {st : St} (hx : x ∈ usesOf c ty ks) : (scanForExpression c n st).1.Has x := by
  have H := hst c e
  unfold usesOf at hx
  split at hx
  · rw [hd, if_neg (by simp)] at hx
    refine has_expression ?_
    unfold construct
    rw [p.type]
    dsimp only
    unfold newFunctionCall
    rw [p.kids]
    cases ks with
    | nil => simp at hx
    | cons k ks =>
      rw [List.map_cons]
      dsimp only
      simp only [List.head?_cons, Option.toList_some, List.map_cons, List.map_nil, List.mem_singleton] at hx
      subst hx
      have h1 : (st.add (symOf c .functionCall (Item.of c k).node)).Has (.sym ⟨.functionCall, c.range k, c.nodeText k, []⟩) := by
        rw [of_node]
        exact has_add _ _
      have hgk := (p.calm k (by simp)).good (c := c)
      have hgo := H.firstArguments (ks := Item.of c k :: ks.map (Item.of c))
        (fun k' hk' => p.good.kids k' (by rw [p.kids, List.map_cons]; exact hk'))
      refine St.Has.grow ?_ (hgo _)
      split
      · exact h1.grow (hgk.expr _)
      · exact h1
  · refine has_expression ?_
    unfold construct
    rw [p.type]
    dsimp only
    unfold newScopedMethodAccess
    dsimp only
    refine St.Has.grow ?_ (H.firstArguments (fun k hk => p.good.kids k (List.mem_of_mem_drop hk)) _)
    rw [p.kids]
    rcases List.mem_append.mp hx with hx | hx
    · exact (scopedClass_use hx st).grow (Grow.add (C := e.cls = none) (N := False) _ _)
    · rw [scopedMember_use hx]
      exact has_add _ _
  · rcases List.mem_append.mp hx with hx | hx
    · refine has_expression ?_
      unfold construct
      rw [p.type]
      dsimp only
      unfold newScopedAccess
      dsimp only
      rw [p.kids]
      exact scopedClass_use hx st
    · rw [scopedMember_use hx, ← p.kids]
      refine has_fresh (st' := scopedClass c n.kids st) ?_
      unfold construct
      rw [p.type]
      rfl
  · rcases List.mem_append.mp hx with hx | hx
    · refine has_expression ?_
      unfold construct
      rw [p.type]
      dsimp only
      unfold newScopedAccess
      dsimp only
      rw [p.kids]
      exact scopedClass_use hx st
    · rw [scopedMember_use hx, ← p.kids]
      refine has_fresh (st' := scopedClass c n.kids st) ?_
      unfold construct
      rw [p.type]
      rfl
  · refine has_expression ?_
    unfold construct
    rw [p.type]
    dsimp only
    unfold newMethodAccess
    dsimp only
    refine St.Has.grow (C := e.cls = none) (N := False) ?_ ((stay_pre e).each (fun k hk st => (stay_pre e).ite fun ht =>
      H.newArgumentList (p.good.kids k (List.mem_of_mem_drop (ClosedOn.readMemberName_mem _ _ k hk))) ht st) _)
    rw [p.kids, ← List.map_drop]
    rw [readMemberName_use hx (memberScope (ks.map (Item.of c)) st)]
    exact has_add _ _
  · rw [readMemberName_use hx (memberScope (ks.map (Item.of c)) st)]
    refine has_fresh (st' := (readMemberName c ((ks.drop 1).map (Item.of c)) (memberScope (ks.map (Item.of c)) st)).1) ?_
    unfold construct
    rw [p.type]
    dsimp only
    unfold newPropertyAccess
    rw [p.kids, ← List.map_drop]
  · obtain ⟨k, hk, rfl⟩ := List.mem_map.mp hx
    obtain ⟨hk, ht⟩ := List.mem_filter.mp hk
    refine has_expression ?_
    unfold construct
    rw [p.type]
    dsimp only
    unfold newClassTypeDesignator
    dsimp only
    rw [p.kids]
    generalize hg : (fun (k : Item) (st : St) => match k.type? with
      | some .classTypeDesignator => designatorParts c k (st.add ⟨.designator, c.range k.node, [], []⟩)
      | some .argumentExpressionList => newArgumentList c k st
      | some .anonymousClassDeclaration => (k.run (st.pushBlock ⟨.designator, c.range k.node, [], []⟩)).popBlock
      | _ => st) = g
    have hstep : ∀ k ∈ ks, ∀ st, StayIn e st (g (Item.of c k) st) := by
      intro k hk st
      subst hg
      have hg := (p.calm k hk).good (c := c)
      refine Grow.toWithin (C := e.cls = none) (N := False) ?_
      dsimp only
      split
      · exact (stay_pre e).trans (Grow.add _ _) (H.designatorParts hg.kids _)
      · next ht => exact H.newArgumentList hg ht st
      · exact (Within.popBlock (hg.run _).toWithin).1 (hg.run (st.pushBlock _)).kept
      · exact (stay_pre e).refl st
    have hone : ∀ st, (g (Item.of c k) st).Has (.sym ⟨.designator, c.range k, [], []⟩) := by
      intro st
      subst hg
      dsimp only
      rw [(type_iff c k _).mpr ht]
      dsimp only
      rw [of_node]
      exact (show (st.add ⟨.designator, c.range k, [], []⟩).Has _ from has_add _ _).grow
        (H.designatorParts ((p.calm k hk).good (c := c)).kids _)
    clear hg hx
    have : ∀ (ks : List Node), k ∈ ks → (∀ k ∈ ks, ∀ st, StayIn e st (g (Item.of c k) st)) → ∀ st,
        (each g (ks.map (Item.of c)) st).Has (.sym ⟨.designator, c.range k, [], []⟩) := by
      intro ks
      induction ks with
      | nil => intro hk; simp at hk
      | cons k' ks ih =>
        intro hk hs st
        rw [List.map_cons]
        show (each g (ks.map (Item.of c)) (g (Item.of c k') st)).Has _
        rcases List.mem_cons.mp hk with rfl | hk
        · refine (hone st).within (C := e.cls = none) (N := False) ?_
          refine PreOrder.each ⟨Within.refl, Within.trans⟩ ?_ _
          intro k2 hk2 st'
          obtain ⟨k3, hk3, rfl⟩ := List.mem_map.mp hk2
          exact hs k3 (by simp [hk3]) st'
        · exact ih hk (fun k hk => hs k (by simp [hk])) _
    exact this ks hk hstep st
  · simp [isExprType] at he
  · cases h : ks.find? Node.isName with
    | none => simp [h] at hx
    | some k =>
      simp only [h, Option.toList_some, List.map_cons, List.map_nil, List.mem_singleton] at hx
      subst hx
      have h2 : n.kids.find? (fun k => k.node.isName) = some (Item.of c k) := by
        rw [p.kids, List.find?_map]
        have : ((fun k : Item => k.node.isName) ∘ Item.of c) = Node.isName := by
          funext k
          simp [of_node]
        rw [this, h]
        rfl
      unfold scanForExpression construct
      rw [p.type]
      dsimp only
      unfold newInstanceOfTypeDesignator
      rw [h2]
      dsimp only
      unfold symOf
      rw [of_node]
      exact has_add _ _
  · simp [isExprType] at he
  · simp [isExprType] at he
  · simp [isExprType] at he
  · simp [isExprType] at he
  · simp at hx

/-- `scanForExpression` finds what is in an expression. -/
theorem find_expression {n : Item} {ty : PType} {ks : List Node} (p : Parts c u e n ty ks) (he : isExprType ty = true)
    (hf : fine c u ty ks = true) (hd : isDefineCall c ks = false) {st : St} (ha : Agree e st)
    (hx : x ∈ facts c u e (.phr ty ks)) : (scanForExpression c n st).1.Has x := by
  by_cases hu : x ∈ usesOf c ty ks
  · exact find_uses p he hd hu
  refine has_expression ?_
  have hin : ty ≠ .simpleVariable → x ∈ factsOf c u e ks := by
    intro hv
    have he' : Env.enter c e ty ks = e := by cases ty <;> simp [isExprType] at he <;> simp [Env.enter]
    have ho : own c u e ty ks = if u then usesOf c ty ks else [] := by
      cases ty <;> simp [isExprType] at he <;> simp [own, hd] at hv ⊢
    rw [facts, ho, List.mem_append, he'] at hx
    rcases hx with hx | hx
    · split at hx
      · exact absurd hx hu
      · cases hx
    · split at hx
      · cases hx
      · exact hx
  have hf' := hf
  simp only [fine, hd, Bool.not_false, Bool.or_true, Bool.true_and] at hf'
  have habs : silents c u ks = true → ty ≠ .simpleVariable → False := by
    intro hs hv
    have := hin hv
    rw [factsOf_silent hs] at this
    cases this
  unfold construct
  rw [p.type]
  cases ty <;> simp only [isExprType, Bool.false_eq_true] at he
  case functionCallExpression => exact find_functionCall p hf hd ha (hin (by simp))
  case constantAccessExpression => exact (habs hf' (by simp)).elim
  case instanceofTypeDesignator => exact (habs hf' (by simp)).elim
  case simpleVariable =>
    dsimp only
    unfold newVariableExpression
    rw [facts, factsOf_silent hf'] at hx
    simp only [own, usesOf, ite_self, List.append_nil, List.nil_append, List.mem_singleton] at hx
    subst hx
    rw [p.node, ← ha.scope]
    exact has_record ..
  case scopedPropertyAccessExpression =>
    rw [Bool.and_eq_true] at hf'
    exact find_scopedAccess p hf'.1 hf'.2 ha (hin (by simp))
  case classConstantAccessExpression =>
    rw [Bool.and_eq_true] at hf'
    exact find_scopedAccess p hf'.1 hf'.2 ha (hin (by simp))
  case errorScopedAccessExpression =>
    rw [Bool.and_eq_true] at hf'
    exact find_scopedAccess p hf'.1 hf'.2 ha (hin (by simp))
  case scopedCallExpression =>
    rw [Bool.and_eq_true, Bool.and_eq_true] at hf'
    exact find_scopedCall p hf'.1.1 hf'.1.2 hf'.2 ha (hin (by simp))
  case objectCreationExpression => exact find_objectCreation p hf' ha (hin (by simp))
  case propertyAccessExpression => exact find_propertyAccess p hf' ha (hin (by simp))
  case methodCallExpression => exact find_methodCall p hf' ha (hin (by simp))
  case foreachStatement => exact find_foreach p hf' ha (hin (by simp))
  case encapsulatedExpression =>
    rw [Bool.and_eq_true, decide_eq_true_eq] at hf'
    exact find_derived p hf'.1 hf'.2 ha (hin (by simp))
  case cloneExpression =>
    rw [Bool.and_eq_true, decide_eq_true_eq] at hf'
    exact find_derived p hf'.1 hf'.2 ha (hin (by simp))
  case simpleAssignmentExpression => exact find_assignment p hf' ha (hin (by simp))
  case byRefAssignmentExpression => exact find_assignment p hf' ha (hin (by simp))
  case compoundAssignmentExpression => exact find_assignment p hf' ha (hin (by simp))
  case instanceOfExpression => exact find_instanceOf p hf' ha (hin (by simp))

end Verif.Analyser
