import Verif.Analyser.Find

/-!
The constructors for expressions find what is in their children.
-/

namespace Verif.Analyser
open Verif.Symbols (Tree Var Rec)

/-- `scanNode` and `scanForExpression` find what is in a node. -/
structure Finds (c : Ctx) (u : Bool) (n : Node) : Prop where
  run : place c u n = true → ∀ e st x, Calm e n → Agree e st → x ∈ facts c u e n → ((Item.of c n).run st).Has x
  expr : operand c u n = true → ∀ e st x, Calm e n → Agree e st → x ∈ facts c u e n → ((Item.of c n).expr st).1.Has x

/-- The same for the node and all below it, unless there is nothing to find. -/
inductive Deep (c : Ctx) (u : Bool) : Node → Prop
  | silent {n : Node} : silent c u n = true → Deep c u n
  | phr {ty : PType} {ks : List Node} : Finds c u (.phr ty ks) → fine c u ty ks = true → (∀ k ∈ ks, Deep c u k) →
      Deep c u (.phr ty ks)

/-- A phrase in which there is something to find. -/
theorem Deep.inv {c : Ctx} {u : Bool} {n : Node} (h : Deep c u n) {e : Env} {x : Fact} (hx : x ∈ facts c u e n) :
    ∃ ty ks, n = .phr ty ks ∧ Finds c u n ∧ fine c u ty ks = true ∧ ∀ k ∈ ks, Deep c u k := by
  cases h with
  | silent hs => rw [facts_silent hs] at hx; simp at hx
  | phr h1 h2 h3 => exact ⟨_, _, rfl, h1, h2, h3⟩

variable {c : Ctx} {u : Bool} {e : Env} {x : Fact}

theorem Deep.run {n : Node} (h : Deep c u n) (hp : place c u n = true) (hc : Calm e n) {st : St} (ha : Agree e st)
    (hx : x ∈ facts c u e n) : ((Item.of c n).run st).Has x := by
  obtain ⟨_, _, _, hf, _⟩ := h.inv hx
  exact hf.run hp e st x hc ha hx

theorem Deep.expr {n : Node} (h : Deep c u n) (hp : operand c u n = true) (hc : Calm e n) {st : St} (ha : Agree e st)
    (hx : x ∈ facts c u e n) : ((Item.of c n).expr st).1.Has x := by
  obtain ⟨_, _, _, hf, _⟩ := h.inv hx
  exact hf.expr hp e st x hc ha hx

/-- The analysis of a value: an expression, or something else. -/
theorem value_cases {n : Node} (hv : value c u n = true) (hx : x ∈ facts c u e n) :
    ∃ ty ks, n = .phr ty ks ∧ ty.runs = true ∧ place c u n = true ∧ (isExprType ty = true → operand c u n = true) := by
  obtain ⟨ty, ks, rfl⟩ := facts_phr hx
  have hs := not_silent hx
  unfold value at hv
  simp only [hs, Bool.false_or, Bool.and_eq_true] at hv
  refine ⟨ty, ks, rfl, hv.1, by simp [place, hs, hv.1], fun he => ?_⟩
  have h2 := hv.2
  simp only [operand, hs, he, Bool.true_and, Bool.false_or]
  exact h2

theorem find_place {n : Node} (hs : silent c u n = false) (hp : place c u n = true) :
    ∃ ty ks, n = .phr ty ks ∧ ty.runs = true := by
  cases n with
  | tok t => simp [silent] at hs
  | err t => simp [silent] at hs
  | phr ty ks => exact ⟨ty, ks, rfl, by simpa [place, hs] using hp⟩

theorem find_operand {n : Node} (hs : silent c u n = false) (hp : operand c u n = true) :
    ∃ ty ks, n = .phr ty ks ∧ isExprType ty = true := by
  cases n with
  | tok t => simp [silent] at hs
  | err t => simp [silent] at hs
  | phr ty ks =>
    simp only [operand, hs, Bool.false_or, Bool.and_eq_true] at hp
    exact ⟨ty, ks, rfl, hp.1⟩

/-- Among the types allowed. -/
theorem find_only {n : Node} {tys : List PType} (hx : x ∈ facts c u e n) (h : only c u tys n = true) :
    ∃ ty ∈ tys, ∃ ks, n = .phr ty ks := by
  have hs := not_silent hx
  unfold only at h
  rw [hs, Bool.false_or, List.any_eq_true] at h
  obtain ⟨ty, h1, h2⟩ := h
  cases n with
  | tok t => simp [Node.isPhrase] at h2
  | err t => simp [Node.isPhrase] at h2
  | phr ty' ks =>
    simp only [Node.isPhrase, decide_eq_true_eq] at h2
    subst h2
    exact ⟨ty', h1, ks, rfl⟩

/-- A phrase that is nothing itself and changes no surroundings. -/
theorem facts_inside {ty : PType} {ks : List Node} (hx : x ∈ facts c u e (.phr ty ks)) (ho : own c u e ty ks = [])
    (he : Env.enter c e ty ks = e) : x ∈ factsOf c u e ks := by
  rw [facts, ho, List.nil_append] at hx
  split at hx
  · simp at hx
  · rwa [he] at hx

/-- The closure of the relation. -/
abbrev hst (c : Ctx) (e : Env) : Closed c (e.cls = none) False (Stay e) (StayIn e) := closed_grow c _ _

theorem stay_pre (e : Env) : PreOrder (Stay e) := ⟨.refl, .trans⟩

theorem stayIn_pre (e : Env) : PreOrder (StayIn e) := ⟨.refl, .trans⟩

/-- Nodes and the items made of them. -/
structure Parts (c : Ctx) (u : Bool) (e : Env) (n : Item) (ty : PType) (ks : List Node) : Prop where
  node : n.node = .phr ty ks
  kids : n.kids = ks.map (Item.of c)
  deep : ∀ k ∈ ks, Deep c u k
  calm : ∀ k ∈ ks, Calm e k
  good : Good (e.cls = none) False (Stay e) n

theorem Parts.of {ty : PType} {ks : List Node} (hd : ∀ k ∈ ks, Deep c u k) (hc : Calm e (.phr ty ks)) :
    Parts c u e (Item.of c (.phr ty ks)) ty ks :=
  ⟨of_node c _, of_kids c _, hd, fun _ hk => hc.kid hk, hc.good⟩

theorem Parts.type {n : Item} {ty : PType} {ks : List Node} (h : Parts c u e n ty ks) : n.type? = some ty := by
  simp [Item.type?, h.node]

/-- Children that are all scanned. -/
theorem find_children {n : Item} {ty : PType} {ks : List Node} (p : Parts c u e n ty ks) (hp : ks.all (place c u) = true)
    {st : St} (ha : Agree e st) (hx : x ∈ factsOf c u e ks) : (scanForChildren n st).Has x := by
  unfold scanForChildren
  rw [p.kids]
  rw [List.all_eq_true] at hp
  exact seq (fun k hk st => ((p.calm k hk).good.run st).toWithin) (fun k hk st ha hx => (p.deep k hk).run (hp k hk)
    (p.calm k hk) ha hx) ha hx

/-- A body that is a child of the node. -/
theorem find_body {ty : PType} {ks : List Node} (hd : ∀ k ∈ ks, Deep c u k) (hc : Calm e (.phr ty ks))
    (hp : ks.all (place c u) = true) (ho : own c u e ty ks = []) (he : Env.enter c e ty ks = e) {st : St} (ha : Agree e st)
    (hx : x ∈ facts c u e (.phr ty ks)) : (scanForChildren (Item.of c (.phr ty ks)) st).Has x :=
  find_children (Parts.of hd hc) hp ha (facts_inside hx ho he)

theorem Agree.pushBlock {st : St} (h : Agree e st) (s : Sym) : Agree e (st.pushBlock s) := ⟨h.scope, h.outer, h.ns, h.cls⟩

/-- Nothing is lost at the end of a block. -/
theorem has_block {s : Sym} {st st' : St} {C N : Prop} (w : Within C N (st.pushBlock s) st') (h : st'.Has x) :
    st'.popBlock.Has x :=
  h.popBlock (by rw [w.below]; simp [St.pushBlock])

theorem filter_phr (ks : List Node) :
    (ks.map (Item.of c)).filter Item.isPhr = (ks.filter Node.isPhr).map (Item.of c) := by
  rw [List.filter_map]
  congr 1
  refine List.filter_congr fun k _ => ?_
  simp only [Function.comp, Item.isPhr, Item.type?, of_node]
  cases k <;> rfl

theorem mem_facts_filter {ks : List Node} (hx : x ∈ factsOf c u e ks) :
    x ∈ factsOf c u e (ks.filter Node.isPhr) := by
  rw [mem_factsOf] at hx ⊢
  obtain ⟨k, hk, h⟩ := hx
  obtain ⟨ty, ks', rfl⟩ := facts_phr h
  exact ⟨_, List.mem_filter.mpr ⟨hk, rfl⟩, h⟩

theorem find_arguments {n : Item} {ty : PType} {ks : List Node} (p : Parts c u e n ty ks) (hp : ks.all (place c u) = true)
    {st : St} (ha : Agree e st) (hx : x ∈ factsOf c u e ks) : (newArgumentList c n st).Has x := by
  have hw : StayIn e (st.pushBlock (symOf c .argumentList n.node))
      (each Item.run (n.kids.filter Item.isPhr) (st.pushBlock (symOf c .argumentList n.node))) :=
    ((stay_pre e).each (fun k hk => (p.good.kids k (List.mem_filter.mp hk).1).run) _).toWithin
  refine has_block hw ?_
  rw [p.kids, filter_phr]
  rw [List.all_eq_true] at hp
  refine seq (fun k hk st => ((p.calm k (List.mem_filter.mp hk).1).good.run st).toWithin) (fun k hk st ha hx => ?_)
    (ha.pushBlock _) (mem_facts_filter hx)
  have hk := (List.mem_filter.mp hk).1
  exact (p.deep k hk).run (hp k hk) (p.calm k hk) ha hx

/-- An argument list that is a child of the node. -/
theorem find_argumentsOf {k : Node} (hd : Deep c u k) (hc : Calm e k) (ht : k.isPhrase .argumentExpressionList = true)
    {st : St} (ha : Agree e st) (hx : x ∈ facts c u e k) : (newArgumentList c (Item.of c k) st).Has x := by
  obtain ⟨ty, ks, rfl, _, hf, hds⟩ := hd.inv hx
  simp only [Node.isPhrase, decide_eq_true_eq] at ht
  subst ht
  have hp : ks.all (place c u) = true := by simpa [fine, isExprType] using hf
  exact find_arguments (Parts.of hds hc) hp ha (facts_inside hx (by simp [own, usesOf]) (by simp [Env.enter]))

/-- The first list of arguments. -/
theorem find_firstArguments {ks : List Node} (hd : ∀ k ∈ ks, Deep c u k) (hc : ∀ k ∈ ks, Calm e k)
    (hf : callFine c u ks = true) {st : St} (ha : Agree e st) (hx : x ∈ factsOf c u e ks) :
    (firstArguments (ks.map (Item.of c)) st).Has x := by
  unfold firstArguments
  induction ks with
  | nil => simp [factsOf] at hx
  | cons k ks ih =>
    rw [List.map_cons, List.find?_cons]
    rw [callFine] at hf
    rw [factsOf, List.mem_append] at hx
    by_cases ht : k.isPhrase .argumentExpressionList = true
    · rw [if_pos ht] at hf
      have : decide ((Item.of c k).type? = some .argumentExpressionList) = true := by
        simpa [type_iff] using ht
      rw [this]
      rcases hx with hx | hx
      · refine (hd k (by simp)).run ?_ (hc k (by simp)) ha hx
        obtain ⟨ty, ks, rfl⟩ := facts_phr hx
        simp only [Node.isPhrase, decide_eq_true_eq] at ht
        subst ht
        simp [place, PType.runs]
      · rw [factsOf_silent hf] at hx
        simp at hx
    · rw [if_neg ht, Bool.and_eq_true] at hf
      have : decide ((Item.of c k).type? = some .argumentExpressionList) = false := by
        simpa [type_iff] using ht
      rw [this]
      rcases hx with hx | hx
      · rw [facts_silent hf.1] at hx
        simp at hx
      · exact ih (fun k hk => hd k (by simp [hk])) (fun k hk => hc k (by simp [hk])) hf.2 hx

theorem operand_var {k : Node} (h : k.isPhrase .simpleVariable = true) : operand c u k = true := by
  cases k with
  | tok t => rfl
  | err t => rfl
  | phr ty ks =>
    simp only [Node.isPhrase, decide_eq_true_eq] at h
    subst h
    simp [operand, isExprType]

theorem isPhrase_ne {k : Node} {ty ty' : PType} (h : k.isPhrase ty = true) (hne : ty ≠ ty') : k.isPhrase ty' = false := by
  cases k with
  | tok t => rfl
  | err t => rfl
  | phr t ks =>
    simp only [Node.isPhrase, decide_eq_true_eq] at h
    subst h
    simpa [Node.isPhrase] using hne

theorem firstArguments_skip {k : Item} {ks : List Item} (h : k.type? ≠ some .argumentExpressionList) :
    firstArguments (k :: ks) = firstArguments ks := by
  funext st
  unfold firstArguments
  rw [List.find?_cons]
  simp [h]

theorem find_functionCall {n : Item} {ks : List Node} (p : Parts c u e n .functionCallExpression ks)
    (hf : fine c u .functionCallExpression ks = true) (hd : isDefineCall c ks = false)
    {st : St} (ha : Agree e st) (hx : x ∈ factsOf c u e ks) : (newFunctionCall c n st).1.Has x := by
  unfold newFunctionCall
  rw [p.kids]
  cases ks with
  | nil => simp [factsOf] at hx
  | cons k ks =>
    rw [List.map_cons]
    dsimp only
    simp only [fine, hd, isExprType, Bool.not_true, Bool.not_false, Bool.or_true, Bool.true_and] at hf
    have h1 : Stay e st (st.add (symOf c .functionCall (Item.of c k).node)) := .add _ _
    by_cases hv : k.isPhrase .simpleVariable = true
    · rw [if_pos ((type_iff c k _).mpr hv)]
      simp only [hv, if_true] at hf
      have hgk := (p.calm k (by simp)).good (c := c)
      rw [factsOf, List.mem_append] at hx
      have hgo := (hst c e).firstArguments (ks := Item.of c k :: ks.map (Item.of c))
        (fun k' hk' => p.good.kids k' (by rw [p.kids, List.map_cons]; exact hk'))
      rcases hx with hx | hx
      · exact ((p.deep k (by simp)).expr (operand_var hv) (p.calm k (by simp)) (ha.stay h1) hx).grow (hgo _)
      · rw [firstArguments_skip (by rw [ne_eq, type_iff, isPhrase_ne hv (by simp)]; simp)]
        exact find_firstArguments (fun k hk => p.deep k (by simp [hk])) (fun k hk => p.calm k (by simp [hk])) (by simpa using hf)
          ((ha.stay h1).stay (hgk.expr _)) hx
    · rw [if_neg (by rw [type_iff]; exact hv)]
      simp only [hv] at hf
      exact find_firstArguments (ks := k :: ks) p.deep p.calm (by simpa using hf) (ha.stay h1) hx

/-! ### `::` -/

theorem find_classAccess {k : Node} (hd : Deep c u k) (hc : Calm e k)
    (hk : (silent c u k || (k.isPhrase .simpleVariable && !isRelativeName (c.nodeText k))) = true)
    {st : St} (ha : Agree e st) (hx : x ∈ facts c u e k) : (newClassAccess c (Item.of c k) st).Has x := by
  rw [not_silent hx, Bool.false_or, Bool.and_eq_true, Bool.not_eq_true'] at hk
  unfold newClassAccess
  rw [of_node, hk.2, if_neg (by simp), if_pos ((type_iff c k _).mpr hk.1)]
  exact hd.expr (operand_var hk.1) hc ha hx

theorem find_scopedClass {ks : List Node} (hd : ∀ k ∈ ks, Deep c u k) (hc : ∀ k ∈ ks, Calm e k)
    (hf : scopedFine c u ks = true) {st : St} (ha : Agree e st) {k : Node} (hk : ks.head? = some k) (hx : x ∈ facts c u e k) :
    (scopedClass c (ks.map (Item.of c)) st).Has x := by
  cases ks with
  | nil => simp at hk
  | cons k' ks =>
    simp only [List.head?_cons, Option.some.injEq] at hk
    subst hk
    unfold scopedClass
    rw [List.map_cons]
    dsimp only
    obtain ⟨ty, ms, rfl⟩ := facts_phr hx
    rw [if_pos (by simp [Item.isPhr, of_type])]
    exact (find_classAccess (hd _ (by simp)) (hc _ (by simp)) hf ha hx).grow (Grow.add (C := e.cls = none) (N := False) _ _)

theorem head_or_rest {ks : List Node} (hx : x ∈ factsOf c u e ks) (hs : silents c u (ks.drop 1) = true) :
    ∃ k, ks.head? = some k ∧ x ∈ facts c u e k := by
  cases ks with
  | nil => simp [factsOf] at hx
  | cons k ks =>
    rw [factsOf, List.mem_append] at hx
    rcases hx with hx | hx
    · exact ⟨k, rfl, hx⟩
    · rw [List.drop_one, List.tail_cons] at hs
      rw [factsOf_silent hs] at hx
      simp at hx

theorem find_scopedAccess {n : Item} {ty : PType} {ks : List Node} (p : Parts c u e n ty ks)
    (hf : scopedFine c u ks = true) (hs : silents c u (ks.drop 1) = true)
    {st : St} (ha : Agree e st) (hx : x ∈ factsOf c u e ks) : (scopedClass c n.kids st).Has x := by
  rw [p.kids]
  obtain ⟨k, hk, hx⟩ := head_or_rest hx hs
  exact find_scopedClass p.deep p.calm hf ha hk hx

theorem find_scopedCall {n : Item} {ty : PType} {ks : List Node} (p : Parts c u e n ty ks)
    (hf : scopedFine c u ks = true) (hs : silents c u ((ks.drop 1).take 2) = true) (hca : callFine c u (ks.drop 3) = true)
    {st : St} (ha : Agree e st) (hx : x ∈ factsOf c u e ks) : (newScopedMethodAccess c n st).1.Has x := by
  unfold newScopedMethodAccess
  dsimp only
  have h1 : Stay e st (scopedClass c n.kids st) := (hst c e).scopedClass p.good.kids st
  have h2 : Stay e _ ((scopedClass c n.kids st).add (scopedMember c .scopedMethodAccess n.kids)) := .add _ _
  have h3 := (hst c e).firstArguments (ks := n.kids.drop 3) (fun k hk => p.good.kids k (List.mem_of_mem_drop hk))
    ((scopedClass c n.kids st).add (scopedMember c .scopedMethodAccess n.kids))
  cases ks with
  | nil => simp [factsOf] at hx
  | cons k ks =>
    rw [List.drop_one, List.tail_cons] at hs
    rw [factsOf, List.mem_append] at hx
    rcases hx with hx | hx
    · have := find_scopedClass p.deep p.calm hf ha (k := k) rfl hx
      rw [← p.kids] at this
      exact (this.grow h2).grow h3
    · rw [← List.take_append_drop 2 ks, mem_factsOf] at hx
      obtain ⟨k', hk', hx⟩ := hx
      rcases List.mem_append.mp hk' with hk' | hk'
      · rw [facts_silent (silents_iff.mp hs k' hk')] at hx
        simp at hx
      · have hd3 : (k :: ks).drop 3 = ks.drop 2 := rfl
        have := find_firstArguments (ks := (k :: ks).drop 3) (fun k hk => p.deep k (List.mem_of_mem_drop hk))
          (fun k hk => p.calm k (List.mem_of_mem_drop hk)) hca ((ha.stay h1).stay h2) (mem_factsOf.mpr ⟨k', by rw [hd3]; exact hk', hx⟩)
        rw [p.kids, ← List.map_drop]
        rwa [p.kids] at this

/-! ### members of objects -/

theorem find_memberScope {ks : List Node} (hd : ∀ k ∈ ks, Deep c u k) (hc : ∀ k ∈ ks, Calm e k)
    (hf : (ks.take 1).all (operand c u) = true) {st : St} (ha : Agree e st) {k : Node} (hk : ks.head? = some k)
    (hx : x ∈ facts c u e k) : (memberScope (ks.map (Item.of c)) st).Has x := by
  cases ks with
  | nil => simp at hk
  | cons k' ks =>
    simp only [List.head?_cons, Option.some.injEq] at hk
    subst hk
    unfold memberScope
    rw [List.map_cons]
    dsimp only
    obtain ⟨ty, ms, rfl⟩ := facts_phr hx
    rw [if_pos (by simp [Item.isPhr, of_type])]
    exact (hd _ (by simp)).expr (by simpa using hf) (hc _ (by simp)) ha hx

theorem find_variable {d : Bool} {k : Node} (hd : Deep c u k) (hk : k.isPhrase .simpleVariable = true) {st : St} (ha : Agree e st)
    (hx : x ∈ facts c u e k) : (newVariable c d k st).Has x := by
  obtain ⟨ty, ks, rfl, _, hf, _⟩ := hd.inv hx
  simp only [Node.isPhrase, decide_eq_true_eq] at hk
  subst hk
  have hs : silents c u ks = true := by
    simp only [fine, Bool.and_eq_true] at hf
    exact hf.2
  rw [facts, factsOf_silent hs] at hx
  simp only [own, usesOf, ite_self, List.append_nil, List.nil_append, List.mem_singleton] at hx
  subst hx
  have := has_record st (c.nodeText (.phr .simpleVariable ks)) (c.range (.phr .simpleVariable ks))
    (c.range (.phr .simpleVariable ks)).stop d
  rw [ha.scope] at this
  exact this.grow (Grow.add (C := True) (N := True) _ _)

/-- The variable in a member name. -/
theorem memberNameOf_var' {ms : List Node} (hf : nameFine c u ms = true) (name : Bytes) (hx : x ∈ factsOf c u e ms) :
    ∃ v ∈ ms, v.isPhrase .simpleVariable = true ∧ x ∈ facts c u e v ∧
      (memberNameOf c (ms.map (Item.of c)) name).2 = some (Item.of c v) := by
  induction ms generalizing name with
  | nil => simp [factsOf] at hx
  | cons k ks ih =>
    rw [nameFine] at hf
    rw [factsOf, List.mem_append] at hx
    rw [List.map_cons]
    unfold memberNameOf
    by_cases hv : k.isPhrase .simpleVariable = true
    · rw [if_pos hv] at hf
      rw [factsOf_silent hf] at hx
      rw [if_pos ((type_iff c k _).mpr hv)]
      exact ⟨k, by simp, hv, by simpa using hx, rfl⟩
    · rw [if_neg hv, Bool.and_eq_true] at hf
      rw [facts_silent hf.1] at hx
      rw [if_neg (by rw [type_iff]; exact hv)]
      have hx' : x ∈ factsOf c u e ks := by simpa using hx
      split
      · obtain ⟨v, h1, h2⟩ := ih hf.2 _ hx'
        exact ⟨v, by simp [h1], h2⟩
      · obtain ⟨v, h1, h2⟩ := ih hf.2 _ hx'
        exact ⟨v, by simp [h1], h2⟩

/-- What `skipArrow` leaves. -/
theorem skipArrow_map {rest : Node → Bool} (ks : List Node) (r : Rng) (hf : memberFine c u rest ks = true)
    (hx : x ∈ factsOf c u e ks) :
    ∃ m more r', (skipArrow c (ks.map (Item.of c)) r) = (Item.of c m :: more.map (Item.of c), r') ∧ m ∈ ks ∧ (∀ k ∈ more, k ∈ ks) ∧
      (silent c u m || (m.isPhrase .memberName && nameFine c u m.kids)) = true ∧ more.all rest = true ∧
      (x ∈ facts c u e m ∨ x ∈ factsOf c u e more) := by
  induction ks generalizing r with
  | nil => simp [factsOf] at hx
  | cons k ks ih =>
    rw [factsOf, List.mem_append] at hx
    rw [List.map_cons]
    unfold skipArrow
    cases k with
    | tok t =>
      have e1 : (Item.of c (.tok t)).tok? = some t := by simp [Item.tok?, of_node]
      simp only [e1]
      rw [memberFine] at hf
      have hx' : x ∈ factsOf c u e ks := by
        rcases hx with hx | hx
        · simp [facts] at hx
        · exact hx
      by_cases hw : t.type = .whitespace
      · rw [if_pos hw]
        rw [if_pos (Or.inl hw)] at hf
        obtain ⟨m, more, r', h1, h2, h3, h4⟩ := ih r hf hx'
        exact ⟨m, more, r', h1, by simp [h2], fun k hk => by simp [h3 k hk], h4⟩
      · rw [if_neg hw]
        by_cases har : t.type = .arrow
        · rw [if_pos har]
          rw [if_pos (Or.inr har)] at hf
          obtain ⟨m, more, r', h1, h2, h3, h4⟩ := ih _ hf hx'
          exact ⟨m, more, r', h1, by simp [h2], fun k hk => by simp [h3 k hk], h4⟩
        · rw [if_neg har]
          rw [if_neg (by tauto)] at hf
          exact ⟨.tok t, ks, r, rfl, by simp, fun k hk => by simp [hk], by simp [silent], hf, Or.inr hx'⟩
    | err t =>
      have e1 : (Item.of c (.err t)).tok? = none := by simp [Item.tok?, of_node]
      simp only [e1]
      rw [memberFine] at hf
      exact ⟨.err t, ks, r, rfl, by simp, fun k hk => by simp [hk], by simp [silent], hf, hx⟩
    | phr ty ms =>
      have e1 : (Item.of c (.phr ty ms)).tok? = none := by simp [Item.tok?, of_node]
      simp only [e1]
      rw [memberFine, Bool.and_eq_true] at hf
      exact ⟨.phr ty ms, ks, r, rfl, by simp, fun k hk => by simp [hk], by simpa [Node.isPhrase, Node.kids] using hf.1, hf.2, hx⟩

/-- The variable that names a member, or what is after the name. -/
theorem find_memberName {rest : Node → Bool} {ks : List Node} (hd : ∀ k ∈ ks, Deep c u k) (hf : memberFine c u rest ks = true)
    {st : St} (ha : Agree e st) (hx : x ∈ factsOf c u e ks) :
    (readMemberName c (ks.map (Item.of c)) st).1.Has x ∨
      ∃ more, (readMemberName c (ks.map (Item.of c)) st).2.1 = more.map (Item.of c) ∧ (∀ k ∈ more, k ∈ ks) ∧
        more.all rest = true ∧ x ∈ factsOf c u e more := by
  obtain ⟨m, more, r', h1, h2, h3, h4, h5, h6⟩ := skipArrow_map ks zeroRng hf hx
  unfold readMemberName
  rw [h1]
  dsimp only
  rcases h6 with h6 | h6
  · left
    rw [not_silent h6, Bool.false_or, Bool.and_eq_true] at h4
    rw [if_pos ((type_iff c m _).mpr h4.1), of_kids]
    obtain ⟨ty, ms, rfl, _, _, hdm⟩ := (hd m h2).inv h6
    have ht : ty = .memberName := by simpa [Node.isPhrase] using h4.1
    subst ht
    have h7 := facts_inside h6 (by simp [own, usesOf]) (by simp [Env.enter])
    obtain ⟨v, g1, g2, g3, g4⟩ := memberNameOf_var' h4.2 [] h7
    have e2 : memberNameOf c (List.map (Item.of c) (Node.phr .memberName ms).kids) [] =
        ((memberNameOf c (List.map (Item.of c) (Node.phr .memberName ms).kids) []).1, some (Item.of c v)) := by
      rw [← g4]
    rw [e2]
    dsimp only
    rw [of_node]
    exact find_variable (hdm v g1) g2 ha g3
  · right
    refine ⟨more, ?_, h3, h5, h6⟩
    split
    · split <;> rfl
    · split
      · split <;> rfl
      · rfl

theorem find_propertyAccess {n : Item} {ty : PType} {ks : List Node} (p : Parts c u e n ty ks)
    (hf : ((ks.take 1).all (operand c u) && memberFine c u (silent c u) (ks.drop 1)) = true)
    {st : St} (ha : Agree e st) (hx : x ∈ factsOf c u e ks) : (newPropertyAccess c n st).1.Has x := by
  rw [Bool.and_eq_true] at hf
  unfold newPropertyAccess
  dsimp only
  have h1 : Stay e st (memberScope n.kids st) := (hst c e).memberScope p.good.kids st
  have h2 := (hst c e).readMemberName (ks := n.kids.drop 1) (fun k hk => p.good.kids k (List.mem_of_mem_drop hk)) (memberScope n.kids st)
  cases ks with
  | nil => simp [factsOf] at hx
  | cons k ks =>
    rw [factsOf, List.mem_append] at hx
    rcases hx with hx | hx
    · have := find_memberScope p.deep p.calm hf.1 ha (k := k) rfl hx
      rw [← p.kids] at this
      exact this.grow h2
    · have e1 : n.kids.drop 1 = ks.map (Item.of c) := by rw [p.kids]; rfl
      rw [e1] at h2 ⊢
      rcases find_memberName (fun k hk => p.deep k (List.mem_cons_of_mem _ hk)) hf.2 (ha.stay h1) hx with h | ⟨more, _, _, h4, h5⟩
      · exact h
      · rw [mem_factsOf] at h5
        obtain ⟨k', hk', h5⟩ := h5
        rw [facts_silent (List.all_eq_true.mp h4 k' hk')] at h5
        cases h5

theorem only_one {ty : PType} {k : Node} (hx : x ∈ facts c u e k) (h : only c u [ty] k = true) : k.isPhrase ty = true := by
  obtain ⟨ty', h1, ks, rfl⟩ := find_only hx h
  simp only [List.mem_singleton] at h1
  subst h1
  simp [Node.isPhrase]

/-- All argument lists are scanned. -/
theorem find_argumentLists {ks : List Node} (hd : ∀ k ∈ ks, Deep c u k) (hc : ∀ k ∈ ks, Calm e k)
    (hf : ks.all (only c u [.argumentExpressionList]) = true) {st : St} (ha : Agree e st) (hx : x ∈ factsOf c u e ks) :
    (each (fun k st => if k.type? = some .argumentExpressionList then newArgumentList c k st else st)
      (ks.map (Item.of c)) st).Has x := by
  refine seq (fun k hk st => ?_) (fun k hk st ha hx => ?_) ha hx
  · exact ((stay_pre e).ite fun ht => (hst c e).newArgumentList (hc k hk).good ht st).toWithin
  · have ht := only_one hx (List.all_eq_true.mp hf k hk)
    rw [if_pos ((type_iff c k _).mpr ht)]
    exact find_argumentsOf (hd k hk) (hc k hk) ht ha hx

theorem find_methodCall {n : Item} {ty : PType} {ks : List Node} (p : Parts c u e n ty ks)
    (hf : ((ks.take 1).all (operand c u) && silents c u ((ks.drop 1).take 1) &&
      memberFine c u (only c u [.argumentExpressionList]) (ks.drop 2)) = true)
    {st : St} (ha : Agree e st) (hx : x ∈ factsOf c u e ks) : (newMethodAccess c n st).1.Has x := by
  rw [Bool.and_eq_true, Bool.and_eq_true] at hf
  unfold newMethodAccess
  dsimp only
  have h1 : Stay e st (memberScope n.kids st) := (hst c e).memberScope p.good.kids st
  have h2 := (hst c e).readMemberName (ks := n.kids.drop 2) (fun k hk => p.good.kids k (List.mem_of_mem_drop hk)) (memberScope n.kids st)
  have h3 : Stay e (readMemberName c (n.kids.drop 2) (memberScope n.kids st)).1
      ((readMemberName c (n.kids.drop 2) (memberScope n.kids st)).1.add
      ⟨.methodAccess, (readMemberName c (n.kids.drop 2) (memberScope n.kids st)).2.2.2,
        (readMemberName c (n.kids.drop 2) (memberScope n.kids st)).2.2.1, []⟩) := .add _ _
  have h4 := (stay_pre e).each (f := fun k st => if k.type? = some .argumentExpressionList then newArgumentList c k st else st)
    (ks := (readMemberName c (n.kids.drop 2) (memberScope n.kids st)).2.1) (fun k hk st => (stay_pre e).ite fun ht =>
      (hst c e).newArgumentList (p.good.kids k (List.mem_of_mem_drop (ClosedOn.readMemberName_mem _ _ k hk))) ht st)
    ((readMemberName c (n.kids.drop 2) (memberScope n.kids st)).1.add
      ⟨.methodAccess, (readMemberName c (n.kids.drop 2) (memberScope n.kids st)).2.2.2,
        (readMemberName c (n.kids.drop 2) (memberScope n.kids st)).2.2.1, []⟩)
  cases ks with
  | nil => simp [factsOf] at hx
  | cons k ks =>
    rw [factsOf, List.mem_append] at hx
    rcases hx with hx | hx
    · have := find_memberScope p.deep p.calm hf.1.1 ha (k := k) rfl hx
      rw [← p.kids] at this
      exact ((this.grow h2).grow h3).grow h4
    · rw [← List.take_append_drop 1 ks, mem_factsOf] at hx
      obtain ⟨k', hk', hx⟩ := hx
      rcases List.mem_append.mp hk' with hk' | hk'
      · rw [facts_silent (silents_iff.mp hf.1.2 k' hk')] at hx
        simp at hx
      · have hx' : x ∈ factsOf c u e (ks.drop 1) := mem_factsOf.mpr ⟨k', hk', hx⟩
        have e1 : n.kids.drop 2 = (ks.drop 1).map (Item.of c) := by rw [p.kids, List.map_drop]; rfl
        rw [e1] at h2 h3 h4 ⊢
        rcases find_memberName (fun k hk => p.deep k (by simp [List.mem_of_mem_drop hk])) hf.2 (ha.stay h1) hx' with h | ⟨more, e2, g1, g2, g3⟩
        · exact (h.grow h3).grow h4
        · rw [show ks.drop 1 = (k :: ks).drop 2 from rfl, e2]
          exact find_argumentLists (fun k hk => p.deep k (List.mem_cons_of_mem _ (List.mem_of_mem_drop (g1 k hk))))
            (fun k hk => p.calm k (List.mem_cons_of_mem _ (List.mem_of_mem_drop (g1 k hk)))) g2
            (((ha.stay h1).stay h2).stay h3) g3

end Verif.Analyser
