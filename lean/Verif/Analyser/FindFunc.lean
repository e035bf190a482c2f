import Verif.Analyser.FindValue

/-!
Functions, methods and closures: parameters, `use` variables, names.
-/

namespace Verif.Analyser
open Verif.Symbols (Tree Var Rec)

variable {c : Ctx} {u : Bool} {e : Env} {x : Fact}

/-! ### one child of a sort -/

theorem one_split {p : Node → Bool} {ks : List Node} (h : one p ks = true) :
    ∃ pre k post, ks = pre ++ k :: post ∧ p k = true ∧ (∀ k ∈ pre, p k = false) ∧ ∀ k ∈ post, p k = false := by
  unfold one at h
  rw [beq_iff_eq] at h
  induction ks with
  | nil => simp at h
  | cons k ks ih =>
    by_cases hk : p k = true
    · rw [List.filter_cons_of_pos hk, List.length_cons, Nat.add_eq_right, List.length_eq_zero_iff, List.filter_eq_nil_iff] at h
      exact ⟨[], k, ks, rfl, hk, by simp, fun k' hk' => by simpa using h k' hk'⟩
    · rw [List.filter_cons_of_neg hk] at h
      obtain ⟨pre, k0, post, rfl, h2, h3, h4⟩ := ih h
      refine ⟨k :: pre, k0, post, rfl, h2, ?_, h4⟩
      intro k' hk'
      rcases List.mem_cons.mp hk' with rfl | hk'
      · simpa using hk
      · exact h3 k' hk'

/-- A loop in which one child counts. -/
theorem fold_one {β γ : Type} {π : β → γ} {g : β → Item → β} {p : Node → Bool} {f : Node → γ → γ} {ks : List Node}
    (h : one p ks = true) (hs : ∀ k ∈ ks, p k = false → ∀ r, π (g r (Item.of c k)) = π r)
    (hp : ∀ k ∈ ks, p k = true → ∀ r, π (g r (Item.of c k)) = f k (π r)) :
    ∃ k0 ∈ ks, p k0 = true ∧ ks.filter p = [k0] ∧ ∀ r, π ((ks.map (Item.of c)).foldl g r) = f k0 (π r) := by
  obtain ⟨pre, k0, post, rfl, h2, h3, h4⟩ := one_split h
  have skip : ∀ (l : List Node), (∀ k ∈ l, k ∈ pre ++ k0 :: post) → (∀ k ∈ l, p k = false) → ∀ r,
      π ((l.map (Item.of c)).foldl g r) = π r := by
    intro l hl hn
    induction l with
    | nil => intro r; rfl
    | cons k l ih =>
      intro r
      rw [List.map_cons, List.foldl_cons, ih (fun k hk => hl k (by simp [hk])) (fun k hk => hn k (by simp [hk]))]
      exact hs k (hl k (by simp)) (hn k (by simp)) r
  refine ⟨k0, by simp, h2, ?_, fun r => ?_⟩
  · rw [List.filter_append, List.filter_cons_of_pos h2, List.filter_eq_nil_iff.mpr (fun k hk => by simp [h3 k hk]),
      List.filter_eq_nil_iff.mpr (fun k hk => by simp [h4 k hk])]
    rfl
  · rw [List.map_append, List.foldl_append, List.map_cons, List.foldl_cons, skip post (by simp +contextual) h4,
      hp k0 (by simp) h2, skip pre (by simp +contextual) h3]

theorem findSome_one {α : Type} {f : Node → Option α} {p : Node → Bool} {ks : List Node} {k0 : Node} (hf : ∀ k, p k = false → f k = none)
    (h : ks.filter p = [k0]) : ks.findSome? f = f k0 := by
  induction ks with
  | nil => simp at h
  | cons k ks ih =>
    by_cases hk : p k = true
    · rw [List.filter_cons_of_pos hk] at h
      injection h with h1 h2
      subst h1
      rw [List.findSome?_cons]
      cases hfk : f k with
      | some a => rfl
      | none =>
        dsimp only
        rw [List.findSome?_eq_none_iff]
        intro k' hk'
        rw [List.filter_eq_nil_iff] at h2
        exact hf k' (by simpa using h2 k' hk')
    · rw [List.filter_cons_of_neg hk] at h
      rw [List.findSome?_cons, hf k (by simpa using hk)]
      exact ih h

theorem filterMap_one {α : Type} {f : Node → Option α} {p : Node → Bool} {ks : List Node} {k0 : Node} (hf : ∀ k, p k = false → f k = none)
    (h : ks.filter p = [k0]) : ks.filterMap f = (f k0).toList := by
  induction ks with
  | nil => simp at h
  | cons k ks ih =>
    by_cases hk : p k = true
    · rw [List.filter_cons_of_pos hk] at h
      injection h with h1 h2
      subst h1
      have h3 : ks.filterMap f = [] := by
        rw [List.filterMap_eq_nil_iff]
        intro k' hk'
        rw [List.filter_eq_nil_iff] at h2
        exact hf k' (by simpa using h2 k' hk')
      rw [List.filterMap_cons]
      cases f k <;> simp [h3]
    · rw [List.filter_cons_of_neg hk] at h
      rw [List.filterMap_cons, hf k (by simpa using hk)]
      exact ih h

/-- One step of a loop with another result finds something. -/
theorem fold_has {α : Type} {g : St × α → Item → St × α} {ks : List Item} (hg : ∀ k ∈ ks, ∀ r, StayIn e r.1 (g r k).1)
    {k : Item} (hk : k ∈ ks) (hf : ∀ r, Agree e r.1 → (g r k).1.Has x) {r : St × α} (ha : Agree e r.1) :
    (ks.foldl g r).1.Has x := by
  induction ks generalizing r with
  | nil => simp at hk
  | cons k' ks ih =>
    rw [List.foldl_cons]
    rcases List.mem_cons.mp hk with rfl | hk
    · exact (hf r ha).within (PreOrder.fold (R := StayIn e) ⟨Within.refl, Within.trans⟩ (fun k' hk' r' => hg k' (by simp [hk']) r') _)
    · exact ih (fun k hk => hg k (by simp [hk])) hk (ha.within (hg k' (by simp) r))

/-! ### names -/

theorem tyOf_plain {s : Bytes} (h : plain s = true) : tyOf s = ⟨s, s, 0⟩ := by
  unfold plain at h
  simp only [Bool.and_eq_true, bne_iff_ne, beq_iff_eq, ne_eq] at h
  obtain ⟨⟨⟨h1, h2⟩, h3⟩, h4⟩ := h
  have hr : Types.rawLoop s 0 s.length = some (some s, 0) := by
    match hl : s.length with
    | 0 => exact absurd (List.length_eq_zero_iff.mp hl) h1
    | 1 =>
      have : s[0]? ≠ some 93 := by
        rw [List.getLast?_eq_getElem?, hl] at h4
        exact h4
      rw [Types.rawLoop, if_pos this, List.take_of_length_le (by omega)]
    | n + 2 =>
      have : s[n + 1]? ≠ some 93 := by
        rw [List.getLast?_eq_getElem?, hl] at h4
        exact h4
      rw [Types.rawLoop, if_pos (Or.inl this), List.take_of_length_le (by omega)]
  unfold tyOf Types.newTypeString
  rw [hr]
  simp [h3]

theorem setNamespace_plain {s o : Bytes} {l : Int} (h : plain s = true) (ns : Bytes) :
    (⟨s, o, l⟩ : Types.Ty).setNamespace ns = ⟨fullName ns s, o, l⟩ := by
  unfold plain at h
  simp only [Bool.and_eq_true, Bool.not_eq_true'] at h
  unfold Types.Ty.setNamespace fullName
  dsimp only
  rw [h.1.1.2, if_neg (by simp)]
  split <;> rfl

theorem setNamespace_full {s o : Bytes} {l : Int} (ns ns' : Bytes) :
    (⟨fullName ns s, o, l⟩ : Types.Ty).setNamespace ns' = ⟨fullName ns s, o, l⟩ := by
  unfold Types.Ty.setNamespace
  have : Types.isFQN (fullName ns s) = true := by
    unfold fullName
    split <;> simp [Types.isFQN]
  rw [if_pos this]

/-! ### parameters -/

/-- Name and place of a parameter. -/
def paramOf (c : Ctx) (n : Item) : Bytes × Rng := (newParameter c n ⟨⟨⟨.class_, zeroRng, [], []⟩, []⟩, [], ⟨zeroRng, [], []⟩, [], [], none, [], false⟩).2

/-- The parameters in a list. -/
def paramsIn (c : Ctx) (ks : List Item) : List (Bytes × Rng) :=
  ks.flatMap fun k => if k.type? = some .parameterDeclaration then [paramOf c k] else []

/-- The parameters in a header. -/
def headParams (c : Ctx) (ks : List Item) : List (Bytes × Rng) :=
  ks.flatMap fun k => if k.type? = some .parameterDeclarationList then paramsIn c k.kids else []

theorem parameterList_snd (ks : List Item) (r : St × List (Bytes × Rng)) : (parameterList c ks r).2 = r.2 ++ paramsIn c ks := by
  unfold parameterList
  induction ks generalizing r with
  | nil => simp [paramsIn]
  | cons k ks ih =>
    rw [List.foldl_cons, ih]
    unfold paramsIn
    rw [List.flatMap_cons]
    split
    · dsimp only
      rw [List.append_assoc]
      rfl
    · simp

/-- A loop that collects parameters. -/
theorem collect {g : St × List (Bytes × Rng) → Item → St × List (Bytes × Rng)}
    (hg : ∀ r k, (g r k).2 = r.2 ++ if k.type? = some .parameterDeclarationList then paramsIn c k.kids else [])
    (ks : List Item) (r : St × List (Bytes × Rng)) : (ks.foldl g r).2 = r.2 ++ headParams c ks := by
  induction ks generalizing r with
  | nil => simp [headParams]
  | cons k ks ih =>
    rw [List.foldl_cons, ih, hg]
    unfold headParams
    rw [List.flatMap_cons, List.append_assoc]

theorem tok_type {k : Item} {t : Tok} (h : k.tok? = some t) : k.type? = none := by
  unfold Item.tok? at h
  unfold Item.type?
  split at h
  · next e1 => rw [e1]
  · cases h

theorem functionHeader_snd (ks : List Item) (r : St × List (Bytes × Rng)) :
    (functionHeader c ks r).2 = r.2 ++ headParams c ks := by
  refine collect (fun r k => ?_) ks r
  split
  · next h => rw [tok_type h]; split <;> simp
  · next h => rw [h, parameterList_snd]; simp
  · next h => rw [h]; simp
  · next h1 h2 =>
    by_cases ht : k.type? = some .parameterDeclarationList
    · cases htok : k.tok? with
      | some t => rw [tok_type htok] at ht; cases ht
      | none => exact absurd ht (h1 htok)
    · simp [ht]

theorem methodHeader_snd (ks : List Item) (r : St × List (Bytes × Rng)) :
    (methodHeader c ks r).2 = r.2 ++ headParams c ks := by
  refine collect (fun r k => ?_) ks r
  split
  · next h => rw [tok_type h]; split <;> simp
  · next h => rw [h, parameterList_snd]; simp
  · next h => rw [h]; simp
  · next h1 h2 =>
    by_cases ht : k.type? = some .parameterDeclarationList
    · cases htok : k.tok? with
      | some t => rw [tok_type htok] at ht; cases ht
      | none => exact absurd ht (h1 htok)
    · simp [ht]

theorem anonymousHeader_snd (ks : List Item) (r : St × List (Bytes × Rng)) :
    (anonymousHeader c ks r).2 = r.2 ++ headParams c ks := by
  refine collect (fun r k => ?_) ks r
  split
  · next h => rw [h, parameterList_snd]; simp
  · next h => rw [h]; simp
  · next h1 h2 =>
    by_cases ht : k.type? = some .parameterDeclarationList
    · exact absurd ht h1
    · simp [ht]

theorem varTok_isSome {k : Node} (h : (varTok k).isSome = true) : ∃ t, k = .tok t ∧ t.type = .variableName := by
  cases k with
  | tok t =>
    refine ⟨t, rfl, ?_⟩
    by_contra hn
    simp [varTok, hn] at h
  | err t => simp [varTok] at h
  | phr ty ks => simp [varTok] at h

/-- A loop has what one of its steps adds. -/
theorem foldl_has {β : Type} {π : β → St} {g : β → Item → β} {ks : List Item}
    (hg : ∀ k ∈ ks, ∀ r, (π r).Has x → (π (g r k)).Has x) {k : Item} (hk : k ∈ ks)
    (hf : ∀ r, (π (g r k)).Has x) (r : β) : (π (ks.foldl g r)).Has x := by
  have keep : ∀ (ks : List Item), (∀ k ∈ ks, ∀ r, (π r).Has x → (π (g r k)).Has x) → ∀ r, (π r).Has x →
      (π (ks.foldl g r)).Has x := by
    intro ks
    induction ks with
    | nil => exact fun _ _ h => h
    | cons k ks ih => exact fun hg r h => ih (fun k hk => hg k (by simp [hk])) _ (hg k (by simp) r h)
  induction ks generalizing r with
  | nil => simp at hk
  | cons k' ks ih =>
    rw [List.foldl_cons]
    rcases List.mem_cons.mp hk with rfl | hk
    · exact keep ks (fun k hk => hg k (by simp [hk])) _ (hf r)
    · exact ih (fun k hk => hg k (by simp [hk])) hk _

/-- The types written with a parameter. -/
theorem has_newParameter {n : Item} {k : Item} (hk : k ∈ n.kids) (ht : k.type? = some .typeDeclaration) (st : St) :
    (newParameter c n st).1.Has (.sym (symOf c .typeDeclaration k.node)) := by
  unfold newParameter each
  dsimp only
  refine foldl_has (π := id) (fun k _ st h => ?_) hk (fun st => ?_) st
  · split
    · exact h.grow (Grow.add (C := True) (N := True) _ _)
    · exact h.grow (Grow.add (C := True) (N := True) _ _)
    · exact h
  · rw [ht]
    exact has_add _ _

theorem grow_newParameter {n : Item} {st : St} (h : st.Has x) : (newParameter c n st).1.Has x := by
  unfold newParameter
  refine h.grow (C := True) (N := True) (PreOrder.each ⟨Grow.refl, Grow.trans⟩ (fun k _ st => ?_) st)
  split
  · exact .add _ _
  · exact .add _ _
  · exact .refl _

/-- A parameter is the variable in it, and a type before it. -/
theorem param_fact {k : Node} (hd : Deep c u k) (hk : k.isPhrase .parameterDeclaration = true) (hx : x ∈ facts c u e k) :
    x = .var e.scope (paramOf c (Item.of c k)).1 (paramOf c (Item.of c k)).2 ∨
      ∀ st, (newParameter c (Item.of c k) st).1.Has x := by
  obtain ⟨ty, ks, rfl, _, hf, _⟩ := hd.inv hx
  simp only [Node.isPhrase, decide_eq_true_eq] at hk
  subst hk
  simp only [fine, isExprType, Bool.not_false, Bool.true_or, Bool.true_and, Bool.and_eq_true] at hf
  obtain ⟨k0, h1, h2, h3, h4⟩ := fold_one (c := c) (β := Bytes × Rng) (γ := Bytes × Rng) (π := id)
    (g := fun r k =>
      match k.tok? with
      | some t => if t.type = .variableName then (c.tokText t, c.range k.node) else r
      | none => r)
    (f := fun k _ => (c.nodeText k, c.range k)) hf.2
    (by
      intro k _ hk r
      cases k with
      | tok t =>
        have e1 : (Item.of c (.tok t)).tok? = some t := by simp [Item.tok?, of_node]
        simp only [id, e1]
        rw [if_neg]
        intro ht
        simp [varTok, ht] at hk
      | err t => simp [Item.tok?, of_node]
      | phr ty ks => simp [Item.tok?, of_node])
    (by
      intro k _ hk r
      obtain ⟨t, rfl, ht⟩ := varTok_isSome hk
      simp [Item.tok?, of_node, ht, Ctx.nodeText])
  have hp : paramOf c (Item.of c (.phr .parameterDeclaration ks)) = (c.nodeText k0, c.range k0) := by
    unfold paramOf newParameter
    dsimp only
    rw [of_kids]
    exact h4 _
  rw [facts, factsOf_silent hf.1] at hx
  simp only [ite_self, List.append_nil] at hx
  rw [own, List.mem_append] at hx
  rcases hx with hx | hx
  · right
    split at hx
    · simp only [usesOf, List.mem_map, List.mem_filter] at hx
      obtain ⟨k, ⟨hk, ht⟩, rfl⟩ := hx
      intro st
      have := has_newParameter (c := c) (n := Item.of c (.phr .parameterDeclaration ks)) (k := Item.of c k)
        (by rw [of_kids]; exact List.mem_map_of_mem hk) ((type_iff c k _).mpr ht) st
      rw [of_node] at this
      exact this
    · simp at hx
  left
  rw [filterMap_one (p := fun k => (varTok k).isSome) (fun k hk => by simpa using hk) h3] at hx
  obtain ⟨t, rfl, ht⟩ := varTok_isSome h2
  simp only [varTok, ht, if_true, Option.toList_some, List.map_cons, List.map_nil, List.mem_singleton] at hx
  rw [hx, hp]
  rfl

/-- What there is in a list of parameters. -/
theorem params_facts {k : Node} (hd : Deep c u k) (hk : k.isPhrase .parameterDeclarationList = true) (hx : x ∈ facts c u e k) :
    (∃ p ∈ paramsIn c (Item.of c k).kids, x = .var e.scope p.1 p.2) ∨
      ∀ r, (parameterList c (Item.of c k).kids r).1.Has x := by
  obtain ⟨ty, ks, rfl, _, hf, hds⟩ := hd.inv hx
  simp only [Node.isPhrase, decide_eq_true_eq] at hk
  subst hk
  have hf : ks.all (only c u [.parameterDeclaration]) = true := by simpa [fine, isExprType] using hf
  have hx := facts_inside hx (by simp [own, usesOf]) (by simp [Env.enter])
  rw [mem_factsOf] at hx
  obtain ⟨k, hk, hx⟩ := hx
  have ht := only_one hx (List.all_eq_true.mp hf k hk)
  rcases param_fact (hds k hk) ht hx with hx | hx
  case inr =>
    right
    intro r
    rw [of_kids]
    unfold parameterList
    refine foldl_has (π := Prod.fst) (fun k _ r h => ?_) (List.mem_map_of_mem hk) (fun r => ?_) r
    · split
      · exact grow_newParameter h
      · exact h
    · rw [if_pos ((type_iff c k _).mpr ht)]
      exact hx _
  left
  refine ⟨paramOf c (Item.of c k), ?_, hx⟩
  unfold paramsIn
  rw [List.mem_flatMap]
  refine ⟨Item.of c k, ?_, ?_⟩
  · rw [of_kids]
    exact List.mem_map_of_mem hk
  · rw [if_pos ((type_iff c k _).mpr ht)]
    simp

/-- What there is in a header. -/
theorem headParams_facts {ks : List Node} (hd : ∀ k ∈ ks, Deep c u k) {k : Node} (hk : k ∈ ks)
    (ht : k.isPhrase .parameterDeclarationList = true) (hx : x ∈ facts c u e k) :
    (∃ p ∈ headParams c (ks.map (Item.of c)), x = .var e.scope p.1 p.2) ∨
      ∀ r, (parameterList c (Item.of c k).kids r).1.Has x := by
  rcases params_facts (hd k hk) ht hx with ⟨p, hp, h⟩ | h
  case inr => exact Or.inr h
  refine Or.inl ⟨p, ?_, h⟩
  unfold headParams
  rw [List.mem_flatMap]
  refine ⟨Item.of c k, List.mem_map_of_mem hk, ?_⟩
  rw [if_pos ((type_iff c k _).mpr ht)]
  exact hp

include c in
theorem has_recordParameters {ps : List (Bytes × Rng)} {p : Bytes × Rng} (hp : p ∈ ps) (start : Pos) (st : St) :
    (recordParameters ps start st).Has (.var st.vars.range p.1 p.2) := by
  unfold recordParameters
  induction ps generalizing st with
  | nil => simp at hp
  | cons q ps ih =>
    rw [List.foldl_cons]
    rcases List.mem_cons.mp hp with rfl | hp
    · exact (has_record st p.1 p.2 start true).grow
        (Grow.recordParameters (C := True) (N := True) ps start (st.record p.1 p.2 start true))
    · exact ih hp _

theorem has_recordParametersAt {ps : List (Bytes × Rng)} {p : Bytes × Rng} (hp : p ∈ ps) {h : Item}
    (hl : (lastToken h.node).isSome = true) (st : St) : (recordParametersAt c ps h st).Has (.var st.vars.range p.1 p.2) := by
  unfold recordParametersAt
  split
  · simp at hp
  · next e1 => rw [e1] at hl; cases hl
  · exact has_recordParameters (c := c) hp _ _

/-! ### functions -/

theorem Calm.congr {e e' : Env} (he : e'.cls = e.cls) {n : Node} (h : Calm e n) : Calm e' n :=
  ⟨by rw [he]; exact h.cls, h.ns⟩

/-- The surroundings inside a function. -/
theorem Agree.function {st : St} (ha : Agree e st) (r : Rng) (s : Sym) :
    Agree { e with scope := r, outer := some e.scope } ((st.pushVars r).pushBlock s) := by
  refine ⟨rfl, ?_, ha.ns, ha.cls⟩
  intro r' hr'
  injection hr' with hr'
  subst hr'
  exact ⟨st.vars, st.varsBelow, rfl, ha.scope⟩

/-- The end of a function. -/
theorem has_function {st st' : St} {C N : Prop} {r : Rng} {s : Sym} (w : Within C N ((st.pushVars r).pushBlock s) st') :
    (∀ x, st'.Has x → st'.popVars.popBlock.Has x) ∧ st'.top.sym ∈ st'.popVars.popBlock.syms := by
  obtain ⟨_, h2, v, _, _, vs, h5, _⟩ := w.popScope
  have hb : st'.popVars.below ≠ [] := by
    unfold St.popVars
    rw [h5]
    show st'.below ≠ []
    rw [w.below]
    simp [St.pushBlock]
  refine ⟨fun x hx => (hx.popVars (by rw [h5]; simp)).popBlock hb, ?_⟩
  have := has_popBlock hb
  have e1 : st'.popVars.top.sym = st'.top.sym := by unfold St.popVars; rw [h5]
  rwa [e1] at this

/-- The name of a function is not lost. -/
theorem has_onTop {st : St} {f : Sym → Sym} (h : st.Has x) : (st.onTop f).Has x := h

theorem nameIn_cases {k : Node} (h : (nameIn c k).isSome = true) :
    (∃ t, k = .tok t ∧ t.type = TokType.name ∧ nameIn c k = some (c.tokText t)) ∨
      ∃ ks, k = .phr .identifier ks ∧ nameIn c k = some (c.nodeText k) := by
  cases k with
  | tok t =>
    left
    by_cases ht : t.type = TokType.name
    · exact ⟨t, rfl, ht, by simp [nameIn, ht]⟩
    · simp [nameIn, ht] at h
  | err t => simp [nameIn] at h
  | phr ty ks =>
    right
    by_cases ht : ty = .identifier
    · subst ht; exact ⟨ks, rfl, rfl⟩
    · cases ty <;> simp [nameIn] at h ht

theorem nameIn_none {k : Node} (h : (nameIn c k).isSome = false) :
    (∀ t, (Item.of c k).tok? = some t → t.type ≠ TokType.name) ∧ (Item.of c k).type? ≠ some .identifier := by
  refine ⟨fun t ht hn => ?_, fun ht => ?_⟩
  · cases k with
    | tok t' =>
      have : t' = t := by simpa [Item.tok?, of_node] using ht
      subst this
      simp [nameIn, hn] at h
    | err t => simp [Item.tok?, of_node] at ht
    | phr ty ks => simp [Item.tok?, of_node] at ht
  · rw [type_iff] at ht
    cases k with
    | tok t' => simp [Node.isPhrase] at ht
    | err t => simp [Node.isPhrase] at ht
    | phr ty ks =>
      simp only [Node.isPhrase, decide_eq_true_eq] at ht
      subst ht
      simp [nameIn] at h

/-- The name in a header of a function. -/
theorem functionHeader_sym {ks : List Node} (h : one (fun k => (nameIn c k).isSome) ks = true) :
    ∃ s, ks.findSome? (nameIn c) = some s ∧ ∀ r,
      (functionHeader c (ks.map (Item.of c)) r).1.top.sym = { r.1.top.sym with name := (tyOf s).fqn } := by
  obtain ⟨k0, h1, h2, h3, h4⟩ := fold_one (c := c) (π := fun r : St × List (Bytes × Rng) => r.1.top.sym)
    (g := fun r k =>
    match k.tok?, k.type? with
    | some t, _ => if t.type = .name then (r.1.onTop fun s => { s with name := (tyOf (c.tokText t)).fqn }, r.2) else r
    | none, some .parameterDeclarationList => parameterList c k.kids r
    | none, some .identifier => (r.1.onTop fun s => { s with name := (tyOf (c.nodeText k.node)).fqn }, r.2)
    | _, _ => r)
    (f := fun k s => { s with name := (tyOf ((nameIn c k).getD [])).fqn }) h
    (by
      intro k _ hk r
      have hn := nameIn_none hk
      split
      · next ht => rw [if_neg (hn.1 _ ht)]
      · exact (Grow.parameterList (C := True) (N := True) c _ r).sym
      · next ht => exact absurd ht hn.2
      · rfl)
    (by
      intro k _ hk r
      rcases nameIn_cases hk with ⟨t, rfl, ht, hn⟩ | ⟨ks', rfl, hn⟩
      · have e1 : (Item.of c (.tok t)).tok? = some t := by simp [Item.tok?, of_node]
        simp only [e1, ht, if_true, hn, Option.getD_some]
        rfl
      · have e1 : (Item.of c (.phr .identifier ks')).tok? = none := by simp [Item.tok?, of_node]
        simp only [e1, of_type, hn, Option.getD_some, of_node]
        rfl)
  obtain ⟨s, hs⟩ := Option.isSome_iff_exists.mp h2
  refine ⟨s, ?_, fun r => ?_⟩
  · rw [findSome_one (p := fun k => (nameIn c k).isSome) (fun k hk => by simpa using hk) h3, hs]
  · rw [hs] at h4
    exact h4 r

/-- The name in a header of a method. -/
theorem methodHeader_sym {ks : List Node} (h : one (fun k => (nameIn c k).isSome) ks = true) :
    ∃ s, ks.findSome? (nameIn c) = some s ∧ ∀ r,
      (methodHeader c (ks.map (Item.of c)) r).1.top.sym = { r.1.top.sym with name := s } := by
  obtain ⟨k0, h1, h2, h3, h4⟩ := fold_one (c := c) (π := fun r : St × List (Bytes × Rng) => r.1.top.sym)
    (g := fun r k =>
    match k.tok?, k.type? with
    | some t, _ => if t.type = .name then (r.1.onTop fun s => { s with name := c.tokText t }, r.2) else r
    | none, some .parameterDeclarationList => parameterList c k.kids r
    | none, some .identifier => (r.1.onTop fun s => { s with name := c.nodeText k.node }, r.2)
    | _, _ => r)
    (f := fun k s => { s with name := (nameIn c k).getD [] }) h
    (by
      intro k _ hk r
      have hn := nameIn_none hk
      split
      · next ht => rw [if_neg (hn.1 _ ht)]
      · exact (Grow.parameterList (C := True) (N := True) c _ r).sym
      · next ht => exact absurd ht hn.2
      · rfl)
    (by
      intro k _ hk r
      rcases nameIn_cases hk with ⟨t, rfl, ht, hn⟩ | ⟨ks', rfl, hn⟩
      · have e1 : (Item.of c (.tok t)).tok? = some t := by simp [Item.tok?, of_node]
        simp only [e1, ht, if_true, hn, Option.getD_some]
        rfl
      · have e1 : (Item.of c (.phr .identifier ks')).tok? = none := by simp [Item.tok?, of_node]
        simp only [e1, of_type, hn, Option.getD_some, of_node]
        rfl)
  obtain ⟨s, hs⟩ := Option.isSome_iff_exists.mp h2
  refine ⟨s, ?_, fun r => ?_⟩
  · rw [findSome_one (p := fun k => (nameIn c k).isSome) (fun k hk => by simpa using hk) h3, hs]
  · rw [hs] at h4
    exact h4 r

/-- The name of a header that is a child. -/
theorem headName_one {header : PType} {ks : List Node} {k0 : Node} (h : ks.filter (fun k => k.isPhrase header) = [k0])
    (hk : k0.isPhrase header = true) : headName c header ks = k0.kids.findSome? (nameIn c) := by
  unfold headName
  rw [findSome_one (p := fun k => k.isPhrase header) (fun k hk => by simp [hk]) h, if_pos hk]

/-- A header with something to find in it, or fine. -/
theorem Deep.silent_or {k : Node} (h : Deep c u k) :
    Analyser.silent c u k = true ∨ ∃ ty ks, k = .phr ty ks ∧ fine c u ty ks = true ∧ ∀ k ∈ ks, Deep c u k := by
  cases h with
  | silent h => exact Or.inl h
  | phr _ h2 h3 => exact Or.inr ⟨_, _, rfl, h2, h3⟩

theorem named_inv {header : PType} {b : Bool} {ks : List Node} (h : named c header b ks = true) :
    one (fun k => k.isPhrase header) ks = true ∧ ∀ k ∈ ks, k.isPhrase header = true →
      one (fun k => (nameIn c k).isSome) k.kids = true ∧ (b = false → ∀ k' ∈ k.kids, k'.isPhrase .identifier = false) := by
  unfold named at h
  rw [Bool.and_eq_true, List.all_eq_true] at h
  refine ⟨h.1, fun k hk ht => ?_⟩
  have := h.2 k hk
  rw [ht, Bool.not_true, Bool.false_or, Bool.and_eq_true] at this
  refine ⟨this.1, fun hb k' hk' => ?_⟩
  rw [hb, Bool.false_or] at this
  have := List.all_eq_true.mp this.2 k' hk'
  simpa using this

theorem has_functionHeader {ks : List Item} {k : Item} (hk : k ∈ ks) (ht : k.type? = some .parameterDeclarationList)
    (hx : ∀ r, (parameterList c k.kids r).1.Has x) (r : St × List (Bytes × Rng)) : (functionHeader c ks r).1.Has x := by
  unfold functionHeader
  refine foldl_has (π := Prod.fst) (fun k _ r h => ?_) hk (fun r => ?_) r
  · split
    · split
      · exact has_onTop h
      · exact h
    · exact h.grow (Grow.parameterList (C := True) (N := True) c _ _)
    · exact has_onTop h
    · exact h
  · split
    · next h => rw [tok_type h] at ht; simp at ht
    · exact hx r
    · next h => rw [h] at ht; simp at ht
    · next h1 h2 =>
      cases h : k.tok? with
      | some t => rw [tok_type h] at ht; simp at ht
      | none => exact absurd ht (h1 h)

theorem has_methodHeader {ks : List Item} {k : Item} (hk : k ∈ ks) (ht : k.type? = some .parameterDeclarationList)
    (hx : ∀ r, (parameterList c k.kids r).1.Has x) (r : St × List (Bytes × Rng)) : (methodHeader c ks r).1.Has x := by
  unfold methodHeader
  refine foldl_has (π := Prod.fst) (fun k _ r h => ?_) hk (fun r => ?_) r
  · split
    · split
      · exact has_onTop h
      · exact h
    · exact h.grow (Grow.parameterList (C := True) (N := True) c _ _)
    · exact has_onTop h
    · exact h
  · split
    · next h => rw [tok_type h] at ht; simp at ht
    · exact hx r
    · next h => rw [h] at ht; simp at ht
    · next h1 h2 =>
      cases h : k.tok? with
      | some t => rw [tok_type h] at ht; simp at ht
      | none => exact absurd ht (h1 h)

/-- What a header of a function or method has is found when its parameters are recorded. -/
theorem find_header {k : Node} {header : PType} (hd : Deep c u k) (hk : k.isPhrase header = true)
    (ht : header = .functionDeclarationHeader ∨ header = .methodDeclarationHeader)
    {st : St} {ps : List (Bytes × Rng)} (hps : ∃ qs, ps = qs ++ headParams c (Item.of c k).kids) (ha : Agree e st)
    (hst : ∀ k' ∈ (Item.of c k).kids, k'.type? = some .parameterDeclarationList →
      (∀ r, (parameterList c k'.kids r).1.Has x) → st.Has x) (hx : x ∈ facts c u e k) :
    (recordParametersAt c ps (Item.of c k) st).Has x := by
  obtain ⟨ty, ks, rfl, _, hf, hds⟩ := hd.inv hx
  simp only [Node.isPhrase, decide_eq_true_eq] at hk
  subst hk
  have hf : (ks.all (only c u [.parameterDeclarationList]) && (lastOfKids ks).isSome) = true := by
    rcases ht with rfl | rfl <;> simpa [fine, isExprType] using hf
  rw [Bool.and_eq_true] at hf
  have hx := facts_inside hx (by rcases ht with rfl | rfl <;> simp [own, usesOf]) (by rcases ht with rfl | rfl <;> simp [Env.enter])
  rw [mem_factsOf] at hx
  obtain ⟨k, hk, hx⟩ := hx
  have hlist := only_one hx (List.all_eq_true.mp hf.1 k hk)
  rcases headParams_facts hds hk hlist hx with ⟨p, hp, rfl⟩ | hx
  case inr =>
    refine (hst (Item.of c k) ?_ ((type_iff c k _).mpr hlist) hx).grow
      (Grow.recordParametersAt (C := True) (N := True) c _ _ _)
    rw [of_kids]
    exact List.mem_map_of_mem hk
  obtain ⟨qs, rfl⟩ := hps
  rw [← ha.scope]
  refine has_recordParametersAt (List.mem_append_right _ (by rw [of_kids]; exact hp)) ?_ st
  rw [of_node]
  exact hf.2

theorem find_function {n : Item} {ks : List Node} (p : Parts c u e n .functionDeclaration ks)
    (hf : fine c u .functionDeclaration ks = true) {st : St} (ha : Agree e st)
    (hx : x ∈ facts c u e (.phr .functionDeclaration ks)) : (newFunction c n st).Has x := by
  simp only [fine, isExprType, Bool.not_false, Bool.true_or, Bool.true_and, Bool.and_eq_true] at hf
  obtain ⟨⟨hf1, hf2⟩, hf3⟩ := hf
  obtain ⟨hn1, hn2⟩ := named_inv hf2
  have H : Closed c (e.cls = none) False (Stay e) (StayIn e) := hst c e
  let g : St × List (Bytes × Rng) → Item → St × List (Bytes × Rng) := fun r k =>
    match k.type? with
    | some .functionDeclarationHeader =>
      let r := functionHeader c k.kids r
      (recordParametersAt c r.2 k r.1, r.2)
    | some .functionDeclarationBody => (scanForChildren k r.1, r.2)
    | _ => r
  have hg : ∀ k ∈ ks, ∀ r, StayIn e r.1 (g r (Item.of c k)).1 := by
    intro k hk r
    dsimp only [g]
    split
    · exact (stayIn_pre e).trans (Within.functionHeader c _ r) (Grow.toWithin (Grow.recordParametersAt _ _ _ _))
    · exact Grow.toWithin (H.scanForChildren (p.calm k hk).good.kids r.1)
    · exact (stayIn_pre e).refl _
  have hw : StayIn e ((st.pushVars (c.range n.node)).pushBlock ⟨.function, c.range n.node, [], []⟩)
      ((ks.map (Item.of c)).foldl g ((st.pushVars (c.range n.node)).pushBlock ⟨.function, c.range n.node, [], []⟩, [])).1 := by
    refine PreOrder.fold (stayIn_pre e) (fun k hk r => ?_) ((st.pushVars (c.range n.node)).pushBlock ⟨.function, c.range n.node, [], []⟩, [])
    obtain ⟨k', hk', rfl⟩ := List.mem_map.mp hk
    exact hg k' hk' r
  have hname : ∃ s, headName c .functionDeclarationHeader ks = some s ∧ ∀ r, ((ks.map (Item.of c)).foldl g r).1.top.sym =
      { r.1.top.sym with name := (tyOf s).fqn } := by
    obtain ⟨k0, h1, h2, h3, h4⟩ := fold_one (c := c) (π := fun r : St × List (Bytes × Rng) => r.1.top.sym) (g := g)
      (f := fun k s => { s with name := (tyOf ((k.kids.findSome? (nameIn c)).getD [])).fqn }) hn1
      (by
        intro k hk hp r
        dsimp only [g]
        split
        · next ht => rw [type_iff] at ht; rw [ht] at hp; cases hp
        · exact (H.scanForChildren (p.calm k hk).good.kids r.1).sym
        · rfl)
      (by
        intro k hk hp r
        obtain ⟨s, hs1, hs2⟩ := functionHeader_sym (hn2 k hk hp).1
        dsimp only [g]
        rw [(type_iff c k _).mpr hp]
        dsimp only
        rw [(Grow.recordParametersAt (C := True) (N := True) _ _ _ _).sym, of_kids, hs2, hs1]
        rfl)
    rw [headName_one h3 h2]
    obtain ⟨s, hs1, _⟩ := functionHeader_sym (hn2 k0 h1 h2).1
    rw [hs1] at h4 ⊢
    exact ⟨s, rfl, h4⟩
  unfold newFunction
  rw [p.kids]
  show St.Has (St.popBlock (St.popVars (St.onTop ((ks.map (Item.of c)).foldl g _).1 _))) x
  have hw2 := hw.trans (Within.onTop (C := e.cls = none) (N := False) _ (fun s => { s with name :=
      ((⟨s.name, s.name, 0⟩ : Types.Ty).setNamespace ((ks.map (Item.of c)).foldl g ((st.pushVars (c.range n.node)).pushBlock
        ⟨.function, c.range n.node, [], []⟩, [])).1.ns).fqn }) rfl rfl)
  obtain ⟨hA, hB⟩ := has_function hw2
  rw [facts, List.mem_append] at hx
  rcases hx with hx | hx
  · obtain ⟨s, hs1, hs2⟩ := hname
    rw [hs1] at hf3
    simp only [own, usesOf, ite_self, List.nil_append, hs1, declares, List.mem_singleton] at hx
    subst hx
    have e1 : (St.onTop ((ks.map (Item.of c)).foldl g ((st.pushVars (c.range n.node)).pushBlock ⟨.function, c.range n.node, [], []⟩, [])).1
        (fun s => { s with name := ((⟨s.name, s.name, 0⟩ : Types.Ty).setNamespace ((ks.map (Item.of c)).foldl g
          ((st.pushVars (c.range n.node)).pushBlock ⟨.function, c.range n.node, [], []⟩, [])).1.ns).fqn })).top.sym =
        ⟨.function, c.range (.phr .functionDeclaration ks), fullName e.ns s, []⟩ := by
      show Sym.mk _ _ _ _ = _
      rw [hs2, tyOf_plain hf3]
      dsimp only
      rw [hw.ns not_false, setNamespace_plain hf3, p.node]
      show Sym.mk _ _ (fullName st.ns s) _ = _
      rw [ha.ns]
      rfl
    show _ ∈ St.syms _
    rw [← e1]
    exact hB
  · refine hA x (has_onTop ?_)
    rw [if_neg (by simp [PType.closed])] at hx
    have he : Env.enter c e .functionDeclaration ks = { e with scope := c.range n.node, outer := some e.scope } := by
      simp [Env.enter, p.node]
    rw [he] at hx
    refine seqFold (e := { e with scope := c.range n.node, outer := some e.scope }) hg (fun k hk r ha' hx' => ?_)
      (r := ((st.pushVars (c.range n.node)).pushBlock ⟨.function, c.range n.node, [], []⟩, []))
      (ha.function (c.range n.node) ⟨.function, c.range n.node, [], []⟩) hx
    obtain ⟨ty', ht, ms, rfl⟩ := find_only hx' (List.all_eq_true.mp hf1 k hk)
    simp only [List.mem_cons, List.not_mem_nil, or_false] at ht
    dsimp only [g]
    rw [of_type]
    rcases ht with rfl | rfl
    · dsimp only
      exact find_header (p.deep _ hk) (by simp [Node.isPhrase]) (Or.inl rfl) ⟨r.2, functionHeader_snd _ _⟩
        (ha'.within (Within.functionHeader c _ r))
        (fun _ hk' ht' hx' => has_functionHeader hk' ht' hx' _) hx'
    · dsimp only
      obtain ⟨_, _, e1, _, hf', hd'⟩ := (p.deep _ hk).inv hx'
      cases e1
      exact find_body (e := { e with scope := c.range n.node, outer := some e.scope }) hd'
        (Calm.congr (e := e) (e' := { e with scope := c.range n.node, outer := some e.scope }) rfl (p.calm _ hk)) (by simpa [fine, isExprType] using hf') (by simp [own, usesOf]) (by simp [Env.enter]) ha' hx'

theorem find_method {n : Item} {ks : List Node} (p : Parts c u e n .methodDeclaration ks)
    (hf : fine c u .methodDeclaration ks = true) {st : St} (ha : Agree e st)
    (hx : x ∈ facts c u e (.phr .methodDeclaration ks)) : (newMethod c n st).Has x := by
  simp only [fine, isExprType, Bool.not_false, Bool.true_or, Bool.true_and, Bool.and_eq_true] at hf
  obtain ⟨hf1, hf2⟩ := hf
  obtain ⟨hn1, hn2⟩ := named_inv hf2
  have H : Closed c (e.cls = none) False (Stay e) (StayIn e) := hst c e
  let g : St × List (Bytes × Rng) → Item → St × List (Bytes × Rng) := fun r k =>
    match k.type? with
    | some .methodDeclarationHeader =>
      let r := methodHeader c k.kids r
      (recordParametersAt c r.2 k r.1, r.2)
    | some .methodDeclarationBody => (scanForChildren k r.1, r.2)
    | _ => r
  have hg : ∀ k ∈ ks, ∀ r, StayIn e r.1 (g r (Item.of c k)).1 := by
    intro k hk r
    dsimp only [g]
    split
    · exact (stayIn_pre e).trans (Within.methodHeader c _ r) (Grow.toWithin (Grow.recordParametersAt _ _ _ _))
    · exact Grow.toWithin (H.scanForChildren (p.calm k hk).good.kids r.1)
    · exact (stayIn_pre e).refl _
  have hw : StayIn e ((st.pushVars (c.range n.node)).pushBlock ⟨.method, c.range n.node, [], []⟩)
      ((ks.map (Item.of c)).foldl g ((st.pushVars (c.range n.node)).pushBlock ⟨.method, c.range n.node, [], []⟩, [])).1 := by
    refine PreOrder.fold (stayIn_pre e) (fun k hk r => ?_) ((st.pushVars (c.range n.node)).pushBlock ⟨.method, c.range n.node, [], []⟩, [])
    obtain ⟨k', hk', rfl⟩ := List.mem_map.mp hk
    exact hg k' hk' r
  have hname : ∃ s, headName c .methodDeclarationHeader ks = some s ∧ ∀ r, ((ks.map (Item.of c)).foldl g r).1.top.sym =
      { r.1.top.sym with name := s } := by
    obtain ⟨k0, h1, h2, h3, h4⟩ := fold_one (c := c) (π := fun r : St × List (Bytes × Rng) => r.1.top.sym) (g := g)
      (f := fun k s => { s with name := (k.kids.findSome? (nameIn c)).getD [] }) hn1
      (by
        intro k hk hp r
        dsimp only [g]
        split
        · next ht => rw [type_iff] at ht; rw [ht] at hp; cases hp
        · exact (H.scanForChildren (p.calm k hk).good.kids r.1).sym
        · rfl)
      (by
        intro k hk hp r
        obtain ⟨s, hs1, hs2⟩ := methodHeader_sym (hn2 k hk hp).1
        dsimp only [g]
        rw [(type_iff c k _).mpr hp]
        dsimp only
        rw [(Grow.recordParametersAt (C := True) (N := True) _ _ _ _).sym, of_kids, hs2, hs1]
        rfl)
    rw [headName_one h3 h2]
    obtain ⟨s, hs1, _⟩ := methodHeader_sym (hn2 k0 h1 h2).1
    rw [hs1] at h4 ⊢
    exact ⟨s, rfl, h4⟩
  unfold newMethod
  rw [p.kids]
  show St.Has (St.popBlock (St.popVars (St.onTop ((ks.map (Item.of c)).foldl g _).1 _))) x
  have hw2 := hw.trans (Within.onTop (C := e.cls = none) (N := False) _ (fun s => { s with scope :=
      ((ks.map (Item.of c)).foldl g ((st.pushVars (c.range n.node)).pushBlock
        ⟨.method, c.range n.node, [], []⟩, [])).1.lastClassFQN }) rfl rfl)
  obtain ⟨hA, hB⟩ := has_function hw2
  rw [facts, List.mem_append] at hx
  rcases hx with hx | hx
  · obtain ⟨s, hs1, hs2⟩ := hname
    have e1 : ∃ q, (St.onTop ((ks.map (Item.of c)).foldl g ((st.pushVars (c.range n.node)).pushBlock ⟨.method, c.range n.node, [], []⟩, [])).1
        (fun s => { s with scope := ((ks.map (Item.of c)).foldl g
          ((st.pushVars (c.range n.node)).pushBlock ⟨.method, c.range n.node, [], []⟩, [])).1.lastClassFQN })).top.sym =
        ⟨.method, c.range (.phr .methodDeclaration ks), s, q⟩ ∧ ∀ q', e.cls = some q' → q = q' := by
      refine ⟨((ks.map (Item.of c)).foldl g ((st.pushVars (c.range n.node)).pushBlock
        ⟨.method, c.range n.node, [], []⟩, [])).1.lastClassFQN, ?_, fun q' hq' => ?_⟩
      · show Sym.mk _ _ _ _ = _
        rw [hs2, p.node]
        rfl
      · obtain ⟨y, h1, h2, _⟩ := ha.cls q' hq'
        have hcl : ((ks.map (Item.of c)).foldl g ((st.pushVars (c.range n.node)).pushBlock ⟨.method, c.range n.node, [], []⟩, [])).1.classes =
            st.classes := hw.classes (by rw [hq']; simp)
        have hns : ((ks.map (Item.of c)).foldl g ((st.pushVars (c.range n.node)).pushBlock ⟨.method, c.range n.node, [], []⟩, [])).1.ns =
            st.ns := hw.ns not_false
        unfold St.lastClassFQN
        rw [hcl, h1, hns]
        exact h2
    obtain ⟨q, e1, e2⟩ := e1
    rw [e1] at hB
    simp only [own, usesOf, ite_self, List.nil_append, hs1, declaresMember, List.mem_cons] at hx
    rcases hx with rfl | hx
    · exact ⟨_, hB, rfl, rfl, rfl⟩
    · cases hq : e.cls with
      | none => rw [hq] at hx; cases hx
      | some q' =>
        rw [hq] at hx
        simp only [List.mem_singleton] at hx
        subst hx
        rw [e2 q' hq] at hB
        exact hB
  · refine hA x (has_onTop ?_)
    rw [if_neg (by simp [PType.closed])] at hx
    have he : Env.enter c e .methodDeclaration ks = { e with scope := c.range n.node, outer := some e.scope } := by
      simp [Env.enter, p.node]
    rw [he] at hx
    refine seqFold (e := { e with scope := c.range n.node, outer := some e.scope }) hg (fun k hk r ha' hx' => ?_)
      (r := ((st.pushVars (c.range n.node)).pushBlock ⟨.method, c.range n.node, [], []⟩, []))
      (ha.function (c.range n.node) ⟨.method, c.range n.node, [], []⟩) hx
    obtain ⟨ty', ht, ms, rfl⟩ := find_only hx' (List.all_eq_true.mp hf1 k hk)
    simp only [List.mem_cons, List.not_mem_nil, or_false] at ht
    dsimp only [g]
    rw [of_type]
    rcases ht with rfl | rfl
    · dsimp only
      exact find_header (p.deep _ hk) (by simp [Node.isPhrase]) (Or.inr rfl) ⟨r.2, methodHeader_snd _ _⟩
        (ha'.within (Within.methodHeader c _ r))
        (fun _ hk' ht' hx' => has_methodHeader hk' ht' hx' _) hx'
    · dsimp only
      obtain ⟨_, _, e1, _, hf', hd'⟩ := (p.deep _ hk).inv hx'
      cases e1
      exact find_body (e := { e with scope := c.range n.node, outer := some e.scope }) hd'
        (Calm.congr (e := e) (e' := { e with scope := c.range n.node, outer := some e.scope }) rfl (p.calm _ hk)) (by simpa [fine, isExprType] using hf') (by simp [own, usesOf]) (by simp [Env.enter]) ha' hx'

/-! ### closures -/

theorem single_range (ty : PType) (t : Tok) : c.range (.phr ty [.tok t]) = c.range (.tok t) := by
  simp [Ctx.range, firstToken, firstOfKids, lastToken, lastOfKids]

theorem single_text (ty : PType) (t : Tok) : c.nodeText (.phr ty [.tok t]) = c.tokText t := by
  simp [Ctx.nodeText, firstToken, firstOfKids, lastToken, lastOfKids, Ctx.tokText]

/-- A variable of `use`. -/
theorem find_useVariable {k : Node} (hd : Deep c u k) (hk : k.isPhrase .anonymousFunctionUseVariable = true) {st : St}
    (ha : Agree e st) (hx : x ∈ facts c u e k) :
    (((st.record (c.nodeText k) (c.range k) (c.range k).stop true).recordBelow (c.nodeText k) (c.range k) (c.range k).stop false).add
      (symOf c .variable k)).Has x := by
  obtain ⟨ty, ks, rfl, _, hf, hds⟩ := hd.inv hx
  simp only [Node.isPhrase, decide_eq_true_eq] at hk
  subst hk
  simp only [fine, isExprType, Bool.not_false, Bool.true_or, Bool.true_and] at hf
  split at hf
  · next t _ =>
    refine St.Has.grow ?_ (Grow.add (C := True) (N := True) _ _)
    rw [single_range, single_text]
    rw [facts] at hx
    simp only [own, usesOf, ite_self, List.nil_append, factsOf, facts, List.append_nil, ite_self] at hx
    by_cases ht : t.type = .variableName
    · simp only [varTok, ht, if_true, List.filterMap_cons, List.filterMap_nil, List.flatMap_cons, List.flatMap_nil,
        List.append_nil, List.map_cons, List.mem_cons] at hx
      rcases hx with rfl | hx
      · have h1 := has_record st (c.tokText t) (c.range (.tok t)) (c.range (.tok t)).stop true
        rw [ha.scope] at h1
        exact h1.grow (Grow.recordBelow (C := True) (N := True) _ _ _ _ _)
      · rw [List.mem_map] at hx
        obtain ⟨r, hr, rfl⟩ := hx
        rw [Option.mem_toList] at hr
        obtain ⟨v, vs, h1, rfl⟩ := ha.outer r hr
        exact has_recordBelow _ _ _ _ _ (vs := vs) h1
    · simp [varTok, ht] at hx
  · cases hf

theorem find_use {ks : List Node} (hd : ∀ k ∈ ks, Deep c u k) (hf : ks.all (only c u [.closureUseList]) = true) {st : St}
    (ha : Agree e st) (hx : x ∈ factsOf c u e ks) : (closureUse c (ks.map (Item.of c)) st).Has x := by
  have H := hst c e
  unfold closureUse
  have hg2 : ∀ (k : Item) (st : St), Stay e st (if k.type? = some .anonymousFunctionUseVariable then
      (((st.record (c.nodeText k.node) (c.range k.node) (c.range k.node).stop true).recordBelow (c.nodeText k.node)
        (c.range k.node) (c.range k.node).stop false).add (symOf c .variable k.node)) else st) :=
    fun k st => (stay_pre e).ite fun _ => (Grow.record ..).trans ((Grow.recordBelow ..).trans (.add _ _))
  refine seq (fun k hk st => ((stay_pre e).ite fun _ => (stay_pre e).each (fun x _ st => hg2 x st) st).toWithin) (fun k hk st ha hx => ?_) ha hx
  have ht := only_one hx (List.all_eq_true.mp hf k hk)
  rw [if_pos ((type_iff c k _).mpr ht), of_kids]
  obtain ⟨ty, ms, rfl, _, hf', hd'⟩ := (hd k hk).inv hx
  simp only [Node.isPhrase, decide_eq_true_eq] at ht
  subst ht
  have hf' : ms.all (only c u [.anonymousFunctionUseVariable]) = true := by simpa [fine, isExprType] using hf'
  refine seq (fun k hk st => (hg2 _ st).toWithin) (fun k hk st ha hx => ?_) ha (facts_inside hx (by simp [own, usesOf]) (by simp [Env.enter]))
  have ht := only_one hx (List.all_eq_true.mp hf' k hk)
  rw [if_pos ((type_iff c k _).mpr ht), of_node]
  exact find_useVariable (hd' k hk) ht ha hx

/-- What the header of a closure has. -/
theorem find_anonymousHeader {k : Node} (hd : Deep c u k) (hk : k.isPhrase .anonymousFunctionHeader = true)
    {r : St × List (Bytes × Rng)} (ha : Agree e r.1) (hx : x ∈ facts c u e k) (p : Pos) :
    (recordParameters (anonymousHeader c (Item.of c k).kids r).2 p (anonymousHeader c (Item.of c k).kids r).1).Has x := by
  have H := hst c e
  obtain ⟨ty, ks, rfl, _, hf, hds⟩ := hd.inv hx
  simp only [Node.isPhrase, decide_eq_true_eq] at hk
  subst hk
  have hf : ks.all (only c u [.parameterDeclarationList, .anonymousFunctionUseClause]) = true := by
    simpa [fine, isExprType] using hf
  have hx := facts_inside hx (by simp [own, usesOf]) (by simp [Env.enter])
  have hcases : (∃ p ∈ headParams c (ks.map (Item.of c)), x = .var e.scope p.1 p.2) ∨
      (∃ k ∈ ks, k.isPhrase .parameterDeclarationList = true ∧ ∀ r, (parameterList c (Item.of c k).kids r).1.Has x) ∨
      ∃ k ∈ ks, k.isPhrase .anonymousFunctionUseClause = true ∧ x ∈ facts c u e k := by
    rw [mem_factsOf] at hx
    obtain ⟨k, hk, hx⟩ := hx
    obtain ⟨ty', ht, ms, rfl⟩ := find_only hx (List.all_eq_true.mp hf k hk)
    simp only [List.mem_cons, List.not_mem_nil, or_false] at ht
    rcases ht with rfl | rfl
    · rcases headParams_facts hds hk (by simp [Node.isPhrase]) hx with h | h
      · exact Or.inl h
      · exact Or.inr (Or.inl ⟨_, hk, by simp [Node.isPhrase], h⟩)
    · exact Or.inr (Or.inr ⟨_, hk, by simp [Node.isPhrase], hx⟩)
  rw [of_kids]
  rcases hcases with ⟨q, hq, rfl⟩ | ⟨k, hk, ht, hx⟩ | ⟨k, hk, ht, hx⟩
  case inr.inl =>
    refine St.Has.grow ?_ (Grow.recordParameters (C := True) (N := True) _ p _)
    unfold anonymousHeader
    refine foldl_has (π := Prod.fst) (fun k _ r h => ?_) (List.mem_map_of_mem hk) (fun r => ?_) r
    · split
      · exact h.grow (Grow.parameterList (C := True) (N := True) c _ r)
      · exact h.grow (Grow.closureUse (C := True) (N := True) c _ _)
      · exact h
    · rw [(type_iff c k _).mpr ht]
      exact hx r
  · have h1 : (anonymousHeader c (ks.map (Item.of c)) r).1.vars.range = e.scope :=
      ((Grow.anonymousHeader (C := e.cls = none) (N := False) c (ks.map (Item.of c)) r).vars.range).trans ha.scope
    have h2 := has_recordParameters (c := c) (ps := (anonymousHeader c (ks.map (Item.of c)) r).2) (p := q)
      (by rw [anonymousHeader_snd]; exact List.mem_append_right _ hq) p (anonymousHeader c (ks.map (Item.of c)) r).1
    rw [h1] at h2
    exact h2
  · refine St.Has.grow ?_ (Grow.recordParameters (C := True) (N := True) _ p _)
    unfold anonymousHeader
    refine fold_has (e := e) (k := Item.of c k) (fun k _ r => ?_) (List.mem_map_of_mem hk) (fun r ha => ?_) ha
    · refine Grow.toWithin (C := e.cls = none) (N := False) ?_
      split
      · exact .parameterList c _ r
      · exact .closureUse c _ _
      · exact (stay_pre e).refl _
    · rw [(type_iff c k _).mpr ht]
      dsimp only
      obtain ⟨ty, ms, rfl, _, hf', hd'⟩ := (hds k hk).inv hx
      simp only [Node.isPhrase, decide_eq_true_eq] at ht
      subst ht
      rw [of_kids]
      exact find_use hd' (by simpa [fine, isExprType] using hf') ha (facts_inside hx (by simp [own, usesOf]) (by simp [Env.enter]))

theorem find_closure {n : Item} {ks : List Node} (p : Parts c u e n .anonymousFunctionCreationExpression ks)
    (hf : fine c u .anonymousFunctionCreationExpression ks = true) {st : St} (ha : Agree e st)
    (hx : x ∈ facts c u e (.phr .anonymousFunctionCreationExpression ks)) : (newAnonymousFunction c n st).Has x := by
  simp only [fine, isExprType, Bool.not_false, Bool.true_or, Bool.true_and] at hf
  have H : Closed c (e.cls = none) False (Stay e) (StayIn e) := hst c e
  let g : St × List (Bytes × Rng) → Item → St × List (Bytes × Rng) := fun r k =>
    match k.type? with
    | some .anonymousFunctionHeader =>
      let r := anonymousHeader c k.kids r
      (recordParameters r.2 (c.range k.node).stop r.1, r.2)
    | some .functionDeclarationBody => (scanForChildren k r.1, r.2)
    | _ => r
  have hg : ∀ k ∈ ks, ∀ r, StayIn e r.1 (g r (Item.of c k)).1 := by
    intro k hk r
    dsimp only [g]
    split
    · exact Grow.toWithin ((stay_pre e).trans (Grow.anonymousHeader c _ r) (Grow.recordParameters _ _ _))
    · exact Grow.toWithin (H.scanForChildren (p.calm k hk).good.kids r.1)
    · exact (stayIn_pre e).refl _
  have hw : StayIn e ((st.pushVars (c.range n.node)).pushBlock ⟨.anonymousFunction, c.range n.node, [], []⟩)
      ((ks.map (Item.of c)).foldl g ((st.pushVars (c.range n.node)).pushBlock ⟨.anonymousFunction, c.range n.node, [], []⟩, [])).1 := by
    refine PreOrder.fold (stayIn_pre e) (fun k hk r => ?_) ((st.pushVars (c.range n.node)).pushBlock ⟨.anonymousFunction, c.range n.node, [], []⟩, [])
    obtain ⟨k', hk', rfl⟩ := List.mem_map.mp hk
    exact hg k' hk' r
  unfold newAnonymousFunction
  rw [p.kids]
  show St.Has (St.popBlock (St.popVars ((ks.map (Item.of c)).foldl g _).1)) x
  refine (has_function hw).1 x ?_
  rw [facts, if_neg (by simp [PType.closed])] at hx
  have he : Env.enter c e .anonymousFunctionCreationExpression ks = { e with scope := c.range n.node, outer := some e.scope } := by
    simp [Env.enter, p.node]
  rw [he] at hx
  simp only [own, usesOf, ite_self, List.nil_append, List.nil_append] at hx
  refine seqFold (e := { e with scope := c.range n.node, outer := some e.scope }) hg (fun k hk r ha' hx' => ?_)
    (r := ((st.pushVars (c.range n.node)).pushBlock ⟨.anonymousFunction, c.range n.node, [], []⟩, []))
    (ha.function (c.range n.node) ⟨.anonymousFunction, c.range n.node, [], []⟩) hx
  obtain ⟨ty', ht, ms, rfl⟩ := find_only hx' (List.all_eq_true.mp hf k hk)
  simp only [List.mem_cons, List.not_mem_nil, or_false] at ht
  dsimp only [g]
  rw [of_type]
  rcases ht with rfl | rfl
  · dsimp only
    exact find_anonymousHeader (p.deep _ hk) (by simp [Node.isPhrase]) ha' hx' _
  · dsimp only
    obtain ⟨_, _, e1, _, hf', hd'⟩ := (p.deep _ hk).inv hx'
    cases e1
    exact find_body (e := { e with scope := c.range n.node, outer := some e.scope }) hd'
      (Calm.congr (e := e) (e' := { e with scope := c.range n.node, outer := some e.scope }) rfl (p.calm _ hk))
      (by simpa [fine, isExprType] using hf') (by simp [own, usesOf]) (by simp [Env.enter]) ha' hx'

end Verif.Analyser
