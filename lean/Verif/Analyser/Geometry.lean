import Verif.Analyser.Rename

/-!
Where the nodes of a syntax tree are in the text, and which function is around a position.
-/

namespace Verif.Analyser
open Verif.Symbols (Tree Var Rec Info Inside)
open Verif.Position (Before)

section
variable {S : Type} {L : Levels S} {c : Ctx}

mutual

/-- A node of a tree is regular and in its part of the text. -/
theorem places_chain : ∀ (n : Node) (σ : S) (a b : Nat), WF c n → Chain a b (toks n) → ∀ x ∈ placesIn L σ n,
    WF c x.2 ∧ Chain a b (toks x.2)
  | .tok t, σ, a, b, hw, hc, x, hx => by
    simp only [placesIn, List.mem_singleton] at hx
    subst hx; exact ⟨hw, hc⟩
  | .err t, σ, a, b, hw, hc, x, hx => by
    simp only [placesIn, List.mem_singleton] at hx
    subst hx; exact ⟨hw, hc⟩
  | .phr ty ks, σ, a, b, hw, hc, x, hx => by
    rw [placesIn, List.mem_cons] at hx
    rcases hx with rfl | hx
    · exact ⟨hw, hc⟩
    · rw [WF] at hw
      rw [toks] at hc
      exact places_chains ks _ a b hw.2 hc x hx

theorem places_chains : ∀ (ks : List Node) (σ : S) (a b : Nat), WFs c ks → Chain a b (toksOf ks) → ∀ x ∈ placesInAll L σ ks,
    WF c x.2 ∧ Chain a b (toks x.2)
  | [], _, _, _, _, _, x, hx => by simp [placesInAll] at hx
  | k :: ks, σ, a, b, hw, hc, x, hx => by
    rw [toksOf] at hc
    obtain ⟨m, h1, h2⟩ := chain_append.mp hc
    rw [placesInAll, List.mem_append] at hx
    rcases hx with hx | hx
    · obtain ⟨h3, h4⟩ := places_chain k σ a m hw.1 h1 x hx
      exact ⟨h3, chain_mono h4 (Nat.le_refl _) (chain_le h2)⟩
    · obtain ⟨h3, h4⟩ := places_chains ks σ m b hw.2 h2 x hx
      exact ⟨h3, chain_mono h4 (chain_le h1) (Nat.le_refl _)⟩

end

/-- The range of a node of a part of the text is in that part. -/
theorem range_in (hinc : Increasing c) {n : Node} {a b : Nat} (hw : WF c n) (hc : Chain a b (toks n)) :
    Le (c.posAt a) (c.range n).start ∧ Le (c.range n).stop (c.posAt b) := by
  obtain ⟨i, j, h1, h2, h3, _⟩ := range_spec hw hc
  rw [h1]
  exact ⟨hinc.le h2, hinc.le h3⟩

mutual

/-- Two nodes around a position: one is inside the other. -/
theorem places_nested (hinc : Increasing c) (pos : Pos) : ∀ (n : Node) (σ : S) (a b : Nat), WF c n → Chain a b (toks n) →
    ∀ x ∈ placesIn L σ n, ∀ y ∈ placesIn L σ n, Inside pos (c.range x.2) → Inside pos (c.range y.2) →
    y ∈ placesIn L x.1 x.2 ∨ x ∈ placesIn L y.1 y.2
  | .tok t, σ, a, b, hw, hc, x, hx, y, hy, h1, h2 => by
    simp only [placesIn, List.mem_singleton] at hx hy
    subst hx hy; left; simp [placesIn]
  | .err t, σ, a, b, hw, hc, x, hx, y, hy, h1, h2 => by
    simp only [placesIn, List.mem_singleton] at hx hy
    subst hx hy; left; simp [placesIn]
  | .phr ty ks, σ, a, b, hw, hc, x, hx, y, hy, h1, h2 => by
    have hx' := hx
    have hy' := hy
    rw [placesIn, List.mem_cons] at hx hy
    rcases hx with rfl | hx
    · left; exact hy'
    · rcases hy with rfl | hy
      · right; exact hx'
      · rw [WF] at hw
        rw [toks] at hc
        exact places_nesteds hinc pos ks _ a b hw.2 hc x hx y hy h1 h2

theorem places_nesteds (hinc : Increasing c) (pos : Pos) : ∀ (ks : List Node) (σ : S) (a b : Nat), WFs c ks → Chain a b (toksOf ks) →
    ∀ x ∈ placesInAll L σ ks, ∀ y ∈ placesInAll L σ ks, Inside pos (c.range x.2) → Inside pos (c.range y.2) →
    y ∈ placesIn L x.1 x.2 ∨ x ∈ placesIn L y.1 y.2
  | [], _, _, _, _, _, x, hx, _, _, _, _ => by simp [placesInAll] at hx
  | k :: ks, σ, a, b, hw, hc, x, hx, y, hy, hpx, hpy => by
    rw [toksOf] at hc
    obtain ⟨m, h1, h2⟩ := chain_append.mp hc
    have apart : ∀ u ∈ placesIn L σ k, ∀ v ∈ placesInAll L σ ks, Inside pos (c.range u.2) → Inside pos (c.range v.2) → False := by
      intro u hu v hv hpu hpv
      obtain ⟨h3, h4⟩ := places_chain k σ a m hw.1 h1 u hu
      obtain ⟨h5, h6⟩ := places_chains ks σ m b hw.2 h2 v hv
      have h7 := (range_in hinc h3 h4).2
      have h8 := (range_in hinc h5 h6).1
      exact hpv.1 (before_le hpu.2 (h7.trans h8))
    rw [placesInAll, List.mem_append] at hx hy
    rcases hx with hx | hx <;> rcases hy with hy | hy
    · exact places_nested hinc pos k σ a m hw.1 h1 x hx y hy hpx hpy
    · exact (apart x hx y hy hpx hpy).elim
    · exact (apart y hy x hx hpy hpx).elim
    · exact places_nesteds hinc pos ks σ m b hw.2 h2 x hx y hy hpx hpy

end

end

section
variable {c : Ctx}

mutual

/-- The function around a node of a part of the text is in that part, if it is not around the part. -/
theorem places_scope (hinc : Increasing c) : ∀ (n : Node) (σ : Place) (a b : Nat), WF c n → Chain a b (toks n) →
    ∀ x ∈ placesIn (places c) σ n, x.1.scope = σ.scope ∨ Le (c.posAt a) x.1.scope.start ∧ Le x.1.scope.stop (c.posAt b)
  | .tok t, σ, a, b, hw, hc, x, hx => by
    simp only [placesIn, List.mem_singleton] at hx
    subst hx; exact .inl rfl
  | .err t, σ, a, b, hw, hc, x, hx => by
    simp only [placesIn, List.mem_singleton] at hx
    subst hx; exact .inl rfl
  | .phr ty ks, σ, a, b, hw, hc, x, hx => by
    have hr := range_in hinc hw hc
    rw [placesIn, List.mem_cons] at hx
    rcases hx with rfl | hx
    · exact .inl rfl
    · rw [WF] at hw
      rw [toks] at hc
      rcases places_scopes hinc ks _ a b hw.2 hc x hx with h | h
      · by_cases hf : (Node.phr ty ks).isFunction = true
        · right; rw [h]; simp only [places, hf, if_true]; exact hr
        · left; rw [h]; simp [places, hf]
      · exact .inr h

theorem places_scopes (hinc : Increasing c) : ∀ (ks : List Node) (σ : Place) (a b : Nat), WFs c ks → Chain a b (toksOf ks) →
    ∀ x ∈ placesInAll (places c) σ ks, x.1.scope = σ.scope ∨ Le (c.posAt a) x.1.scope.start ∧ Le x.1.scope.stop (c.posAt b)
  | [], _, _, _, _, _, x, hx => by simp [placesInAll] at hx
  | k :: ks, σ, a, b, hw, hc, x, hx => by
    rw [toksOf] at hc
    obtain ⟨m, h1, h2⟩ := chain_append.mp hc
    rw [placesInAll, List.mem_append] at hx
    rcases hx with hx | hx
    · exact (places_scope hinc k σ a m hw.1 h1 x hx).imp id fun h => ⟨h.1, h.2.trans (hinc.le (chain_le h2))⟩
    · exact (places_scopes hinc ks σ m b hw.2 h2 x hx).imp id fun h => ⟨(hinc.le (chain_le h1)).trans h.1, h.2⟩

end

mutual

/-- A node is inside the function around it. -/
theorem places_around (hinc : Increasing c) : ∀ (n : Node) (σ : Place) (a b : Nat), WF c n → Chain a b (toks n) →
    ∀ x ∈ placesIn (places c) σ n, x.1.scope = σ.scope ∨
      Le x.1.scope.start (c.range x.2).start ∧ Le (c.range x.2).stop x.1.scope.stop
  | .tok t, σ, a, b, hw, hc, x, hx => by
    simp only [placesIn, List.mem_singleton] at hx
    subst hx; exact .inl rfl
  | .err t, σ, a, b, hw, hc, x, hx => by
    simp only [placesIn, List.mem_singleton] at hx
    subst hx; exact .inl rfl
  | .phr ty ks, σ, a, b, hw, hc, x, hx => by
    obtain ⟨i, j, h1, -, -, h4⟩ := range_spec hw hc
    rw [placesIn, List.mem_cons] at hx
    rcases hx with rfl | hx
    · exact .inl rfl
    · rw [WF] at hw
      rw [toks] at h4
      rcases places_arounds hinc ks _ i j hw.2 h4 x hx with h | h
      · by_cases hf : (Node.phr ty ks).isFunction = true
        · right
          rw [h]
          simp only [places, hf, if_true]
          obtain ⟨g1, g2⟩ := places_chains ks _ i j hw.2 h4 x hx
          rw [h1]
          exact range_in hinc g1 g2
        · left; rw [h]; simp [places, hf]
      · exact .inr h

theorem places_arounds (hinc : Increasing c) : ∀ (ks : List Node) (σ : Place) (a b : Nat), WFs c ks → Chain a b (toksOf ks) →
    ∀ x ∈ placesInAll (places c) σ ks, x.1.scope = σ.scope ∨
      Le x.1.scope.start (c.range x.2).start ∧ Le (c.range x.2).stop x.1.scope.stop
  | [], _, _, _, _, _, x, hx => by simp [placesInAll] at hx
  | k :: ks, σ, a, b, hw, hc, x, hx => by
    rw [toksOf] at hc
    obtain ⟨m, h1, h2⟩ := chain_append.mp hc
    rw [placesInAll, List.mem_append] at hx
    rcases hx with hx | hx
    · exact places_around hinc k σ a m hw.1 h1 x hx
    · exact places_arounds hinc ks σ m b hw.2 h2 x hx

end

/-! ### tables -/

mutual

theorem scopeTree_in : ∀ (t : Tree (Rng × List Rec)) (lo hi : Pos), Le lo t.info.1.start → Le t.info.1.stop hi →
    ScopesIn t.info.1.start t.info.1.stop t.kids → ∀ q ∈ scopeTree t, Le lo q.1.start ∧ Le q.1.stop hi
  | .node x kids, lo, hi, h1, h2, h3, q, hq => by
    rw [scopeTree, List.mem_cons] at hq
    rcases hq with rfl | hq
    · exact ⟨h1, h2⟩
    · have := scopeList_in kids _ _ h3 q hq
      exact ⟨h1.trans this.1, this.2.trans h2⟩

theorem scopeList_in : ∀ (T : List (Tree (Rng × List Rec))) (lo hi : Pos), ScopesIn lo hi T → ∀ q ∈ scopeList T,
    Le lo q.1.start ∧ Le q.1.stop hi
  | [], _, _, _, q, hq => by simp [scopeList] at hq
  | t :: T, lo, hi, h, q, hq => by
    rw [scopeList, List.mem_append] at hq
    obtain ⟨g1, g2, g3, -, g5⟩ := scopesIn_mem h (t := t) (by simp)
    rcases hq with hq | hq
    · exact scopeTree_in t lo hi g1 g3 g5 q hq
    · cases h with
      | cons h1 h2 h3 h4 =>
        have := scopeList_in T _ _ h4 q hq
        exact ⟨g1.trans (g2.trans this.1), this.2⟩

end

mutual

/-- The table at a position is inside every table around the position. -/
theorem scopeAt_inner (pos : Pos) : ∀ (t : Tree (Rng × List Rec)), ScopesIn t.info.1.start t.info.1.stop t.kids →
    ∀ q ∈ scopeTree t, Inside pos q.1 → Le q.1.start (scopeAt pos t).info.1.start ∧ Le (scopeAt pos t).info.1.stop q.1.stop
  | .node x kids, h, q, hq, hp => by
    rw [scopeTree, List.mem_cons] at hq
    rw [scopeAt]
    rcases hq with rfl | hq
    · cases hs : scopeAtIn pos kids with
      | none => exact ⟨Le.refl _, Le.refl _⟩
      | some u => exact scopeList_in kids _ _ h _ (scopeAtIn_mem pos kids u hs).1
    · obtain ⟨u, hu, h'⟩ := scopeAtIn_inner pos kids _ _ h q hq hp
      rw [hu]; exact h'

theorem scopeAtIn_inner (pos : Pos) : ∀ (T : List (Tree (Rng × List Rec))) (lo hi : Pos), ScopesIn lo hi T →
    ∀ q ∈ scopeList T, Inside pos q.1 → ∃ u, scopeAtIn pos T = some u ∧ Le q.1.start u.info.1.start ∧ Le u.info.1.stop q.1.stop
  | [], _, _, _, q, hq, _ => by simp [scopeList] at hq
  | t :: T, lo, hi, h, q, hq, hp => by
    obtain ⟨g1, g2, g3, -, g5⟩ := scopesIn_mem h (t := t) (by simp)
    rw [scopeList, List.mem_append] at hq
    rw [scopeAtIn]
    rcases hq with hq | hq
    · have hin := scopeTree_in t _ _ (Le.refl _) (Le.refl _) g5 q hq
      have : isInRange pos t.info.1 = 0 :=
        (Symbols.rel_zero _ _).mpr ⟨hin.1.trans hp.1, before_le hp.2 hin.2⟩
      rw [if_pos this]
      exact ⟨_, rfl, scopeAt_inner pos t g5 q hq hp⟩
    · cases h with
      | cons h1 h2 h3 h4 =>
        have hin := scopeList_in T _ _ h4 q hq
        rw [if_neg (fun h0 => (hin.1.trans hp.1 : Le _ pos) (by exact ((Symbols.rel_zero _ _).mp h0).2))]
        exact scopeAtIn_inner pos T _ _ h4 q hq hp

end

theorem le_antisymm {p q : Pos} (h1 : Le p q) (h2 : Le q p) : p = q := by
  obtain ⟨a, b⟩ := p
  obtain ⟨a', b'⟩ := q
  simp only [Le, Before, Pos.mk.injEq] at *
  omega

/-- The table at a position in a node of tokens is that of the function around the node, if it has one. -/
theorem scopeAt_function {root : Node} (hp : Parsed c root) {σ : Place} {m : Node} (hm : PlacedIn c root σ m)
    (ht : ∀ x ∈ placesInAll (places c) σ m.kids, x.2.isFunction = false) (hf : m.isFunction = false) {pos : Pos}
    (hpos : Inside pos (c.range m)) (hs : ∃ recs, (σ.scope, recs) ∈ scopeTree (scopesOf c root)) :
    (scopeAt pos (scopesOf c root)).info.1 = σ.scope := by
  obtain ⟨lo, hi, R, T, -, -, -, -, h5, h6, h7⟩ := hp.facts
  obtain ⟨a, b, hch⟩ := hp.tokens
  have hinc := hp.positions
  -- the document
  obtain ⟨i, j, hr, hi1, hj1, hch'⟩ := range_spec hp.wf hch
  have hk : WFs c root.kids ∧ Chain i j (toksOf root.kids) := by
    cases root with
    | tok t => exact absurd hm (by simp [PlacedIn, Node.kids, placesInAll])
    | err t => exact absurd hm (by simp [PlacedIn, Node.kids, placesInAll])
    | phr ty ks => have hw := hp.wf; rw [WF] at hw; rw [toks] at hch'; exact ⟨hw.2, hch'⟩
  have hroot : ∀ x ∈ placesInAll (places c) ⟨c.range root, none⟩ root.kids,
      Le (c.range root).start (c.range x.2).start ∧ Le (c.range x.2).stop (c.range root).stop := by
    intro x hx
    obtain ⟨h1, h2⟩ := places_chains root.kids _ i j hk.1 hk.2 x hx
    have := range_in hinc h1 h2
    rw [hr]; exact this
  have hσ : Le (c.range root).start σ.scope.start ∧ Le σ.scope.stop (c.range root).stop := by
    rcases places_scopes hinc root.kids _ i j hk.1 hk.2 _ hm with h | h
    · simp only at h; rw [h]; exact ⟨Le.refl _, Le.refl _⟩
    · rw [hr]; exact h
  have hin : Inside pos (c.range root) := ⟨(hroot _ hm).1.trans hpos.1, before_le hpos.2 (hroot _ hm).2⟩
  have hpσ : Inside pos σ.scope := by
    rcases places_arounds hinc root.kids _ i j hk.1 hk.2 _ hm with h | h
    · simp only at h; rw [h]; exact hin
    · exact ⟨h.1.trans hpos.1, before_le hpos.2 h.2⟩
  obtain ⟨recs, hs⟩ := hs
  have hreal := real_all c root
  have hvb : (analyse c root).scopes = scopeTree (scopesOf c root) ++ (analyse c root).varsBelow.flatMap Scope.all := rfl
  rw [h5] at hs hvb ⊢
  rw [scopeAt]
  rw [scopeTree, List.mem_cons] at hs
  cases hu : scopeAtIn pos T with
  | none =>
    rcases hs with hs | hs
    · exact (Prod.mk.injEq _ _ _ _ ▸ hs).1.symm
    · obtain ⟨u, hu', -⟩ := scopeAtIn_inner pos T _ _ h7 _ hs hpσ
      rw [hu] at hu'; cases hu'
  | some u =>
    obtain ⟨hmem, hpu⟩ := scopeAtIn_mem pos T u hu
    rw [Option.getD_some]
    have hscope : IsScope c (Anywhere (PlacedIn c root)) (c.range root) u.info.1 :=
      hreal.ranges u.info (by rw [hvb, scopeTree]; exact List.mem_append_left _ (List.mem_cons_of_mem _ hmem))
    have huroot : Le (c.range root).start u.info.1.start ∧ Le u.info.1.stop (c.range root).stop := by
      rcases hscope with h | ⟨g, ⟨σ', hg⟩, h, -⟩
      · rw [h]; exact ⟨Le.refl _, Le.refl _⟩
      · rw [← h]; exact hroot _ hg
    have h1 : Le σ.scope.start u.info.1.start ∧ Le u.info.1.stop σ.scope.stop := by
      rcases hs with hs | hs
      · have e : σ.scope = c.range root := (Prod.mk.injEq _ _ _ _ ▸ hs).1
        rw [e]; exact huroot
      · obtain ⟨u', hu', h⟩ := scopeAtIn_inner pos T _ _ h7 _ hs hpσ
        rw [hu] at hu'; injection hu' with hu'; rw [hu']; exact h
    have h2 : Le u.info.1.start σ.scope.start ∧ Le σ.scope.stop u.info.1.stop := by
      rcases hscope with h | ⟨g, ⟨σ', hg⟩, h, hfun⟩
      · rw [h]; exact hσ
      · have hgf : g.isFunction = true := by
          cases g with
          | phr ty ks => rcases hfun with h | h | h <;> simp only [Node.isPhrase, decide_eq_true_eq] at h <;> subst h <;> rfl
          | tok t => simp [Node.isPhrase] at hfun
          | err t => simp [Node.isPhrase] at hfun
        rw [← h] at hpu ⊢
        rcases places_nesteds hinc pos root.kids _ i j hk.1 hk.2 _ hg _ hm hpu hpos with hn | hn
        · -- the node is in the function
          match g, hgf, hn, hg with
          | .phr ty ks, hgf, hn, hg =>
            rw [placesIn, List.mem_cons] at hn
            rcases hn with hn | hn
            · injection hn with _ hn; subst hn; rw [hf] at hgf; cases hgf
            · obtain ⟨g1, g2⟩ := places_chains root.kids _ i j hk.1 hk.2 _ hg
              obtain ⟨i', j', hr', -, -, hc'⟩ := range_spec g1 g2
              simp only at hr'
              rw [WF] at g1
              rw [toks] at hc'
              rcases places_scopes hinc ks _ i' j' g1.2 hc' _ hn with h | h
              · simp only [places, hgf, if_true] at h; rw [h]; exact ⟨Le.refl _, Le.refl _⟩
              · rw [hr']; exact h
        · -- the function is in the node
          exfalso
          match m, hf, ht, hn with
          | .tok t, hf, _, hn => simp only [placesIn, List.mem_singleton] at hn; injection hn with _ hn; subst hn; rw [hf] at hgf; cases hgf
          | .err t, hf, _, hn => simp only [placesIn, List.mem_singleton] at hn; injection hn with _ hn; subst hn; rw [hf] at hgf; cases hgf
          | .phr ty ks, hf, ht, hn =>
            rw [placesIn, List.mem_cons] at hn
            rcases hn with hn | hn
            · injection hn with _ hn; subst hn; rw [hf] at hgf; cases hgf
            · rw [(places c).stay σ _ hf] at hn
              have := ht _ hn
              simp only at this
              rw [this] at hgf; cases hgf
    have e1 := le_antisymm h2.1 h1.1
    have e2 := le_antisymm h1.2 h2.2
    show u.info.1 = σ.scope
    calc u.info.1 = ⟨u.info.1.start, u.info.1.stop⟩ := rfl
      _ = ⟨σ.scope.start, σ.scope.stop⟩ := by rw [e1, e2]
      _ = σ.scope := rfl

end

end Verif.Analyser
