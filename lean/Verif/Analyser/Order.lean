import Verif.Analyser.OrderSpec
import Verif.Symbols.PropsLookup
import Verif.Symbols.PropsVars
import Verif.Common.Tactics

/-! The analysis keeps the order of the text: general part. -/

namespace Verif.Analyser
open Verif.Symbols (Tree Var Rec)
open Verif.Position (Before)

/-! ### positions -/

theorem Le.refl (p : Pos) : Le p p := by unfold Le Before; omega

theorem Le.trans {p q r : Pos} (h1 : Le p q) (h2 : Le q r) : Le p r := by
  simp only [Le, Before] at *; omega

theorem Le.before {p q r : Pos} (h1 : Le p q) (h2 : Before q r) : Before p r := by
  simp only [Le, Before] at *; omega

theorem before_le {p q r : Pos} (h1 : Before p q) (h2 : Le q r) : Before p r := by
  simp only [Le, Before] at *; omega

theorem Le.of_before {p q : Pos} (h : Before p q) : Le p q := by
  simp only [Le, Before] at *; omega

theorem Increasing.le {c : Ctx} (h : Increasing c) {i j : Nat} (hij : i ≤ j) : Le (c.posAt i) (c.posAt j) := by
  rcases Nat.lt_or_eq_of_le hij with h' | rfl
  · exact Le.of_before (h _ _ h')
  · exact Le.refl _

/-! ### tokens -/

theorem toksOf_append (xs ys : List Node) : toksOf (xs ++ ys) = toksOf xs ++ toksOf ys := by
  induction xs with
  | nil => simp [toksOf]
  | cons x xs ih => simp [toksOf, ih]

theorem chain_le {a b : Nat} {ts : List Tok} (h : Chain a b ts) : a ≤ b := by
  induction ts generalizing a with
  | nil => exact h
  | cons t ts ih => have := ih h.2; have := h.1; omega

theorem chain_mono {a a' b b' : Nat} {ts : List Tok} (h : Chain a b ts) (ha : a' ≤ a) (hb : b ≤ b') : Chain a' b' ts := by
  induction ts generalizing a a' with
  | nil => exact Nat.le_trans ha (Nat.le_trans h hb)
  | cons t ts ih => exact ⟨Nat.le_trans ha h.1, ih h.2 (Nat.le_refl _)⟩

theorem chain_append {a b : Nat} {xs ys : List Tok} : Chain a b (xs ++ ys) ↔ ∃ m, Chain a m xs ∧ Chain m b ys := by
  induction xs generalizing a with
  | nil =>
    constructor
    · intro h; exact ⟨a, Nat.le_refl _, h⟩
    · rintro ⟨m, h1, h2⟩; exact chain_mono h2 h1 (Nat.le_refl _)
  | cons t ts ih =>
    simp only [List.cons_append, Chain, ih]
    constructor
    · rintro ⟨h1, m, h2, h3⟩; exact ⟨m, ⟨h1, h2⟩, h3⟩
    · rintro ⟨m, ⟨h1, h2⟩, h3⟩; exact ⟨h1, m, h2, h3⟩

theorem chain_sublist {a b : Nat} {xs ys : List Tok} (h : xs.Sublist ys) (hc : Chain a b ys) : Chain a b xs := by
  induction h generalizing a with
  | slnil => exact hc
  | cons t _ ih =>
    have := ih hc.2
    exact chain_mono this (by have := hc.1; omega) (Nat.le_refl _)
  | cons_cons t _ ih => exact ⟨hc.1, ih hc.2⟩

/-- The bounds of a list of tokens. -/
theorem chain_tight {a b : Nat} {ts : List Tok} {f l : Tok} (hc : Chain a b ts) (hf : ts.head? = some f)
    (hl : ts.getLast? = some l) :
    a ≤ f.offset ∧ l.offset + l.length ≤ b ∧ Chain f.offset (l.offset + l.length) ts := by
  cases ts with
  | nil => simp at hf
  | cons t ts =>
    simp only [List.head?_cons, Option.some.injEq] at hf
    subst hf
    have key : ∀ (ts : List Tok) (t : Tok), Chain (t.offset + t.length) b ts → (t :: ts).getLast? = some l →
        l.offset + l.length ≤ b ∧ Chain (t.offset + t.length) (l.offset + l.length) ts := by
      intro ts
      induction ts with
      | nil =>
        intro t h1 h2
        simp only [List.getLast?_singleton, Option.some.injEq] at h2
        subst h2
        exact ⟨h1, Nat.le_refl _⟩
      | cons u us ih =>
        intro t h1 h2
        rw [List.getLast?_cons_cons] at h2
        obtain ⟨h3, h4⟩ := ih u h1.2 h2
        exact ⟨h3, h1.1, h4⟩
    obtain ⟨h1, h2⟩ := key ts t hc.2 hl
    exact ⟨hc.1, h1, Nat.le_refl _, h2⟩

mutual

theorem first_last {c : Ctx} : ∀ (n : Node), WF c n →
    toks n ≠ [] ∧ firstToken n = (toks n).head? ∧ lastToken n = (toks n).getLast?
  | .tok t, _ => by simp [toks, firstToken, lastToken]
  | .err t, _ => by simp [toks, firstToken, lastToken]
  | .phr ty kids, h => by
    have := first_lastOf kids h.2 h.1.full
    simpa [toks, firstToken, lastToken] using this

theorem first_lastOf {c : Ctx} : ∀ (ks : List Node), WFs c ks → ks ≠ [] →
    toksOf ks ≠ [] ∧ firstOfKids ks = (toksOf ks).head? ∧ lastOfKids ks = (toksOf ks).getLast?
  | [], _, h => absurd rfl h
  | [k], h, _ => by
    have := first_last k h.1
    simpa [toksOf, firstOfKids, lastOfKids] using this
  | k :: k' :: ks, h, _ => by
    obtain ⟨h1, h2, h3⟩ := first_last k h.1
    obtain ⟨h4, h5, h6⟩ := first_lastOf (k' :: ks) h.2 (by simp)
    refine ⟨?_, ?_, ?_⟩
    · rw [toksOf]; simp [h1]
    · rw [firstOfKids, toksOf, h2, List.head?_append]
      cases hk : toks k with
      | nil => exact absurd hk h1
      | cons t ts => simp
    · rw [lastOfKids, toksOf, h6, List.getLast?_append]
      cases hk : (toksOf (k' :: ks)).getLast? with
      | none => exact absurd (List.getLast?_eq_none_iff.mp hk) h4
      | some t => simp

end

/-- The range of a node and the tokens in it. -/
theorem range_spec {c : Ctx} {n : Node} (h : WF c n) {a b : Nat} (hc : Chain a b (toks n)) :
    ∃ i j, c.range n = ⟨c.posAt i, c.posAt j⟩ ∧ a ≤ i ∧ j ≤ b ∧ Chain i j (toks n) := by
  obtain ⟨h1, h2, h3⟩ := first_last n h
  cases hf : (toks n).head? with
  | none => exact absurd (List.head?_eq_none_iff.mp hf) h1
  | some f =>
    cases hl : (toks n).getLast? with
    | none => exact absurd (List.getLast?_eq_none_iff.mp hl) h1
    | some l =>
      obtain ⟨h4, h5, h6⟩ := chain_tight hc hf hl
      refine ⟨f.offset, l.offset + l.length, ?_, h4, h5, h6⟩
      rw [Ctx.range, h2, h3, hf, hl]

theorem wfs_mem {c : Ctx} {ks : List Node} (h : WFs c ks) {k : Node} (hk : k ∈ ks) : WF c k := by
  induction ks with
  | nil => simp at hk
  | cons x xs ih =>
    rcases List.mem_cons.mp hk with rfl | hk
    · exact h.1
    · exact ih h.2 hk

/-! ### symbols -/

theorem flat_append (F G : List (Tree Sym)) : flat (F ++ G) = flat F ++ flat G := by
  induction F with
  | nil => simp [flat]
  | cons t F ih => simp [flat, ih]

theorem nested_append {F G : List (Tree Sym)} (hF : Nested F) (hG : Nested G) : Nested (F ++ G) := by
  induction hF with
  | nil => exact hG
  | cons h1 h2 _ _ ih => exact .cons h1 h2 ih

theorem SymsOK.nil (lo hi : Pos) : SymsOK lo hi [] :=
  ⟨by simp [flat], by simp [flat], by simp [flat], .nil⟩

theorem SymsOK.append {lo m hi : Pos} {F G : List (Tree Sym)} (hF : SymsOK lo m F) (hG : SymsOK m hi G)
    (h1 : Le lo m) (h2 : Le m hi) : SymsOK lo hi (F ++ G) where
  starts := by
    intro s hs
    rw [flat_append, List.mem_append] at hs
    rcases hs with hs | hs
    · exact (hF.starts s hs).trans h2
    · exact hG.starts s hs
  inside := by
    intro s hs ho
    rw [flat_append, List.mem_append] at hs
    rcases hs with hs | hs
    · exact ⟨(hF.inside s hs ho).1, (hF.inside s hs ho).2.trans h2⟩
    · exact ⟨h1.trans (hG.inside s hs ho).1, (hG.inside s hs ho).2⟩
  order := by
    rw [flat_append, List.pairwise_append]
    exact ⟨hF.order, hG.order, fun s hs t ht ho => (hF.starts s hs).trans (hG.inside t ht ho).1⟩
  nested := nested_append hF.nested hG.nested

theorem SymsOK.mono {lo lo' hi hi' : Pos} {F : List (Tree Sym)} (h : SymsOK lo hi F) (h1 : Le lo' lo) (h2 : Le hi hi') :
    SymsOK lo' hi' F :=
  ⟨fun s hs => (h.starts s hs).trans h2,
   fun s hs ho => ⟨h1.trans (h.inside s hs ho).1, (h.inside s hs ho).2.trans h2⟩, h.order, h.nested⟩

/-- A block with children in its range. -/
theorem SymsOK.block {s : Sym} {F : List (Tree Sym)} (h : SymsOK s.range.start s.range.stop F)
    (hr : Le s.range.start s.range.stop) : SymsOK s.range.start s.range.stop [.node s F] where
  starts := by
    intro x hx
    simp only [flat, flatTree, List.append_nil, List.mem_cons] at hx
    rcases hx with rfl | hx
    · exact hr
    · exact h.starts x hx
  inside := by
    intro x hx ho
    simp only [flat, flatTree, List.append_nil, List.mem_cons] at hx
    rcases hx with rfl | hx
    · exact ⟨Le.refl _, Le.refl _⟩
    · exact h.inside x hx ho
  order := by
    simp only [flat, flatTree, List.append_nil, List.pairwise_cons]
    exact ⟨fun t ht ho => (h.inside t ht ho).1, h.order⟩
  nested := .cons h.nested (fun x hx ho => (h.inside x hx ho).2) .nil

/-- A symbol without children. -/
theorem SymsOK.leaf {s : Sym} {lo hi : Pos} (h1 : Le s.range.start hi)
    (h2 : s.kind.ordered = true → Le lo s.range.start ∧ Le s.range.stop hi) : SymsOK lo hi [.node s []] where
  starts := by simpa [flat, flatTree] using h1
  inside := by simpa [flat, flatTree] using h2
  order := by simp [flat, flatTree]
  nested := .cons .nil (by simp [flat]) .nil

/-! ### recordings -/

theorem RecsOK.nil (lo hi : Pos) : RecsOK lo hi [] := ⟨by simp, by simp, by simp, by simp⟩

theorem RecsOK.append {lo m hi : Pos} {R S : List Rec} (hR : RecsOK lo m R) (hS : RecsOK m hi S) (h1 : Le lo m)
    (h2 : Le m hi) : RecsOK lo hi (R ++ S) where
  upper := by
    intro r hr
    rcases List.mem_append.mp hr with hr | hr
    · exact before_le (hR.upper r hr) h2
    · exact hS.upper r hr
  lower := by
    intro r hr hd
    rcases List.mem_append.mp hr with hr | hr
    · exact hR.lower r hr hd
    · exact h1.trans (hS.lower r hr hd)
  order := by
    rw [List.pairwise_append]
    exact ⟨hR.order, hS.order, fun r hr u hu hd => before_le (hR.upper r hr) (hS.lower u hu hd)⟩
  counts := by
    intro r hr
    rcases List.mem_append.mp hr with hr | hr
    · exact hR.counts r hr
    · exact hS.counts r hr

theorem RecsOK.mono {lo lo' hi hi' : Pos} {R : List Rec} (h : RecsOK lo hi R) (h1 : Le lo' lo) (h2 : Le hi hi') :
    RecsOK lo' hi' R :=
  ⟨fun r hr => before_le (h.upper r hr) h2, fun r hr hd => h1.trans (h.lower r hr hd), h.order, h.counts⟩

/-- A declaration recorded after other recordings. -/
theorem RecsOK.declare {lo hi : Pos} {R S : List Rec} (hR : RecsOK lo hi R)
    (hS : ∀ r ∈ S, r.isDeclaration = true ∧ Before r.v.range.start hi) (hC : ∀ r ∈ S, Le r.v.range.stop r.start) :
    RecsOK lo hi (R ++ S) where
  upper := by
    intro r hr
    rcases List.mem_append.mp hr with hr | hr
    · exact hR.upper r hr
    · exact (hS r hr).2
  lower := by
    intro r hr hd
    rcases List.mem_append.mp hr with hr | hr
    · exact hR.lower r hr hd
    · rw [(hS r hr).1] at hd; simp at hd
  order := by
    rw [List.pairwise_append]
    refine ⟨hR.order, ?_, ?_⟩
    · refine List.Pairwise.imp_of_mem (R := fun _ _ => True) ?_ (List.pairwise_of_forall (fun _ _ => trivial))
      intro a b _ hb _ hd
      rw [(hS b hb).1] at hd; simp at hd
    · intro r _ u hu hd
      rw [(hS u hu).1] at hd; simp at hd
  counts := by
    intro r hr
    rcases List.mem_append.mp hr with hr | hr
    · exact hR.counts r hr
    · exact hC r hr

/-! ### scopes -/

theorem ScopesIn.le {lo hi : Pos} {T : List (Tree (Rng × List Rec))} (h : ScopesIn lo hi T) : Le lo hi := by
  induction h with
  | nil h => exact h
  | cons h1 _ _ _ ih1 ih2 => exact h1.trans (ih1.trans ih2)

theorem ScopesIn.mono {lo hi : Pos} {T : List (Tree (Rng × List Rec))} (h : ScopesIn lo hi T) {lo' hi' : Pos}
    (h1 : Le lo' lo) (h2 : Le hi hi') : ScopesIn lo' hi' T := by
  induction h generalizing lo' with
  | nil h => exact .nil (h1.trans (h.trans h2))
  | cons h3 h4 h5 _ _ ih => exact .cons (h1.trans h3) h4 h5 (ih (Le.refl _) h2)

theorem ScopesIn.append {lo m hi : Pos} {T U : List (Tree (Rng × List Rec))} (hT : ScopesIn lo m T)
    (hU : ScopesIn m hi U) : ScopesIn lo hi (T ++ U) := by
  induction hT with
  | nil h => exact hU.mono h (Le.refl _)
  | cons h1 h2 h3 _ _ ih => exact .cons h1 h2 h3 (ih hU)

/-! ### what an analysis step may do -/

/-- The last doc comment begins before `lo`. -/
def DocOK (lo : Pos) (st : St) : Prop := ∀ d, st.doc = some d → Le d.1.start lo

theorem DocOK.mono {lo lo' : Pos} {st : St} (h : DocOK lo st) (hl : Le lo lo') : DocOK lo' st :=
  fun d hd => (h d hd).trans hl

/-- From `st` to `st'` the symbols `F` were added to the current block, the recordings `R` and the scopes `T` to the
current scope and the recordings `S` to the scope around it; nothing else has changed but the name of the current
block, the classes, the namespace and the last doc comment. -/
structure Adds (lo hi : Pos) (F : List (Tree Sym)) (R S : List Rec) (T : List (Tree (Rng × List Rec))) (st st' : St) :
    Prop where
  kids : st'.top.kids = st.top.kids ++ F
  range : st'.top.sym.range = st.top.sym.range
  kind : st'.top.sym.kind = st.top.sym.kind
  below : st'.below = st.below
  vrange : st'.vars.range = st.vars.range
  recs : st'.vars.recs = st.vars.recs ++ R
  scopes : st'.vars.kids = st.vars.kids ++ T
  around : S = [] ∧ st'.varsBelow = st.varsBelow ∨ ∃ v vs, st.varsBelow = v :: vs ∧
    st'.varsBelow = { v with recs := v.recs ++ S } :: vs
  crashed : st'.crashed = st.crashed
  doc : DocOK hi st'
  symsOK : SymsOK lo hi F
  recsOK : RecsOK lo hi R
  aroundOK : RecsOK lo hi S
  scopesOK : ScopesIn lo hi T

theorem Adds.trans {lo m hi : Pos} {F F' : List (Tree Sym)} {R R' S S' : List Rec} {T T' : List (Tree (Rng × List Rec))}
    {st st' st'' : St} (h : Adds lo m F R S T st st') (h' : Adds m hi F' R' S' T' st' st'') :
    Adds lo hi (F ++ F') (R ++ R') (S ++ S') (T ++ T') st st'' where
  kids := by rw [h'.kids, h.kids, List.append_assoc]
  range := by rw [h'.range, h.range]
  kind := by rw [h'.kind, h.kind]
  below := by rw [h'.below, h.below]
  vrange := by rw [h'.vrange, h.vrange]
  recs := by rw [h'.recs, h.recs, List.append_assoc]
  scopes := by rw [h'.scopes, h.scopes, List.append_assoc]
  around := by
    rcases h.around with ⟨h1, h2⟩ | ⟨v, vs, h1, h2⟩
    · rcases h'.around with ⟨h3, h4⟩ | ⟨v', vs', h3, h4⟩
      · exact .inl ⟨by simp [h1, h3], by rw [h4, h2]⟩
      · refine .inr ⟨v', vs', by rw [← h2, h3], ?_⟩
        rw [h4, h1]; rfl
    · rcases h'.around with ⟨h3, h4⟩ | ⟨v', vs', h3, h4⟩
      · refine .inr ⟨v, vs, h1, ?_⟩
        rw [h4, h2, h3]; simp
      · refine .inr ⟨v, vs, h1, ?_⟩
        rw [h2] at h3
        simp only [List.cons.injEq] at h3
        obtain ⟨rfl, rfl⟩ := h3
        rw [h4]; simp
  crashed := by rw [h'.crashed, h.crashed]
  doc := h'.doc
  symsOK := h.symsOK.append h'.symsOK h.scopesOK.le h'.scopesOK.le
  recsOK := h.recsOK.append h'.recsOK h.scopesOK.le h'.scopesOK.le
  aroundOK := h.aroundOK.append h'.aroundOK h.scopesOK.le h'.scopesOK.le
  scopesOK := h.scopesOK.append h'.scopesOK

theorem Adds.mono {lo lo' hi hi' : Pos} {F : List (Tree Sym)} {R S : List Rec} {T : List (Tree (Rng × List Rec))}
    {st st' : St} (h : Adds lo hi F R S T st st') (h1 : Le lo' lo) (h2 : Le hi hi') : Adds lo' hi' F R S T st st' :=
  { h with
    doc := h.doc.mono h2
    symsOK := h.symsOK.mono h1 h2
    recsOK := h.recsOK.mono h1 h2
    aroundOK := h.aroundOK.mono h1 h2
    scopesOK := h.scopesOK.mono h1 h2 }

/-- An analysis step between two positions that keeps the order of the text. -/
def Ext (lo hi : Pos) (st st' : St) : Prop := ∃ F R T, Adds lo hi F R [] T st st'

/-- The same, with recordings in the scope around the current one. -/
def ExtB (lo hi : Pos) (st st' : St) : Prop := ∃ F R S T, Adds lo hi F R S T st st'

theorem Ext.toB {lo hi : Pos} {st st' : St} (h : Ext lo hi st st') : ExtB lo hi st st' := by
  obtain ⟨F, R, T, h⟩ := h
  exact ⟨F, R, [], T, h⟩

theorem Ext.trans {lo m hi : Pos} {st st' st'' : St} (h : Ext lo m st st') (h' : Ext m hi st' st'') :
    Ext lo hi st st'' := by
  obtain ⟨F, R, T, h⟩ := h
  obtain ⟨F', R', T', h'⟩ := h'
  exact ⟨_, _, _, h.trans h'⟩

theorem ExtB.trans {lo m hi : Pos} {st st' st'' : St} (h : ExtB lo m st st') (h' : ExtB m hi st' st'') :
    ExtB lo hi st st'' := by
  obtain ⟨F, R, S, T, h⟩ := h
  obtain ⟨F', R', S', T', h'⟩ := h'
  exact ⟨_, _, _, _, h.trans h'⟩

theorem Ext.mono {lo lo' hi hi' : Pos} {st st' : St} (h : Ext lo hi st st') (h1 : Le lo' lo) (h2 : Le hi hi') :
    Ext lo' hi' st st' := by
  obtain ⟨F, R, T, h⟩ := h
  exact ⟨_, _, _, h.mono h1 h2⟩

theorem ExtB.mono {lo lo' hi hi' : Pos} {st st' : St} (h : ExtB lo hi st st') (h1 : Le lo' lo) (h2 : Le hi hi') :
    ExtB lo' hi' st st' := by
  obtain ⟨F, R, S, T, h⟩ := h
  exact ⟨_, _, _, _, h.mono h1 h2⟩

theorem Ext.docOK {lo hi : Pos} {st st' : St} (h : Ext lo hi st st') : DocOK hi st' := by
  obtain ⟨F, R, T, h⟩ := h
  exact h.doc

theorem ExtB.docOK {lo hi : Pos} {st st' : St} (h : ExtB lo hi st st') : DocOK hi st' := by
  obtain ⟨F, R, S, T, h⟩ := h
  exact h.doc

theorem Ext.le {lo hi : Pos} {st st' : St} (h : Ext lo hi st st') : Le lo hi := by
  obtain ⟨F, R, T, h⟩ := h
  exact h.scopesOK.le

theorem Ext.refl {lo hi : Pos} {st : St} (h : Le lo hi) (hd : DocOK lo st) : Ext lo hi st st :=
  ⟨[], [], [], by simp, rfl, rfl, rfl, rfl, by simp, by simp, .inl ⟨rfl, rfl⟩, rfl, hd.mono h, .nil _ _, .nil _ _, .nil _ _, .nil h⟩

/-- Changes that `Adds` does not speak of. -/
theorem Ext.of_eq {lo hi : Pos} {st st' : St} (h : Le lo hi) (h1 : st'.top.kids = st.top.kids)
    (h2 : st'.top.sym.range = st.top.sym.range) (h3 : st'.top.sym.kind = st.top.sym.kind)
    (h4 : st'.below = st.below) (h5 : st'.vars = st.vars) (h6 : st'.varsBelow = st.varsBelow)
    (h7 : st'.crashed = st.crashed) (h8 : DocOK hi st') : Ext lo hi st st' :=
  ⟨[], [], [], by simp [h1], h2, h3, h4, by rw [h5], by simp [h5], by simp [h5], .inl ⟨rfl, h6⟩, h7, h8, .nil _ _, .nil _ _, .nil _ _, .nil h⟩

/-- Adding a symbol without children. -/
theorem Ext.add {lo hi : Pos} {st : St} {s : Sym} (h : Le lo hi) (hd : DocOK lo st) (h1 : Le s.range.start hi)
    (h2 : s.kind.ordered = true → Le lo s.range.start ∧ Le s.range.stop hi) : Ext lo hi st (st.add s) :=
  ⟨[.node s []], [], [], rfl, rfl, rfl, rfl, rfl, by simp [St.add, St.addTree], by simp [St.add, St.addTree],
    .inl ⟨rfl, rfl⟩, rfl, hd.mono h, .leaf h1 h2, .nil _ _, .nil _ _, .nil h⟩

/-- Recording a variable. -/
theorem Ext.record {lo hi : Pos} {st : St} {name : Bytes} {r : Rng} {start : Pos} {decl : Bool} (h : Le lo hi)
    (hd : DocOK lo st) (h1 : Before r.start hi) (h2 : decl = false → Le lo r.start) (h3 : Le r.stop start) :
    Ext lo hi st (st.record name r start decl) :=
  ⟨[], [⟨⟨name, r, 0⟩, start, decl⟩], [], by simp [St.record], rfl, rfl, rfl, rfl, rfl, by simp [St.record],
    .inl ⟨rfl, rfl⟩, rfl, hd.mono h, .nil _ _,
    ⟨by simpa using h1, by simpa using h2, by simp, by simpa using h3⟩, .nil _ _, .nil h⟩

/-- A block. -/
theorem Ext.block {lo hi : Pos} {st st' : St} {s : Sym} (h : Ext s.range.start s.range.stop (st.pushBlock s) st')
    (h1 : Le lo s.range.start) (h2 : Le s.range.stop hi) : Ext lo hi st st'.popBlock := by
  obtain ⟨F, R, T, h⟩ := h
  have hb : st'.below = st.top :: st.below := h.below
  have hpop : st'.popBlock =
      { st' with
        top := { st.top with kids := st.top.kids ++ [.node st'.top.sym st'.top.kids] }, below := st.below } := by
    rw [St.popBlock, hb]
  have hk : st'.top.kids = F := by rw [h.kids]; simp [St.pushBlock]
  have hr : st'.top.sym.range = s.range := h.range
  refine ⟨[.node st'.top.sym F], R, T, ?_, ?_, ?_, ?_, ?_, ?_, ?_, ?_, ?_, ?_, ?_, ?_, .nil _ _, ?_⟩
  · rw [hpop, hk]
  · rw [hpop]
  · rw [hpop]
  · rw [hpop]
  · rw [hpop]; exact h.vrange
  · rw [hpop]; exact h.recs
  · rw [hpop]; exact h.scopes
  · refine .inl ⟨rfl, ?_⟩
    rw [hpop]
    rcases h.around with ⟨_, h3⟩ | ⟨v, vs, h3, h4⟩
    · exact h3
    · have : st.varsBelow = v :: vs := h3
      simp only [h4, List.append_nil, this]
  · rw [hpop]; exact h.crashed
  · intro d hd
    rw [hpop] at hd
    exact (h.doc d hd).trans h2
  · have := SymsOK.block (s := st'.top.sym) (F := F) (by rw [hr]; exact h.symsOK) (by rw [hr]; exact h.scopesOK.le)
    rw [hr] at this
    exact this.mono h1 h2
  · exact h.recsOK.mono h1 h2
  · exact h.scopesOK.mono h1 h2

/-- A function: a block with a scope of its own. -/
theorem Ext.scope {lo hi : Pos} {st st' : St} {s : Sym}
    (h : ExtB s.range.start s.range.stop ((st.pushVars s.range).pushBlock s) st')
    (h1 : Le lo s.range.start) (h2 : Le s.range.stop hi) : Ext lo hi st st'.popVars.popBlock := by
  obtain ⟨F, R, S, T, h⟩ := h
  have hb : st'.below = st.top :: st.below := h.below
  have hv : st'.varsBelow = { st.vars with recs := st.vars.recs ++ S } :: st.varsBelow := by
    rcases h.around with ⟨h3, h4⟩ | ⟨v, vs, h3, h4⟩
    · rw [h4, h3]; simp [St.pushVars, St.pushBlock]
    · rw [h4]
      have : st.vars :: st.varsBelow = v :: vs := h3
      simp only [List.cons.injEq] at this
      obtain ⟨rfl, rfl⟩ := this
      rfl
  have hpop : st'.popVars.popBlock =
      { st' with
        vars := { st.vars with recs := st.vars.recs ++ S, kids := st.vars.kids ++ [.node (st'.vars.range, st'.vars.recs) st'.vars.kids] }
        varsBelow := st.varsBelow
        top := { st.top with kids := st.top.kids ++ [.node st'.top.sym st'.top.kids] }, below := st.below } := by
    rw [St.popVars, hv, St.popBlock]
    simp only [hb]
  have hk : st'.top.kids = F := by rw [h.kids]; simp [St.pushBlock]
  have hr : st'.top.sym.range = s.range := h.range
  have hvr : st'.vars.range = s.range := h.vrange
  have hR : st'.vars.recs = R := by rw [h.recs]; simp [St.pushBlock, St.pushVars]
  have hT : st'.vars.kids = T := by rw [h.scopes]; simp [St.pushBlock, St.pushVars]
  refine ⟨[.node st'.top.sym F], S, [.node (s.range, R) T], ?_, ?_, ?_, ?_, ?_, ?_, ?_, ?_, ?_, ?_, ?_, ?_, .nil _ _, ?_⟩
  · rw [hpop, hk]
  · rw [hpop]
  · rw [hpop]
  · rw [hpop]
  · rw [hpop]
  · rw [hpop]
  · rw [hpop, hvr, hR, hT]
  · refine .inl ⟨rfl, ?_⟩
    rw [hpop]
  · rw [hpop]; exact h.crashed
  · intro d hd
    rw [hpop] at hd
    exact (h.doc d hd).trans h2
  · have := SymsOK.block (s := st'.top.sym) (F := F) (by rw [hr]; exact h.symsOK) (by rw [hr]; exact h.scopesOK.le)
    rw [hr] at this
    exact this.mono h1 h2
  · exact h.aroundOK.mono h1 h2
  · exact .cons h1 h.recsOK h.scopesOK (.nil h2)

end Verif.Analyser
