import Verif.Analyser.OrderExpr

/-! The analysis keeps the order of the text: declarations, and the analysis as a whole. -/

namespace Verif.Analyser
open Verif.Symbols (Tree Var Rec)
open Verif.Position (Before)

section
variable {c : Ctx}

theorem Ext.onTop {lo hi : Pos} {st st' : St} (h : Ext lo hi st st') {f : Sym → Sym}
    (hr : ∀ s, (f s).range = s.range) (hk : ∀ s, (f s).kind = s.kind) : Ext lo hi st (st'.onTop f) := by
  obtain ⟨F, R, T, h⟩ := h
  exact ⟨F, R, T, h.kids, (hr _).trans h.range, (hk _).trans h.kind, h.below, h.vrange, h.recs, h.scopes, h.around,
    h.crashed, h.doc, h.symsOK, h.recsOK, h.aroundOK, h.scopesOK⟩

theorem ExtB.onTop {lo hi : Pos} {st st' : St} (h : ExtB lo hi st st') {f : Sym → Sym}
    (hr : ∀ s, (f s).range = s.range) (hk : ∀ s, (f s).kind = s.kind) : ExtB lo hi st (st'.onTop f) := by
  obtain ⟨F, R, S, T, h⟩ := h
  exact ⟨F, R, S, T, h.kids, (hr _).trans h.range, (hk _).trans h.kind, h.below, h.vrange, h.recs, h.scopes, h.around,
    h.crashed, h.doc, h.symsOK, h.recsOK, h.aroundOK, h.scopesOK⟩

theorem step_onTop (hinc : Increasing c) {n : Node} {f : St → Sym → Sym} (hr : ∀ st s, (f st s).range = s.range)
    (hk : ∀ st s, (f st s).kind = s.kind) : Step c n fun st => st.onTop (f st) :=
  fun a b st hc hd => (step_id hinc a b st hc hd).onTop (hr st) (hk st)

/-! ### constants -/

theorem argumentsOf_mem {ig : TokType → Bool} {ks : List Item} {n : Node} (h : n ∈ argumentsOf ig ks) :
    ∃ k ∈ ks, k.node = n := by
  obtain ⟨k, hk, rfl⟩ := List.mem_map.mp h
  exact ⟨k, (List.mem_filter.mp hk).1, rfl⟩

theorem Ext.defineName {lo hi : Pos} {st st' : St} (h : Ext lo hi st st') {k : Item} (hk : Ready c k) (ig : TokType → Bool) :
    Ext lo hi st (defineName c ig k st') := by
  unfold Analyser.defineName
  split
  · next t xs ht =>
    split
    · next hs =>
      obtain ⟨x, hx, hn⟩ := argumentsOf_mem (n := .tok t) (by rw [ht]; simp)
      have hw := (hk.kids x hx).wf
      rw [hn] at hw
      have := hw hs
      simp only
      split
      · next hlt => omega
      · exact h.onTop (fun _ => rfl) (fun _ => rfl)
    · exact h
  · exact h

theorem step_newDefine (hinc : Increasing c) {n : Item} (h : Ready c n) : Step c n.node (newDefine c n) := by
  refine step_block hinc h.wf
    (f := fun st =>
      let st := each (fun k st =>
        if k.type? = some .argumentExpressionList then defineName c c.ignored k (newArgumentList c k st) else st) n.kids st
      st.onTop fun x => { x with name := ((⟨x.name, x.name, 0⟩ : Types.Ty).setNamespace st.ns).fqn }) ?_
    ⟨.define, c.range n.node, [], []⟩ rfl
  intro a b st hc hd
  refine Ext.onTop (step_each hinc h (fun k hk => ?_) a b st hc hd) (fun _ => rfl) (fun _ => rfl)
  refine step_ite (fun _ => ?_) (fun _ => step_id hinc)
  intro a b st hc hd
  exact (step_newArgumentList hinc (h.kids k hk).ready a b st hc hd).defineName (h.kids k hk).ready _

theorem step_newConst (hinc : Increasing c) {n : Item} (h : Ready c n) : Step c n.node (newConst c n) :=
  step_add hinc h.wf (fun st => ⟨.const_, c.range n.node, _, []⟩) (fun _ => rfl)

theorem step_newConstDeclaration (hinc : Increasing c) {n : Item} (h : Ready c n) :
    Step c n.node (newConstDeclaration n) :=
  step_each hinc h fun k hk => step_ite (fun _ => step_scanForChildren hinc (h.kids k hk).ready) (fun _ => step_id hinc)

/-! ### parameters -/

/-- The parameters found so far begin before `hi` and end there at the latest. -/
def ParamsOK (hi : Pos) (ps : List (Bytes × Rng)) : Prop := ∀ p ∈ ps, Before p.2.start hi ∧ Le p.2.stop hi

/-- A step that collects parameters. -/
def PStep (c : Ctx) (n : Node) (f : St × List (Bytes × Rng) → St × List (Bytes × Rng)) : Prop :=
  ∀ a b r, Chain a b (toks n) → DocOK (c.posAt a) r.1 → r.1.varsBelow ≠ [] → ParamsOK (c.posAt a) r.2 →
    ExtB (c.posAt a) (c.posAt b) r.1 (f r).1 ∧ ParamsOK (c.posAt b) (f r).2

theorem ParamsOK.mono {lo hi : Pos} {ps : List (Bytes × Rng)} (h : ParamsOK lo ps) (hl : Le lo hi) : ParamsOK hi ps :=
  fun p hp => ⟨before_le (h p hp).1 hl, (h p hp).2.trans hl⟩

theorem ExtB.varsBelow {lo hi : Pos} {st st' : St} (h : ExtB lo hi st st') (hv : st.varsBelow ≠ []) :
    st'.varsBelow ≠ [] := by
  obtain ⟨F, R, S, T, h⟩ := h
  rcases h.around with ⟨-, h1⟩ | ⟨v, vs, -, h1⟩
  · rw [h1]; exact hv
  · rw [h1]; simp

theorem ext_fold (hinc : Increasing c) {f : St × List (Bytes × Rng) → Item → St × List (Bytes × Rng)} {ks : List Item}
    (hf : ∀ k ∈ ks, PStep c k.node fun r => f r k) {a b : Nat} (hc : Chain a b (itoks ks)) {r : St × List (Bytes × Rng)}
    (hd : DocOK (c.posAt a) r.1) (hv : r.1.varsBelow ≠ []) (hp : ParamsOK (c.posAt a) r.2) :
    ExtB (c.posAt a) (c.posAt b) r.1 (ks.foldl f r).1 ∧ ParamsOK (c.posAt b) (ks.foldl f r).2 := by
  induction ks generalizing a r with
  | nil => exact ⟨(Ext.refl (hinc.le hc) hd).toB, hp.mono (hinc.le hc)⟩
  | cons k ks ih =>
    rw [itoks_cons, chain_append] at hc
    obtain ⟨m, h1, h2⟩ := hc
    obtain ⟨h3, h4⟩ := hf k (by simp) a m r h1 hd hv hp
    obtain ⟨h5, h6⟩ := ih (fun k' hk' => hf k' (by simp [hk'])) h2 h3.docOK (h3.varsBelow hv) h4
    exact ⟨h3.trans h5, h6⟩

theorem pstep_fold (hinc : Increasing c) {f : St × List (Bytes × Rng) → Item → St × List (Bytes × Rng)} {n : Item}
    (h : Ready c n) (hf : ∀ k ∈ n.kids, PStep c k.node fun r => f r k) : PStep c n.node fun r => n.kids.foldl f r :=
  fun _ _ _ hc hd hv hp => ext_fold hinc hf (h.chain hc) hd hv hp

theorem Step.toP (hinc : Increasing c) {n : Node} {f : St → St} (h : Step c n f) : PStep c n fun r => (f r.1, r.2) :=
  fun a b r hc hd _ hp => ⟨(h a b r.1 hc hd).toB, hp.mono (hinc.le (chain_le hc))⟩

theorem pstep_id (hinc : Increasing c) {n : Node} : PStep c n fun r => r := (step_id hinc).toP hinc

/-- The range a parameter gets. -/
theorem parameter_range (hinc : Increasing c) {n : Item} (h : Ready c n) (ht : n.type? = some .parameterDeclaration)
    {a b : Nat} (hc : Chain a b (toks n.node)) (st : St) :
    Before (newParameter c n st).2.2.start (c.posAt b) ∧ Le (newParameter c n st).2.2.stop (c.posAt b) := by
  have hx := (h.regular ht).extent (.inr (.inr rfl))
  obtain ⟨ks, hk⟩ := type?_eq ht
  have hx' : ∀ t ∈ toks n.node, 0 < t.length := by
    have h2 := h.nodes
    rw [hk] at h2 ⊢
    intro t htm
    exact hx t (by rw [← h2]; exact htm)
  have hc' := h.chain hc
  obtain ⟨i, j, hr, h1, h2, h3, h4⟩ := range_extent hinc h.wf hc hx'
  have h0 : Before (c.range n.node).start (c.posAt b) ∧ Le (c.range n.node).stop (c.posAt b) := by
    rw [hr]; exact ⟨before_le (hinc i j h4) (hinc.le h2), hinc.le h2⟩
  show Before (n.kids.foldl _ ([], c.range n.node)).2.start _ ∧ Le (n.kids.foldl _ ([], c.range n.node)).2.stop _
  have key : ∀ (ks : List Item) (r : Bytes × Rng), (∀ k ∈ ks, k ∈ n.kids) →
      Before r.2.start (c.posAt b) ∧ Le r.2.stop (c.posAt b) →
      Before (ks.foldl (fun r k =>
        match k.tok? with
        | some t => if t.type = .variableName then (c.tokText t, c.range k.node) else r
        | none => r) r).2.start (c.posAt b) ∧
      Le (ks.foldl (fun r k =>
        match k.tok? with
        | some t => if t.type = .variableName then (c.tokText t, c.range k.node) else r
        | none => r) r).2.stop (c.posAt b) := by
    intro ks
    induction ks with
    | nil => intro r _ hr; exact hr
    | cons k ks ih =>
      intro r hm hr
      refine ih _ (fun x hx => hm x (by simp [hx])) ?_
      have hkm := hm k (by simp)
      dsimp only
      split
      · next t hkt =>
        split
        · have hkn := tok?_eq hkt
          obtain ⟨i, j, hr', h1', h2', h3', h4'⟩ := range_extent hinc (h.kids k hkm).wf (chain_item hkm hc') (by
            intro x hxm
            refine hx x ?_
            have : (toks k.node).Sublist (itoks n.kids) := by
              have := itoks_sublist (List.singleton_sublist.mpr hkm)
              rwa [itoks_cons, show itoks [] = [] from rfl, List.append_nil] at this
            exact this.subset hxm)
          simp only
          rw [hr']
          exact ⟨before_le (hinc i j h4') (hinc.le h2'), hinc.le h2'⟩
        · exact hr
      · exact hr
  exact key n.kids _ (fun _ h => h) h0

theorem step_newParameter (hinc : Increasing c) {n : Item} (h : Ready c n) :
    Step c n.node fun st => (newParameter c n st).1 := by
  simp only [newParameter]
  refine step_each hinc h fun k hk => ?_
  split
  · exact step_add hinc (h.kids k hk).wf (fun _ => symOf c .typeDeclaration k.node) (fun _ => rfl)
  · exact step_add hinc (h.kids k hk).wf (fun _ => symOf c .constantAccess k.node) (fun _ => rfl)
  · exact step_id hinc

theorem pstep_parameterList (hinc : Increasing c) {n : Item} (h : Ready c n) :
    PStep c n.node (parameterList c n.kids) := by
  refine pstep_fold hinc h fun k hk => ?_
  intro a b r hc hd hv hp
  simp only
  split
  · next ht =>
    refine ⟨(step_newParameter hinc (h.kids k hk).ready a b r.1 hc hd).toB, ?_⟩
    intro p hpm
    rcases List.mem_append.mp hpm with hpm | hpm
    · exact hp.mono (hinc.le (chain_le hc)) p hpm
    · simp only [List.mem_singleton] at hpm
      subst hpm
      exact parameter_range hinc (h.kids k hk).ready ht hc r.1
  · exact pstep_id hinc a b r hc hd hv hp

/-- Parameters become variables. -/
theorem ext_recordParameters {hi : Pos} {ps : List (Bytes × Rng)} (hp : ParamsOK hi ps) {st : St}
    (hd : DocOK hi st) : Ext hi hi st (recordParameters ps hi st) := by
  unfold recordParameters
  induction ps generalizing st with
  | nil => exact Ext.refl (Le.refl _) hd
  | cons p ps ih =>
    have h1 : Ext hi hi st (st.record p.1 p.2 hi true) :=
      Ext.record (Le.refl _) hd (hp p (by simp)).1 (by simp) (hp p (by simp)).2
    exact h1.trans (ih (fun q hq => hp q (by simp [hq])) h1.docOK)

theorem ext_recordParametersAt {hi : Pos} {ps : List (Bytes × Rng)} (hp : ParamsOK hi ps) {k : Item} (hk : WF c k.node)
    (hhi : (c.range k.node).stop = hi) {st : St} (hd : DocOK hi st) : Ext hi hi st (recordParametersAt c ps k st) := by
  unfold recordParametersAt
  split
  · exact Ext.refl (Le.refl _) hd
  · next hl =>
    obtain ⟨h1, -, h3⟩ := first_last _ hk
    rw [hl] at h3
    exact absurd (List.getLast?_eq_none_iff.mp h3.symm) h1
  · next t hl =>
    obtain ⟨h1, h2, h3⟩ := first_last _ hk
    have : c.posAt (t.offset + t.length) = hi := by
      cases hf : (toks k.node).head? with
      | none => exact absurd (List.head?_eq_none_iff.mp hf) h1
      | some f => rw [← hhi, Ctx.range, h2, hf, hl]
    rw [this]
    exact ext_recordParameters hp hd

theorem pstep_onTop (hinc : Increasing c) {n : Node} {f : Sym → Sym} (hr : ∀ s, (f s).range = s.range)
    (hk : ∀ s, (f s).kind = s.kind) : PStep c n fun r => (r.1.onTop f, r.2) :=
  (step_onTop (f := fun _ => f) hinc (fun _ => hr) (fun _ => hk)).toP hinc

theorem pstep_ite {n : Node} {p : Prop} [Decidable p] {f g : St × List (Bytes × Rng) → St × List (Bytes × Rng)}
    (hf : p → PStep c n f) (hg : ¬ p → PStep c n g) : PStep c n fun st => if p then f st else g st := by
  intro a b st hc hd hv hp
  by_cases h : p
  · simp only [h, if_true]; exact hf h a b st hc hd hv hp
  · simp only [h, if_false]; exact hg h a b st hc hd hv hp

theorem pstep_functionHeader (hinc : Increasing c) {n : Item} (h : Ready c n) :
    PStep c n.node (functionHeader c n.kids) := by
  refine pstep_fold hinc h fun k hk => ?_
  split
  · exact pstep_ite (fun _ => pstep_onTop hinc (fun _ => rfl) (fun _ => rfl)) (fun _ => pstep_id hinc)
  · exact pstep_parameterList hinc (h.kids k hk).ready
  · exact pstep_onTop hinc (fun _ => rfl) (fun _ => rfl)
  · exact pstep_id hinc

theorem pstep_methodHeader (hinc : Increasing c) {n : Item} (h : Ready c n) :
    PStep c n.node (methodHeader c n.kids) := by
  refine pstep_fold hinc h fun k hk => ?_
  split
  · exact pstep_ite (fun _ => pstep_onTop hinc (fun _ => rfl) (fun _ => rfl)) (fun _ => pstep_id hinc)
  · exact pstep_parameterList hinc (h.kids k hk).ready
  · exact pstep_onTop hinc (fun _ => rfl) (fun _ => rfl)
  · exact pstep_id hinc

/-- A header and then its parameters. -/
theorem pstep_header (hinc : Increasing c) {k : Item} (hk : WF c k.node) {f : St × List (Bytes × Rng) → St × List (Bytes × Rng)}
    (hf : PStep c k.node f) {g : St × List (Bytes × Rng) → St}
    (hg : ∀ r hi, (c.range k.node).stop = hi → DocOK hi r.1 → ParamsOK hi r.2 → Ext hi hi r.1 (g r)) :
    PStep c k.node fun r => (g (f r), (f r).2) := by
  intro a b r hc hd hv hp
  obtain ⟨i, j, hr, hi, hj, hc'⟩ := range_spec hk hc
  obtain ⟨h1, h2⟩ := hf i j r hc' (hd.mono (hinc.le hi)) hv (hp.mono (hinc.le hi))
  exact ⟨(h1.trans (hg _ _ (by rw [hr]) h1.docOK h2).toB).mono (hinc.le hi) (hinc.le hj), h2.mono (hinc.le hj)⟩

/-- A function: its range is a block and a scope. -/
theorem step_function (hinc : Increasing c) {n : Item} (h : Ready c n) (s : Sym) (hs : s.range = c.range n.node)
    {f : St × List (Bytes × Rng) → Item → St × List (Bytes × Rng)} (hf : ∀ k ∈ n.kids, PStep c k.node fun r => f r k)
    {g : St → Sym → Sym} (hr : ∀ st s, (g st s).range = s.range) (hk : ∀ st s, (g st s).kind = s.kind) :
    Step c n.node fun st =>
      let st := (n.kids.foldl f ((st.pushVars (c.range n.node)).pushBlock s, [])).1
      (st.onTop (g st)).popVars.popBlock := by
  intro a b st hc hd
  obtain ⟨i, j, hrr, h1, h2, h3⟩ := range_spec h.wf hc
  rw [hrr] at hs
  refine Ext.scope (s := s) ?_ (by rw [hs]; exact hinc.le h1) (by rw [hs]; exact hinc.le h2)
  rw [hrr, ← hs]
  refine ExtB.onTop ?_ (hr _) (hk _)
  have hsi : s.range.start = c.posAt i := by rw [hs]
  have hsj : s.range.stop = c.posAt j := by rw [hs]
  rw [hsi, hsj]
  refine (ext_fold hinc hf (h.chain h3) (r := ((st.pushVars s.range).pushBlock s, [])) ?_ ?_ ?_).1
  · exact fun d hd' => (hd d hd').trans (hinc.le h1)
  · simp [St.pushVars, St.pushBlock]
  · intro p hp; simp at hp

theorem step_newFunction (hinc : Increasing c) {n : Item} (h : Ready c n) : Step c n.node (newFunction c n) := by
  refine step_function hinc h ⟨.function, c.range n.node, [], []⟩ rfl (f := fun r k =>
    match k.type? with
    | some .functionDeclarationHeader =>
      let r := functionHeader c k.kids r
      (recordParametersAt c r.2 k r.1, r.2)
    | some .functionDeclarationBody => (scanForChildren k r.1, r.2)
    | _ => r) (fun k hk => ?_)
    (g := fun st s => { s with name := ((⟨s.name, s.name, 0⟩ : Types.Ty).setNamespace st.ns).fqn }) (fun _ _ => rfl) (fun _ _ => rfl)
  split
  · exact pstep_header hinc (h.kids k hk).wf (pstep_functionHeader hinc (h.kids k hk).ready)
      (fun r hi hhi hd hp => ext_recordParametersAt hp (h.kids k hk).wf hhi hd)
  · exact (step_scanForChildren hinc (h.kids k hk).ready).toP hinc
  · exact pstep_id hinc

theorem step_newMethod (hinc : Increasing c) {n : Item} (h : Ready c n) : Step c n.node (newMethod c n) := by
  refine step_function hinc h ⟨.method, c.range n.node, [], []⟩ rfl (f := fun r k =>
    match k.type? with
    | some .methodDeclarationHeader =>
      let r := methodHeader c k.kids r
      (recordParametersAt c r.2 k r.1, r.2)
    | some .methodDeclarationBody => (scanForChildren k r.1, r.2)
    | _ => r) (fun k hk => ?_)
    (g := fun st s => { s with scope := st.lastClassFQN }) (fun _ _ => rfl) (fun _ _ => rfl)
  split
  · exact pstep_header hinc (h.kids k hk).wf (pstep_methodHeader hinc (h.kids k hk).ready)
      (fun r hi hhi hd hp => ext_recordParametersAt hp (h.kids k hk).wf hhi hd)
  · exact (step_scanForChildren hinc (h.kids k hk).ready).toP hinc
  · exact pstep_id hinc

/-! ### closures -/

/-- Like `Step`, with recordings in the scope around the current one. -/
def StepB (c : Ctx) (n : Node) (f : St → St) : Prop :=
  ∀ a b st, Chain a b (toks n) → DocOK (c.posAt a) st → st.varsBelow ≠ [] → ExtB (c.posAt a) (c.posAt b) st (f st)

theorem Step.toB {n : Node} {f : St → St} (h : Step c n f) : StepB c n f :=
  fun a b st hc hd _ => (h a b st hc hd).toB

theorem stepB_each (hinc : Increasing c) {f : Item → St → St} {n : Item} (h : Ready c n)
    (hf : ∀ k ∈ n.kids, StepB c k.node (f k)) : StepB c n.node (each f n.kids) := by
  have key : ∀ (ks : List Item) a b st, (∀ k ∈ ks, StepB c k.node (f k)) → Chain a b (itoks ks) → DocOK (c.posAt a) st →
      st.varsBelow ≠ [] → ExtB (c.posAt a) (c.posAt b) st (each f ks st) := by
    intro ks
    induction ks with
    | nil => intro a b st _ hc hd _; exact (Ext.refl (hinc.le hc) hd).toB
    | cons k ks ih =>
      intro a b st hf hc hd hv
      rw [itoks_cons, chain_append] at hc
      obtain ⟨m, h1, h2⟩ := hc
      have h3 := hf k (by simp) a m st h1 hd hv
      exact h3.trans (ih m b _ (fun k' hk' => hf k' (by simp [hk'])) h2 h3.docOK (h3.varsBelow hv))
  exact fun a b st hc hd hv => key n.kids a b st hf (h.chain hc) hd hv

theorem stepB_ite {n : Node} {p : Prop} [Decidable p] {f g : St → St} (hf : p → StepB c n f) (hg : ¬ p → StepB c n g) :
    StepB c n fun st => if p then f st else g st := by
  intro a b st hc hd hv
  by_cases h : p
  · simp only [h, if_true]; exact hf h a b st hc hd hv
  · simp only [h, if_false]; exact hg h a b st hc hd hv

theorem stepB_useVariable (hinc : Increasing c) {k : Item} (h : Ready c k)
    (ht : k.type? = some .anonymousFunctionUseVariable) :
    StepB c k.node fun st =>
      ((st.record (c.nodeText k.node) (c.range k.node) (c.range k.node).stop true).recordBelow (c.nodeText k.node)
        (c.range k.node) (c.range k.node).stop false).add (symOf c .variable k.node) := by
  intro a b st hc hd hv
  have hx : ∀ t ∈ toks k.node, 0 < t.length := by
    have hr := (h.regular ht).extent (.inr (.inl rfl))
    obtain ⟨ks, hk⟩ := type?_eq ht
    have h2 := h.nodes
    rw [hk] at h2 ⊢
    intro t htm
    exact hr t (by rw [← h2]; exact htm)
  obtain ⟨i, j, hr, h1, h2, h3, h4⟩ := range_extent hinc h.wf hc hx
  have hi := hinc.le h1
  have hj := hinc.le h2
  have hij := hinc i j h4
  have hup : Before (c.range k.node).start (c.posAt b) := by rw [hr]; exact before_le hij hj
  have hlow : Le (c.posAt a) (c.range k.node).start := by rw [hr]; exact hi
  cases hvb : st.varsBelow with
  | nil => exact absurd hvb hv
  | cons v vs =>
    refine ⟨[.node (symOf c .variable k.node) []], [⟨⟨c.nodeText k.node, c.range k.node, 0⟩, (c.range k.node).stop, true⟩],
      [⟨⟨c.nodeText k.node, c.range k.node, 0⟩, (c.range k.node).stop, false⟩], [], ?_⟩
    have he : ((st.record (c.nodeText k.node) (c.range k.node) (c.range k.node).stop true).recordBelow (c.nodeText k.node)
        (c.range k.node) (c.range k.node).stop false).add (symOf c .variable k.node) =
        { st with
          vars := { st.vars with recs := st.vars.recs ++ [⟨⟨c.nodeText k.node, c.range k.node, 0⟩, (c.range k.node).stop, true⟩] }
          varsBelow := { v with recs := v.recs ++ [⟨⟨c.nodeText k.node, c.range k.node, 0⟩, (c.range k.node).stop, false⟩] } :: vs
          top := { st.top with kids := st.top.kids ++ [.node (symOf c .variable k.node) []] } } := by
      simp [St.record, St.recordBelow, St.add, St.addTree, hvb]
    show Adds _ _ _ _ _ _ st (((st.record _ _ _ true).recordBelow _ _ _ false).add _)
    rw [he]
    refine ⟨rfl, rfl, rfl, rfl, rfl, rfl, by simp, .inr ⟨v, vs, hvb, rfl⟩, rfl, hd.mono (hinc.le (chain_le hc)), ?_, ⟨?_, ?_, by simp, by simp [Le.refl]⟩,
      ⟨?_, ?_, by simp, by simp [Le.refl]⟩, .nil (hinc.le (chain_le hc))⟩
    · refine .leaf ?_ (fun _ => ?_)
      · exact Le.of_before hup
      · exact ⟨hlow, by show Le (c.range k.node).stop _; rw [hr]; exact hj⟩
    · simpa using hup
    · simp
    · simpa using hup
    · simpa using hlow

theorem stepB_closureUse (hinc : Increasing c) {n : Item} (h : Ready c n) : StepB c n.node (closureUse c n.kids) := by
  refine stepB_each hinc h fun k hk => stepB_ite (fun _ => ?_) (fun _ => (step_id hinc).toB)
  refine stepB_each hinc (h.kids k hk).ready fun x hx => stepB_ite (fun ht => ?_) (fun _ => (step_id hinc).toB)
  exact stepB_useVariable hinc ((h.kids k hk).ready.kids x hx).ready ht

theorem pstep_anonymousHeader (hinc : Increasing c) {n : Item} (h : Ready c n) :
    PStep c n.node (anonymousHeader c n.kids) := by
  refine pstep_fold hinc h fun k hk => ?_
  split
  · exact pstep_parameterList hinc (h.kids k hk).ready
  · intro a b r hc hd hv hp
    exact ⟨stepB_closureUse hinc (h.kids k hk).ready a b r.1 hc hd hv, hp.mono (hinc.le (chain_le hc))⟩
  · exact pstep_id hinc

theorem step_newAnonymousFunction (hinc : Increasing c) {n : Item} (h : Ready c n) :
    Step c n.node (newAnonymousFunction c n) := by
  refine step_function hinc h ⟨.anonymousFunction, c.range n.node, [], []⟩ rfl (f := fun r k =>
    match k.type? with
    | some .anonymousFunctionHeader =>
      let r := anonymousHeader c k.kids r
      (recordParameters r.2 (c.range k.node).stop r.1, r.2)
    | some .functionDeclarationBody => (scanForChildren k r.1, r.2)
    | _ => r) (fun k hk => ?_) (g := fun _ s => s) (fun _ _ => rfl) (fun _ _ => rfl)
  split
  · exact pstep_header hinc (h.kids k hk).wf (pstep_anonymousHeader hinc (h.kids k hk).ready)
      (g := fun r => recordParameters r.2 (c.range k.node).stop r.1)
      (fun r hi hhi hd hp => by rw [hhi]; exact ext_recordParameters hp hd)
  · exact (step_scanForChildren hinc (h.kids k hk).ready).toP hinc
  · exact pstep_id hinc

/-! ### classes -/

theorem step_addName (hinc : Increasing c) {k : Item} (h : Sound c k) (kind : Kind) :
    Step c k.node fun st => if k.node.isName then st.add (symOf c kind k.node) else st :=
  step_ite (fun _ => step_add hinc h.wf (fun _ => symOf c kind k.node) (fun _ => rfl)) (fun _ => step_id hinc)

theorem step_classExtends (hinc : Increasing c) {n : Item} (h : Ready c n) : Step c n.node (classExtends c n.kids) := by
  intro a b st hc hd
  unfold classExtends
  split
  · next k hk =>
    have hm : k ∈ n.kids := (List.mem_filter.mp (List.mem_of_getLast? hk)).1
    exact step_classAccess hinc (h.kids k hm) _ rfl a b st (chain_item hm (h.chain hc)) hd
  · exact step_id hinc a b st hc hd

theorem step_classImplements (hinc : Increasing c) {n : Item} (h : Ready c n) :
    Step c n.node (classImplements c n.kids) := by
  intro a b st hc hd
  unfold classImplements
  split
  · next k hk =>
    have hm := List.mem_of_find?_eq_some hk
    exact step_each hinc (h.kids k hm).ready (fun x hx => step_addName hinc ((h.kids k hm).ready.kids x hx) _) a b st
      (chain_item hm (h.chain hc)) hd
  · exact step_id hinc a b st hc hd

theorem ext_docMembers {lo hi : Pos} (hl : Le lo hi) {r : Rng} (hr : Le r.start hi) (scope : Bytes)
    (ms : List (Bool × Bytes)) {st : St} (hd : DocOK lo st) :
    Ext lo hi st (ms.foldl (fun st m => st.add (docMember r scope m)) st) := by
  induction ms generalizing st lo with
  | nil => exact Ext.refl hl hd
  | cons m ms ih =>
    have h1 : Ext lo hi st (st.add (docMember r scope m)) := by
      refine Ext.add hl hd ?_ (fun ho => ?_)
      · unfold docMember; split
        · exact hr
        · split <;> exact hr
      · unfold docMember at ho
        split at ho
        · simp [Kind.ordered] at ho
        · split at ho <;> simp [Kind.ordered] at ho
    exact h1.trans (ih (Le.refl _) h1.docOK)

theorem ext_each_from (hinc : Increasing c) {f : Item → St → St} {ks : List Item} {a b : Nat}
    (hf : ∀ k ∈ ks, ∀ a' b' st, a ≤ a' → Chain a' b' (toks k.node) → DocOK (c.posAt a') st →
      Ext (c.posAt a') (c.posAt b') st (f k st))
    (hc : Chain a b (itoks ks)) {st : St} (hd : DocOK (c.posAt a) st) :
    Ext (c.posAt a) (c.posAt b) st (each f ks st) := by
  induction ks generalizing a st with
  | nil => exact Ext.refl (hinc.le hc) hd
  | cons k ks ih =>
    rw [itoks_cons, chain_append] at hc
    obtain ⟨m, h1, h2⟩ := hc
    have h3 := hf k (by simp) a m st (Nat.le_refl _) h1 hd
    exact h3.trans (ih (fun k' hk' a' b' st ha => hf k' (by simp [hk']) a' b' st (Nat.le_trans (chain_le h1) ha)) h2 h3.docOK)

theorem ext_classHeader (hinc : Increasing c) {n : Item} (h : Ready c n) (i : Nat)
    {doc : Option (Rng × List (Bool × Bytes))} {a b : Nat} (hdoc : ∀ d, doc = some d → Le d.1.start (c.posAt a)) {st : St}
    (hc : Chain a b (toks n.node)) (hd : DocOK (c.posAt a) st) :
    Ext (c.posAt a) (c.posAt b) st (classHeader c i doc n.kids st) := by
  refine ext_each_from hinc (fun k hk a' b' st ha hc hd => ?_) (h.chain hc) hd
  have hab := hinc.le (chain_le hc)
  split
  · next t ht =>
    split
    · have h1 : Ext (c.posAt a') (c.posAt a') st ((st.nameClass i ((tyOf (c.tokText t)).setNamespace st.ns)).onTop
          fun s => { s with name := ((tyOf (c.tokText t)).setNamespace st.ns).fqn }) :=
        Ext.of_eq (Le.refl _) rfl rfl rfl rfl rfl rfl rfl hd
      cases doc with
      | none => exact h1.mono (Le.refl _) hab
      | some d =>
        exact h1.trans (ext_docMembers hab ((hdoc d rfl).trans ((hinc.le ha).trans hab)) _ _ h1.docOK)
    · exact Ext.refl hab hd
  · exact (h.kids k hk).run a' b' st hc hd
  · exact step_classExtends hinc (h.kids k hk).ready a' b' st hc hd
  · exact step_classImplements hinc (h.kids k hk).ready a' b' st hc hd
  · exact Ext.refl hab hd

theorem validDoc_le {lo : Pos} {st : St} (hd : DocOK lo st) (r : Rng) : ∀ d, st.validDoc r = some d → Le d.1.start lo := by
  intro d h
  unfold St.validDoc at h
  split at h
  · simp at h
  · next d' hd' =>
    split at h
    · cases h; exact hd _ hd'
    · simp at h

/-- Classes with and without a name. -/
theorem step_class (hinc : Increasing c) {n : Item} (h : Ready c n) (head : PType) (name : St → Types.Ty) :
    Step c n.node fun st =>
      let r := st.addClass .class_ (name st)
      let doc := r.1.validDoc (c.range n.node)
      let st := r.1.pushBlock ⟨.class_, c.range n.node, (name st).fqn, []⟩
      let st := each (fun k st =>
        if k.type? = some head then classHeader c r.2 doc k.kids st
        else if k.type? = some .classDeclarationBody then scanForChildren k st
        else st) n.kids st
      st.popBlock := by
  intro a b st hc hd
  simp only
  obtain ⟨i, j, hr, h1, h2, h3⟩ := range_spec h.wf hc
  have hd1 : DocOK (c.posAt i) (st.addClass .class_ (name st)).1 := fun d hd' => (hd d hd').trans (hinc.le h1)
  have hblk : Ext (c.posAt a) (c.posAt b) (st.addClass .class_ (name st)).1
      (each (fun k st' =>
        if k.type? = some head then classHeader c (st.addClass .class_ (name st)).2
          ((st.addClass .class_ (name st)).1.validDoc (c.range n.node)) k.kids st'
        else if k.type? = some .classDeclarationBody then scanForChildren k st'
        else st') n.kids ((st.addClass .class_ (name st)).1.pushBlock ⟨.class_, c.range n.node, (name st).fqn, []⟩)).popBlock := by
    refine Ext.block (s := ⟨.class_, c.range n.node, (name st).fqn, []⟩) ?_ (by simp only; rw [hr]; exact hinc.le h1)
      (by simp only; rw [hr]; exact hinc.le h2)
    simp only
    rw [hr]
    refine ext_each_from hinc (fun k hk a' b' st' ha hc' hd' => ?_) (h.chain h3) hd1
    split
    · refine ext_classHeader hinc (h.kids k hk).ready _ (fun d hdd => ?_) hc' hd'
      exact (validDoc_le hd1 _ d hdd).trans (hinc.le ha)
    · split
      · exact step_scanForChildren hinc (h.kids k hk).ready a' b' st' hc' hd'
      · exact Ext.refl (hinc.le (chain_le hc')) hd'
  have hadd : Ext (c.posAt a) (c.posAt a) st (st.addClass .class_ (name st)).1 :=
    Ext.of_eq (Le.refl _) rfl rfl rfl rfl rfl rfl rfl hd
  exact hadd.trans hblk

theorem step_newClass (hinc : Increasing c) {n : Item} (h : Ready c n) : Step c n.node (newClass c n) := by
  have := step_class hinc h .classDeclarationHeader (fun _ => ⟨[], [], 0⟩)
  intro a b st hc hd
  have h1 := this a b st hc hd
  unfold newClass
  refine (congrArg (Ext _ _ st) ?_).mp h1
  simp only
  congr 1
  refine congrArg (fun f => each f n.kids _) ?_
  funext k st'
  by_cases ht1 : k.type? = some .classDeclarationHeader
  · simp [ht1]
  · by_cases ht2 : k.type? = some .classDeclarationBody
    · simp [ht2]
    · rw [if_neg ht1, if_neg ht2]
      split
      · next h => exact absurd h ht1
      · next h => exact absurd h ht2
      · rfl

theorem step_newAnonymousClass (hinc : Increasing c) {n : Item} (h : Ready c n) : Step c n.node (newAnonymousClass c n) := by
  have := step_class hinc h .anonymousClassDeclarationHeader (fun st => (tyOf (c.anonName (c.range n.node).start)).setNamespace st.ns)
  intro a b st hc hd
  have h1 := this a b st hc hd
  unfold newAnonymousClass
  refine (congrArg (Ext _ _ st) ?_).mp h1
  simp only
  congr 1
  refine congrArg (fun f => each f n.kids _) ?_
  funext k st'
  by_cases ht1 : k.type? = some .anonymousClassDeclarationHeader
  · simp [ht1]
  · by_cases ht2 : k.type? = some .classDeclarationBody
    · simp [ht2]
    · rw [if_neg ht1, if_neg ht2]
      split
      · next h => exact absurd h ht1
      · next h => exact absurd h ht2
      · rfl

theorem step_nameHeader (hinc : Increasing c) {n : Item} (h : Ready c n) (i : Nat) (f : Types.Ty → Bytes → Types.Ty) :
    Step c n.node (nameHeader c i f n.kids) := by
  refine step_each hinc h fun k hk => ?_
  split
  · exact step_ite (fun _ => step_of_eq hinc (fun _ => rfl) (fun _ => rfl) (fun _ => rfl) (fun _ => rfl) (fun _ => rfl)
      (fun _ => rfl) (fun _ => rfl) (fun _ => rfl)) (fun _ => step_id hinc)
  · exact step_id hinc

theorem step_newInterface (hinc : Increasing c) {n : Item} (h : Ready c n) : Step c n.node (newInterface c n) := by
  intro a b st hc hd
  have hadd : Ext (c.posAt a) (c.posAt a) st (st.addClass .interface_ ⟨[], [], 0⟩).1 :=
    Ext.of_eq (Le.refl _) rfl rfl rfl rfl rfl rfl rfl hd
  refine hadd.trans ?_
  refine step_block hinc h.wf (f := fun st' =>
    let st' := each (fun k st'' =>
      match k.type? with
      | some .interfaceDeclarationHeader => nameHeader c st.classes.length (fun t _ => t) k.kids st''
      | some .interfaceDeclarationBody => scanForChildren k st''
      | _ => st'') n.kids st'
    let name : Types.Ty := ((st'.classes[st.classes.length]?.map fun (x : Cls) => x.name).getD ⟨[], [], 0⟩).setNamespace st'.ns
    (st'.nameClass st.classes.length name).onTop fun s => { s with name := name.fqn }) ?_
    ⟨.interface_, c.range n.node, [], []⟩ rfl a b _ hc hadd.docOK
  intro a b st' hc hd
  have h1 : Ext (c.posAt a) (c.posAt b) st' (each (fun k st'' =>
      match k.type? with
      | some .interfaceDeclarationHeader => nameHeader c st.classes.length (fun t _ => t) k.kids st''
      | some .interfaceDeclarationBody => scanForChildren k st''
      | _ => st'') n.kids st') := by
    refine step_each hinc h (fun k hk => ?_) a b st' hc hd
    split
    · exact step_nameHeader hinc (h.kids k hk).ready _ _
    · exact step_scanForChildren hinc (h.kids k hk).ready
    · exact step_id hinc
  exact h1.trans (Ext.of_eq (Le.refl _) rfl rfl rfl rfl rfl rfl rfl h1.docOK)

theorem step_newTrait (hinc : Increasing c) {n : Item} (h : Ready c n) : Step c n.node (newTrait c n) := by
  intro a b st hc hd
  have hadd : Ext (c.posAt a) (c.posAt a) st (st.addClass .trait_ ⟨[], [], 0⟩).1 :=
    Ext.of_eq (Le.refl _) rfl rfl rfl rfl rfl rfl rfl hd
  refine hadd.trans ?_
  refine step_block hinc h.wf (f := fun st' =>
    each (fun k st'' =>
      match k.type? with
      | some .traitDeclarationHeader => nameHeader c st.classes.length (fun t ns => t.setNamespace ns) k.kids st''
      | some .traitDeclarationBody => scanForChildren k st''
      | _ => st'') n.kids st') ?_ ⟨.trait_, c.range n.node, [], []⟩ rfl a b _ hc hadd.docOK
  refine step_each hinc h (fun k hk => ?_)
  split
  · exact step_nameHeader hinc (h.kids k hk).ready _ _
  · exact step_scanForChildren hinc (h.kids k hk).ready
  · exact step_id hinc

/-! ### members of classes -/

/-- A symbol of a kind that is not ordered, added at the end. -/
theorem Ext.addLast {lo hi : Pos} {st st' : St} (h : Ext lo hi st st') {s : Sym} (ho : s.kind.ordered = false)
    (h1 : Le s.range.start hi) : Ext lo hi st (st'.add s) :=
  h.trans (Ext.add (Le.refl _) h.docOK h1 (fun h => by rw [ho] at h; simp at h))

theorem start_le (hinc : Increasing c) {n : Node} (h : WF c n) {a b : Nat} (hc : Chain a b (toks n)) :
    Le (c.range n).start (c.posAt b) := by
  obtain ⟨i, j, hr, h1, h2, h3⟩ := range_spec h hc
  rw [hr]
  exact (hinc.le (chain_le h3)).trans (hinc.le h2)

theorem step_newProperty (hinc : Increasing c) {n : Item} (h : Ready c n) : Step c n.node (newProperty c n) := by
  intro a b st hc hd
  refine Ext.addLast (step_each hinc h (fun k hk => step_ite (fun _ => step_scanForChildren hinc (h.kids k hk).ready)
    (fun _ => step_id hinc)) a b st hc hd) rfl (start_le hinc h.wf hc)

theorem step_newPropertyDeclaration (hinc : Increasing c) {n : Item} (h : Ready c n) :
    Step c n.node (newPropertyDeclaration c n) :=
  step_each hinc h fun k hk => step_ite (fun _ => step_each hinc (h.kids k hk).ready fun x hx =>
    step_ite (fun _ => step_newProperty hinc ((h.kids k hk).ready.kids x hx).ready) (fun _ => step_id hinc)) (fun _ => step_id hinc)

theorem ext_classConstLoop (hinc : Increasing c) {ks : List Item} (h : ∀ k ∈ ks, Sound c k) (e : Bool) (name : Bytes)
    {a b : Nat} (hc : Chain a b (itoks ks)) {st : St} (hd : DocOK (c.posAt a) st) :
    Ext (c.posAt a) (c.posAt b) st (classConstLoop c ks e name st).1 := by
  induction ks generalizing a st e name with
  | nil => exact Ext.refl (hinc.le hc) hd
  | cons k ks ih =>
    rw [itoks_cons, chain_append] at hc
    obtain ⟨m, h1, h2⟩ := hc
    have hks : ∀ x ∈ ks, Sound c x := fun x hx => h x (by simp [hx])
    have ham := hinc.le (chain_le h1)
    have skip : ∀ e name, Ext (c.posAt a) (c.posAt b) st (classConstLoop c ks e name st).1 :=
      fun e name => (ih hks e name h2 (hd.mono ham)).mono ham (Le.refl _)
    rw [classConstLoop]
    split
    · exact skip _ _
    · split
      · split
        · have h3 := (h k (by simp)).run a m st h1 hd
          exact h3.trans (ih hks _ _ h2 h3.docOK)
        · exact skip _ _
      · exact skip _ _

theorem step_newClassConst (hinc : Increasing c) {n : Item} (h : Ready c n) : Step c n.node (newClassConst c n) := by
  intro a b st hc hd
  exact Ext.addLast (ext_classConstLoop hinc h.kids false [] (h.chain hc) hd) rfl (start_le hinc h.wf hc)

theorem step_newClassConstDeclaration (hinc : Increasing c) {n : Item} (h : Ready c n) :
    Step c n.node (newClassConstDeclaration c n) :=
  step_each hinc h fun k hk => step_ite (fun _ => step_each hinc (h.kids k hk).ready fun x hx =>
    step_ite (fun _ => step_newClassConst hinc ((h.kids k hk).ready.kids x hx).ready) (fun _ => step_id hinc)) (fun _ => step_id hinc)

theorem step_processTraitUse (hinc : Increasing c) {n : Item} (h : Ready c n) : Step c n.node (processTraitUse c n) :=
  step_each hinc h fun k hk => step_ite (fun _ => step_each hinc (h.kids k hk).ready fun x hx =>
    step_addName hinc ((h.kids k hk).ready.kids x hx) _) (fun _ => step_id hinc)

theorem step_processCatchNames (hinc : Increasing c) {n : Item} (h : Ready c n) : Step c n.node (processCatchNames c n) :=
  step_each hinc h fun k hk => step_ite (fun _ => step_classAccess hinc (h.kids k hk) _ rfl) (fun _ => step_id hinc)

theorem step_newGlobalDeclaration (hinc : Increasing c) {n : Item} (h : Ready c n) :
    Step c n.node (newGlobalDeclaration c n) :=
  step_each hinc h fun k hk => step_ite (fun _ => step_each hinc (h.kids k hk).ready fun x hx =>
    step_ite (fun ht => step_variable hinc ((h.kids k hk).ready.kids x hx).wf
      (variable_extent ((h.kids k hk).ready.kids x hx).ready ht) true _ _ _ rfl (Le.refl _)) (fun _ => step_id hinc)) (fun _ => step_id hinc)

theorem step_newNamespace (hinc : Increasing c) {n : Item} (h : Ready c n) : Step c n.node (newNamespace c n) := by
  intro a b st hc hd
  have h1 : Ext (c.posAt a) (c.posAt a) st { st with ns := [] } := Ext.of_eq (Le.refl _) rfl rfl rfl rfl rfl rfl rfl hd
  refine h1.trans (step_each hinc h (fun k hk => ?_) a b _ hc h1.docOK)
  split
  · exact step_of_eq hinc (fun _ => rfl) (fun _ => rfl) (fun _ => rfl) (fun _ => rfl) (fun _ => rfl) (fun _ => rfl)
      (fun _ => rfl) (fun _ => rfl)
  · exact step_scanForChildren hinc (h.kids k hk).ready
  · exact step_id hinc

theorem step_docType (hinc : Increasing c) {n : Item} (h : WF c n.node) : Step c n.node (docType c n) := by
  unfold docType
  split
  · exact step_ite (fun _ => step_add hinc h _ (fun _ => rfl)) (fun _ => step_id hinc)
  · exact step_id hinc

theorem step_docTypes (hinc : Increasing c) {k : Item} (h : Ready c k) : Step c k.node (docTypes c k) := by
  unfold docTypes
  split
  · exact step_docType hinc h.wf
  · exact step_each hinc h fun x hx => step_ite (fun _ => step_docType hinc (h.kids x hx).wf) (fun _ => step_id hinc)
  · exact step_id hinc

theorem step_docTagSymbols (hinc : Increasing c) {n : Item} (h : Ready c n) : Step c n.node (docTagSymbols c n) :=
  step_ite (fun _ => step_each hinc h fun k hk => step_docTypes hinc (h.kids k hk).ready) fun _ =>
    step_ite (fun _ => step_each hinc h fun k hk => step_ite
      (fun _ => step_each hinc (h.kids k hk).ready fun x hx => step_ite
        (fun _ => step_each hinc ((h.kids k hk).ready.kids x hx).ready fun y hy =>
          step_docTypes hinc (((h.kids k hk).ready.kids x hx).ready.kids y hy).ready)
        (fun _ => step_id hinc))
      (fun _ => step_docTypes hinc (h.kids k hk).ready)) (fun _ => step_id hinc)

theorem step_newPhpDoc (hinc : Increasing c) {n : Item} (h : Ready c n) : Step c n.node (newPhpDoc c n) := by
  intro a b st hc hd
  have h1 := step_each hinc h (f := fun k st => if k.isDocTag then docTagSymbols c k st else st) (fun k hk => step_ite
    (fun _ => step_docTagSymbols hinc (h.kids k hk).ready) (fun _ => step_id hinc)) a b st hc hd
  refine h1.trans (Ext.of_eq (Le.refl _) rfl rfl rfl rfl rfl rfl rfl ?_)
  intro d hd'
  cases hd'
  exact start_le hinc h.wf hc

/-! ### the analysis -/

theorem step_declare (hinc : Increasing c) {n : Item} (h : Ready c n) : Step c n.node (declare c n) := by
  unfold declare
  split
  · exact step_newInterface hinc h
  · exact step_newClass hinc h
  · exact step_newClassConstDeclaration hinc h
  · exact step_newPropertyDeclaration hinc h
  · exact step_newMethod hinc h
  · exact step_processTraitUse hinc h
  · exact step_newFunction hinc h
  · exact step_newConstDeclaration hinc h
  · exact step_newConst hinc h
  · exact step_newArgumentList hinc h
  · exact step_newTrait hinc h
  · exact step_ite (fun _ => step_newDefine hinc h) (fun _ => step_id hinc)
  · exact step_newGlobalDeclaration hinc h
  · exact step_newAnonymousFunction hinc h
  · exact step_newAnonymousClass hinc h
  · exact step_newPhpDoc hinc h
  · exact step_processCatchNames hinc h
  · exact step_id hinc

theorem declare_expr {n : Item} {ty : PType} (ht : n.type? = some ty) (hty : isExprType ty = true)
    (hdef : isDefine c n.kids = false) (st : St) : declare c n st = st := by
  cases ty <;> simp [isExprType] at hty <;> simp [declare, ht, hdef]

theorem step_scanNode (hinc : Increasing c) {n : Item} (h : Ready c n) : Step c n.node (scanNode c n) := by
  intro a b st hc hd
  unfold scanNode
  split
  · next ty ks hk =>
    have ht : n.type? = some ty := by simp [Item.type?, hk]
    split
    · exact step_newNamespace hinc h a b st hc hd
    · have rest : ∀ st, DocOK (c.posAt a) st → Ext (c.posAt a) (c.posAt b) st
          (if isTransparent ty = true then scanForChildren n st else declare c n st) := by
        intro st hd
        split
        · exact step_scanForChildren hinc h a b st hc hd
        · exact step_declare hinc h a b st hc hd
      cases hdef : isDefine c n.kids with
      | true => simpa using rest st hd
      | false =>
        simp only [Bool.false_eq_true, if_false]
        cases hty : isExprType ty with
        | false =>
          rw [scan_plain ht hty]
          exact rest st hd
        | true =>
          have htr : isTransparent ty = false := by
            cases ty <;> simp [isExprType] at hty <;> rfl
          rw [htr, declare_expr ht hty hdef]
          exact step_scanForExpression hinc h a b st hc hd
  · next t ht =>
    split
    · exact step_add hinc h.wf (fun _ => symOf c .constantAccess n.node) (fun _ => rfl) a b st hc hd
    · exact step_id hinc a b st hc hd
  · exact step_id hinc a b st hc hd

theorem ofKids_nodes (ks : List Node) : (Item.ofKids c ks).map Item.node = ks := by
  induction ks with
  | nil => simp [Item.ofKids]
  | cons k ks ih =>
    rw [Item.ofKids, List.map_cons, ih]
    congr 1
    cases k <;> simp [Item.of, Item.node]

mutual

theorem sound_of (hinc : Increasing c) : ∀ n, WF c n → Sound c (Item.of c n)
  | .tok t, h => by
    have hr : Ready c (Item.mk (.tok t) id (fun st => (st, false)) []) := ⟨h, rfl, by simp [Item.kids]⟩
    rw [Item.of]
    have hrun := step_scanNode hinc hr
    refine .intro _ h rfl hrun (step_id hinc) ?_ ?_ ?_ ?_ (by simp [Item.kids])
    · intro ht; simp [Item.type?, Item.node] at ht
    · intro ty ht; simp [Item.type?, Item.node] at ht
    · intro ty ht; simp [Item.type?, Item.node] at ht
    · intro ha st
      simp only [Item.node, Node.active, decide_eq_false_iff_not] at ha
      simp [Item.run, scanNode, Item.node, ha]
  | .err t, h => by
    rw [Item.of]
    refine .intro _ h rfl (step_id hinc) (step_id hinc) ?_ ?_ ?_ ?_ (by simp [Item.kids])
    · intro ht; simp [Item.type?, Item.node] at ht
    · intro ty ht; simp [Item.type?, Item.node] at ht
    · intro ty ht; simp [Item.type?, Item.node] at ht
    · intro _ _; rfl
  | .phr ty ks, h => by
    have hk := sound_ofKids hinc ks h.2
    have hr : Ready c (Item.mk (.phr ty ks) id (fun st => (st, false)) (Item.ofKids c ks)) :=
      ⟨h, (ofKids_nodes ks).symm, hk⟩
    rw [Item.of]
    have hty : ∀ {n : Item} {x y}, n.node = .phr x y → n.type? = some x := by
      intro n x y h; simp [Item.type?, h]
    have hrun := step_scanNode hinc hr
    have hexpr := step_scanForExpression hinc hr
    refine .intro _ h (ofKids_nodes ks).symm hrun hexpr ?_ ?_ ?_ ?_ hk
    · intro ht st; exact scan_var (n := Item.mk (.phr ty ks) id (fun st => (st, false)) (Item.ofKids c ks)) ht st
    · intro ty' ht hx st
      exact scan_plain (n := Item.mk (.phr ty ks) id (fun st => (st, false)) (Item.ofKids c ks)) ht hx st
    · intro ty' ht hx hv st
      exact scan_value (n := Item.mk (.phr ty ks) id (fun st => (st, false)) (Item.ofKids c ks)) ht hx hv st
    · intro ha; simp [Item.node, Node.active] at ha

theorem sound_ofKids (hinc : Increasing c) : ∀ ks, WFs c ks → ∀ k ∈ Item.ofKids c ks, Sound c k
  | [], _ => by simp [Item.ofKids]
  | k :: ks, h => by
    intro x hx
    rw [Item.ofKids] at hx
    rcases List.mem_cons.mp hx with rfl | hx
    · exact sound_of hinc k h.1
    · exact sound_ofKids hinc ks h.2 x hx

end

/-- The whole document. -/
theorem analyse_adds (hinc : Increasing c) {root : Node} (h : WF c root) {a b : Nat} (hc : Chain a b (toks root)) :
    Ext (c.posAt a) (c.posAt b) (St.start c root) (analyse c root) := by
  have hn : (Item.of c root).node = root := by cases root <;> simp [Item.of, Item.node]
  have := step_scanForChildren hinc (sound_of hinc root h).ready a b (St.start c root) (by rw [hn]; exact hc)
    (by intro d hd; simp [St.start] at hd)
  exact this

end

end Verif.Analyser
