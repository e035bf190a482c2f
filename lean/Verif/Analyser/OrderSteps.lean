import Verif.Analyser.Order

/-! The analysis keeps the order of the text: expressions. -/

namespace Verif.Analyser
open Verif.Symbols (Tree Var Rec)
open Verif.Position (Before)

/-- What a function does at a node keeps the order of the text. -/
def Step (c : Ctx) (n : Node) (f : St → St) : Prop :=
  ∀ a b st, Chain a b (toks n) → DocOK (c.posAt a) st → Ext (c.posAt a) (c.posAt b) st (f st)

/-- The tokens of some items. -/
def itoks (ks : List Item) : List Tok := toksOf (ks.map Item.node)

/-- An item that behaves, and whose children behave. -/
inductive Sound (c : Ctx) : Item → Prop
  | intro (n : Item) (wf : WF c n.node) (nodes : n.node.kids = n.kids.map Item.node) (run : Step c n.node n.run)
      (expr : Step c n.node fun st => (n.expr st).1)
      (var : n.type? = some .simpleVariable → ∀ st, n.expr st = (newVariable c false n.node st, true))
      (plain : ∀ ty, n.type? = some ty → isExprType ty = false → ∀ st, n.expr st = (st, false))
      (value : ∀ ty, n.type? = some ty → isExprType ty = true → n.node.noValue = false → ∀ st, (n.expr st).2 = true)
      (quiet : n.node.active = false → ∀ st, n.run st = st)
      (kids : ∀ k ∈ n.kids, Sound c k) : Sound c n

/-- An item whose children behave. -/
structure Ready (c : Ctx) (n : Item) : Prop where
  wf : WF c n.node
  nodes : n.node.kids = n.kids.map Item.node
  kids : ∀ k ∈ n.kids, Sound c k

section
variable {c : Ctx}

theorem Sound.ready {n : Item} : Sound c n → Ready c n
  | .intro _ wf nodes _ _ _ _ _ _ kids => ⟨wf, nodes, kids⟩

theorem Sound.run {n : Item} : Sound c n → Step c n.node n.run
  | .intro _ _ _ run _ _ _ _ _ _ => run

theorem Sound.expr {n : Item} : Sound c n → Step c n.node fun st => (n.expr st).1
  | .intro _ _ _ _ expr _ _ _ _ _ => expr

theorem Sound.var {n : Item} : Sound c n → n.type? = some .simpleVariable →
    ∀ st, n.expr st = (newVariable c false n.node st, true)
  | .intro _ _ _ _ _ var _ _ _ _ => var

theorem Sound.plain {n : Item} : Sound c n → ∀ ty, n.type? = some ty → isExprType ty = false →
    ∀ st, n.expr st = (st, false)
  | .intro _ _ _ _ _ _ plain _ _ _ => plain

theorem Sound.value {n : Item} : Sound c n → ∀ ty, n.type? = some ty → isExprType ty = true →
    n.node.noValue = false → ∀ st, (n.expr st).2 = true
  | .intro _ _ _ _ _ _ _ value _ _ => value

theorem Sound.quiet {n : Item} : Sound c n → n.node.active = false → ∀ st, n.run st = st
  | .intro _ _ _ _ _ _ _ _ quiet _ => quiet

theorem Sound.wf {n : Item} (h : Sound c n) : WF c n.node := h.ready.wf

theorem type?_eq {n : Item} {ty : PType} (h : n.type? = some ty) : ∃ ks, n.node = .phr ty ks := by
  unfold Item.type? at h
  split at h
  · next ty' ks hn => cases h; exact ⟨ks, hn⟩
  · simp at h

theorem Ready.regular {n : Item} (h : Ready c n) {ty : PType} (ht : n.type? = some ty) :
    Regular ty (n.kids.map Item.node) := by
  obtain ⟨ks, hk⟩ := type?_eq ht
  have h1 := h.wf
  have h2 := h.nodes
  rw [hk] at h1 h2
  rw [← h2]
  exact h1.1

theorem Ready.chain {n : Item} (h : Ready c n) {a b : Nat} (hc : Chain a b (toks n.node)) : Chain a b (itoks n.kids) := by
  have h2 := h.nodes
  unfold itoks
  rw [← h2]
  cases hn : n.node with
  | tok t => exact chain_le hc
  | err t => exact chain_le hc
  | phr ty ks => rw [hn] at hc; exact hc

theorem tok?_eq {n : Item} {t : Tok} (h : n.tok? = some t) : n.node = .tok t := by
  unfold Item.tok? at h
  split at h
  · next t' hn => cases h; exact hn
  · simp at h

theorem itoks_append (xs ys : List Item) : itoks (xs ++ ys) = itoks xs ++ itoks ys := by
  simp [itoks, toksOf_append]

theorem itoks_cons (k : Item) (ks : List Item) : itoks (k :: ks) = toks k.node ++ itoks ks := by
  simp [itoks, toksOf]

theorem itoks_sublist {xs ys : List Item} (h : xs.Sublist ys) : (itoks xs).Sublist (itoks ys) := by
  induction h with
  | slnil => exact .slnil
  | cons k _ ih => rw [itoks_cons]; exact ih.trans (List.sublist_append_right _ _)
  | cons_cons k _ ih => rw [itoks_cons, itoks_cons]; exact (List.Sublist.refl _).append ih

theorem chain_items {a b : Nat} {xs ys : List Item} (h : xs.Sublist ys) (hc : Chain a b (itoks ys)) :
    Chain a b (itoks xs) := chain_sublist (itoks_sublist h) hc

theorem chain_item {a b : Nat} {k : Item} {ks : List Item} (h : k ∈ ks) (hc : Chain a b (itoks ks)) :
    Chain a b (toks k.node) := by
  have := chain_items (List.singleton_sublist.mpr h) hc
  rw [itoks_cons] at this
  simpa [itoks, toksOf] using this

/-! ### combinations -/

theorem ext_each (hinc : Increasing c) {f : Item → St → St} {ks : List Item} (hf : ∀ k ∈ ks, Step c k.node (f k))
    {a b : Nat} (hc : Chain a b (itoks ks)) {st : St} (hd : DocOK (c.posAt a) st) :
    Ext (c.posAt a) (c.posAt b) st (each f ks st) := by
  induction ks generalizing a st with
  | nil => exact Ext.refl (hinc.le hc) hd
  | cons k ks ih =>
    rw [itoks_cons, chain_append] at hc
    obtain ⟨m, h1, h2⟩ := hc
    have h3 := hf k (by simp) a m st h1 hd
    exact h3.trans (ih (fun k' hk' => hf k' (by simp [hk'])) h2 h3.docOK)

theorem step_each (hinc : Increasing c) {f : Item → St → St} {n : Item} (h : Ready c n)
    (hf : ∀ k ∈ n.kids, Step c k.node (f k)) : Step c n.node (each f n.kids) :=
  fun _ _ _ hc hd => ext_each hinc hf (h.chain hc) hd

theorem step_id (hinc : Increasing c) {n : Node} : Step c n fun st => st :=
  fun _ _ _ hc hd => Ext.refl (hinc.le (chain_le hc)) hd

theorem step_of_eq (hinc : Increasing c) {n : Node} {f : St → St} (h1 : ∀ st, (f st).top.kids = st.top.kids)
    (h2 : ∀ st, (f st).top.sym.range = st.top.sym.range) (h3 : ∀ st, (f st).top.sym.kind = st.top.sym.kind)
    (h4 : ∀ st, (f st).below = st.below) (h5 : ∀ st, (f st).vars = st.vars)
    (h6 : ∀ st, (f st).varsBelow = st.varsBelow) (h7 : ∀ st, (f st).crashed = st.crashed)
    (h8 : ∀ st, (f st).doc = st.doc) : Step c n f :=
  fun _ _ st hc hd => Ext.of_eq (hinc.le (chain_le hc)) (h1 st) (h2 st) (h3 st) (h4 st) (h5 st) (h6 st) (h7 st)
    (fun d hd' => (hd d (h8 st ▸ hd')).trans (hinc.le (chain_le hc)))

theorem step_ite {n : Node} {p : Prop} [Decidable p] {f g : St → St} (hf : p → Step c n f) (hg : ¬ p → Step c n g) :
    Step c n fun st => if p then f st else g st := by
  intro a b st hc hd
  by_cases h : p
  · simp only [h, if_true]; exact hf h a b st hc hd
  · simp only [h, if_false]; exact hg h a b st hc hd

/-- A symbol with the range of a node. -/
theorem step_add (hinc : Increasing c) {n : Node} (h : WF c n) (s : St → Sym) (hs : ∀ st, (s st).range = c.range n) :
    Step c n fun st => st.add (s st) := by
  intro a b st hc hd
  obtain ⟨i, j, hr, h1, h2, h3⟩ := range_spec h hc
  have hij := hinc.le (chain_le h3)
  refine Ext.add (hinc.le (chain_le hc)) hd ?_ (fun _ => ?_)
  · rw [hs, hr]; exact hij.trans (hinc.le h2)
  · rw [hs, hr]; exact ⟨hinc.le h1, hinc.le h2⟩

/-- A block with the range of a node. -/
theorem step_block (hinc : Increasing c) {n : Node} (h : WF c n) {f : St → St} (hf : Step c n f) (s : Sym)
    (hs : s.range = c.range n) : Step c n fun st => (f (st.pushBlock s)).popBlock := by
  intro a b st hc hd
  obtain ⟨i, j, hr, h1, h2, h3⟩ := range_spec h hc
  refine Ext.block (s := s) ?_ (by rw [hs, hr]; exact hinc.le h1) (by rw [hs, hr]; exact hinc.le h2)
  rw [hs, hr]
  refine hf i j _ h3 ?_
  exact fun d hd' => (hd d hd').trans (hinc.le h1)

/-- A variable that takes up space. -/
theorem range_extent (hinc : Increasing c) {n : Node} (h : WF c n) {a b : Nat} (hc : Chain a b (toks n))
    (hx : ∀ t ∈ toks n, 0 < t.length) :
    ∃ i j, c.range n = ⟨c.posAt i, c.posAt j⟩ ∧ a ≤ i ∧ j ≤ b ∧ Chain i j (toks n) ∧ i < j := by
  obtain ⟨i, j, h1, h2, h3, h4⟩ := range_spec h hc
  refine ⟨i, j, h1, h2, h3, h4, ?_⟩
  obtain ⟨h5, -, -⟩ := first_last n h
  cases ht : toks n with
  | nil => exact absurd ht h5
  | cons t ts =>
    rw [ht] at h4 hx
    have := hx t (by simp)
    have := chain_le h4.2
    have := h4.1
    omega

/-- Recording a variable and adding its symbol. -/
theorem step_variable (hinc : Increasing c) {n : Node} (h : WF c n) (hx : ∀ t ∈ toks n, 0 < t.length) (decl : Bool)
    (name : Bytes) (start : Pos) (s : Sym) (hs : s.range = c.range n) (hst : Le (c.range n).stop start) :
    Step c n fun st => (st.record name (c.range n) start decl).add s := by
  intro a b st hc hd
  obtain ⟨i, j, hr, h1, h2, h3, h4⟩ := range_extent hinc h hc hx
  have hi := hinc.le h1
  have hj := hinc.le h2
  have hij := hinc i j h4
  refine ⟨[.node s []], [⟨⟨name, c.range n, 0⟩, start, decl⟩], [], rfl, rfl, rfl, rfl, rfl, rfl, by simp [St.record, St.add, St.addTree],
    .inl ⟨rfl, rfl⟩, rfl, hd.mono (hinc.le (chain_le hc)), ?_, ⟨?_, ?_, by simp, by simpa using hst⟩, .nil _ _, .nil (hinc.le (chain_le hc))⟩
  · exact .leaf (by rw [hs, hr]; exact (Le.of_before hij).trans hj) (fun _ => by rw [hs, hr]; exact ⟨hi, hj⟩)
  · simp only [List.mem_singleton, forall_eq, hr]; exact before_le hij hj
  · simp only [List.mem_singleton, forall_eq, hr]; exact fun _ => hi

theorem variable_extent {n : Item} (h : Ready c n) (ht : n.type? = some .simpleVariable) : ∀ t ∈ toks n.node, 0 < t.length := by
  have hr := (h.regular ht).extent (.inl rfl)
  obtain ⟨ks, hk⟩ := type?_eq ht
  have h2 := h.nodes
  rw [hk] at h2 ⊢
  intro t htm
  exact hr t (by rw [← h2]; exact htm)

theorem step_newVariable (hinc : Increasing c) {n : Item} (h : Ready c n) (ht : n.type? = some .simpleVariable)
    (decl : Bool) : Step c n.node (newVariable c decl n.node) :=
  step_variable hinc h.wf (variable_extent h ht) decl _ _ _ rfl (Le.refl _)

/-- A symbol before others: it begins first. -/
theorem Ext.addFirst {lo hi : Pos} {st st' : St} {s : Sym} (h : Ext s.range.start hi (st.add s) st')
    (h1 : Le lo s.range.start) (h2 : Le s.range.stop hi) : Ext lo hi st st' := by
  obtain ⟨F, R, T, h⟩ := h
  have hle := h.scopesOK.le
  refine ⟨.node s [] :: F, R, T, ?_, h.range, h.kind, h.below, h.vrange, h.recs, h.scopes, h.around, h.crashed, h.doc, ?_,
    h.recsOK.mono h1 (Le.refl _), .nil _ _, h.scopesOK.mono h1 (Le.refl _)⟩
  · rw [h.kids]; simp [St.add, St.addTree]
  · have hf : flat (.node s [] :: F) = s :: flat F := by simp [flat, flatTree]
    refine ⟨?_, ?_, ?_, .cons .nil (by simp [flat]) h.symsOK.nested⟩
    · rw [hf]
      intro x hx
      rcases List.mem_cons.mp hx with rfl | hx
      · exact hle
      · exact h.symsOK.starts x hx
    · rw [hf]
      intro x hx ho
      rcases List.mem_cons.mp hx with rfl | hx
      · exact ⟨h1, h2⟩
      · exact ⟨h1.trans (h.symsOK.inside x hx ho).1, (h.symsOK.inside x hx ho).2⟩
    · rw [hf, List.pairwise_cons]
      exact ⟨fun t ht ho => (h.symsOK.inside t ht ho).1, h.symsOK.order⟩

/-- A variable and then a symbol that begins with it. -/
theorem Ext.variableThen {lo hi : Pos} {st : St} {name : Bytes} {r : Rng} {start : Pos} {decl : Bool} {s x : Sym}
    (hd : DocOK lo st) (hl : Le lo r.start) (hb : Before r.start r.stop) (hs : s.range = r) (hx : x.range.start = r.start)
    (h1 : Le r.stop hi) (h2 : Le x.range.stop hi) (hst : Le r.stop start) :
    Ext lo hi st (((st.record name r start decl).add s).add x) := by
  have hlh : Le lo hi := hl.trans ((Le.of_before hb).trans h1)
  have hrh : Le r.start hi := (Le.of_before hb).trans h1
  refine ⟨[.node s [], .node x []], [⟨⟨name, r, 0⟩, start, decl⟩], [], ?_, rfl, rfl, rfl, rfl, rfl,
    by simp [St.record, St.add, St.addTree], .inl ⟨rfl, rfl⟩, rfl, hd.mono hlh, ?_, ⟨?_, ?_, by simp, by simpa using hst⟩, .nil _ _, .nil hlh⟩
  · simp [St.record, St.add, St.addTree]
  · refine ⟨?_, ?_, ?_, .cons .nil (by simp [flat]) (.cons .nil (by simp [flat]) .nil)⟩
    · intro y hy
      simp only [flat, flatTree, List.append_nil, List.cons_append, List.nil_append, List.mem_cons, List.not_mem_nil, or_false] at hy
      rcases hy with rfl | rfl
      · rw [hs]; exact hrh
      · rw [hx]; exact hrh
    · intro y hy _
      simp only [flat, flatTree, List.append_nil, List.cons_append, List.nil_append, List.mem_cons, List.not_mem_nil, or_false] at hy
      rcases hy with rfl | rfl
      · rw [hs]; exact ⟨hl, h1⟩
      · rw [hx]; exact ⟨hl, h2⟩
    · simp [flat, flatTree, hs, hx, Le.refl]
  · simp only [List.mem_singleton, forall_eq]; exact before_le hb h1
  · simp only [List.mem_singleton, forall_eq]; exact fun _ => hl

/-! ### expressions -/

theorem step_newArgumentList (hinc : Increasing c) {n : Item} (h : Ready c n) : Step c n.node (newArgumentList c n) := by
  unfold newArgumentList
  refine step_block hinc h.wf (f := fun st => each Item.run (n.kids.filter Item.isPhr) st) ?_ _ rfl
  intro a b st hc hd
  exact ext_each hinc (fun k hk => (h.kids k (List.mem_filter.mp hk).1).run) (chain_items List.filter_sublist (h.chain hc)) hd

theorem ext_firstArguments (hinc : Increasing c) {ks : List Item} (h : ∀ k ∈ ks, Sound c k) {a b : Nat}
    (hc : Chain a b (itoks ks)) {st : St} (hd : DocOK (c.posAt a) st) :
    Ext (c.posAt a) (c.posAt b) st (firstArguments ks st) := by
  unfold firstArguments
  cases hf : ks.find? fun k => k.type? = some .argumentExpressionList with
  | none => exact Ext.refl (hinc.le (chain_le hc)) hd
  | some k =>
    have hm := List.mem_of_find?_eq_some hf
    exact (h k hm).run a b st (chain_item hm hc) hd

theorem Regular.cons {n : Item} (h : Ready c n) {ty : PType} (ht : n.type? = some ty) : ∃ k ks, n.kids = k :: ks := by
  have := (h.regular ht).full
  cases hk : n.kids with
  | nil => rw [hk] at this; simp at this
  | cons k ks => exact ⟨k, ks, rfl⟩

theorem step_newFunctionCall (hinc : Increasing c) {n : Item} (h : Ready c n) {ty : PType} (ht : n.type? = some ty) :
    Step c n.node fun st => (newFunctionCall c n st).1 := by
  intro a b st hc hd
  obtain ⟨k, ks, hk⟩ := Regular.cons h ht
  have hc' := h.chain hc
  have hkids := h.kids
  rw [hk] at hc' hkids
  have hks : Sound c k := hkids k (by simp)
  simp only [newFunctionCall, hk]
  have hcc := hc'
  rw [itoks_cons, chain_append] at hc'
  obtain ⟨m, h1, h2⟩ := hc'
  obtain ⟨i, j, hr, h3, h4, h5⟩ := range_spec hks.wf h1
  have hd' : DocOK (c.posAt i) (st.add (symOf c .functionCall k.node)) := fun d hd' => (hd d hd').trans (hinc.le h3)
  have hrs : (symOf c .functionCall k.node).range = ⟨c.posAt i, c.posAt j⟩ := hr
  refine Ext.addFirst (s := symOf c .functionCall k.node) ?_ (by rw [hrs]; exact hinc.le h3)
    (by rw [hrs]; exact (hinc.le h4).trans (hinc.le (chain_le h2)))
  rw [hrs]
  by_cases hv : k.type? = some .simpleVariable
  · simp only [hv, if_true]
    have h6 := hks.expr i j _ h5 hd'
    have hfa : firstArguments (k :: ks) = firstArguments ks := by
      funext st; unfold firstArguments; rw [List.find?_cons_of_neg]; simp [hv]
    rw [hfa]
    exact h6.trans (ext_firstArguments hinc (fun x hx => hkids x (by simp [hx])) (chain_mono h2 h4 (Nat.le_refl _)) h6.docOK)
  · simp only [hv, if_false]
    refine ext_firstArguments hinc hkids ?_ hd'
    rw [itoks_cons, chain_append]
    exact ⟨j, h5, chain_mono h2 h4 (Nat.le_refl _)⟩

/-- `newClassAccess` and the symbol. -/
theorem step_classAccess (hinc : Increasing c) {k : Item} (h : Sound c k) (s : Sym) (hs : s.range = c.range k.node) :
    Step c k.node fun st => (newClassAccess c k st).add s := by
  intro a b st hc hd
  obtain ⟨i, j, hr, h1, h2, h3⟩ := range_spec h.wf hc
  have hadd := step_add hinc h.wf (fun _ => s) (fun _ => hs) a b st hc hd
  unfold newClassAccess
  split
  · exact hadd
  · split
    · next ht =>
      have hv : (k.expr st).1 = newVariable c false k.node st := by rw [h.var ht]
      show Ext _ _ st ((k.expr st).1.add s)
      rw [hv]
      obtain ⟨i, j, hr, h1, h2, h3, h4⟩ := range_extent hinc h.wf hc (variable_extent h.ready ht)
      refine Ext.variableThen hd ?_ ?_ rfl (by rw [hs]) ?_ ?_ (Le.refl _)
      · rw [hr]; exact hinc.le h1
      · rw [hr]; exact hinc i j h4
      · rw [hr]; exact hinc.le h2
      · rw [hs, hr]; exact hinc.le h2
    · exact hadd

theorem ext_scopedClass (hinc : Increasing c) {k : Item} {ks : List Item} (h : Sound c k) {a b : Nat}
    (hc : Chain a b (toks k.node)) {st : St} (hd : DocOK (c.posAt a) st) :
    Ext (c.posAt a) (c.posAt b) st (scopedClass c (k :: ks) st) := by
  simp only [scopedClass]
  split
  · exact step_classAccess hinc h (symOf c .classAccess k.node) rfl a b st hc hd
  · exact Ext.refl (hinc.le (chain_le hc)) hd

theorem ext_scopedMember (hinc : Increasing c) {kind : Kind} {k k' m : Item} {ks : List Item} (hk : Sound c k)
    (hm : Sound c m) {a b x : Nat} (hc : Chain a x (toks k.node)) (hc' : Chain x b (toks m.node)) {st : St}
    (hd : DocOK (c.posAt a) st) :
    Ext (c.posAt a) (c.posAt b) st ((scopedClass c (k :: k' :: m :: ks) st).add (scopedMember c kind (k :: k' :: m :: ks))) := by
  have h1 := ext_scopedClass hinc (ks := k' :: m :: ks) hk hc hd
  exact h1.trans (step_add hinc hm.wf (fun _ => scopedMember c kind (k :: k' :: m :: ks)) (fun _ => rfl) x b _ hc' h1.docOK)

theorem three_kids {n : Item} (h : 3 ≤ (n.kids.map Item.node).length) : ∃ k k' m ks, n.kids = k :: k' :: m :: ks := by
  rw [List.length_map] at h
  match hk : n.kids with
  | [] => rw [hk] at h; simp at h
  | [_] => rw [hk] at h; simp at h
  | [_, _] => rw [hk] at h; simp at h
  | k :: k' :: m :: ks => exact ⟨k, k', m, ks, rfl⟩

theorem step_newScopedAccess (hinc : Increasing c) {n : Item} (h : Ready c n) {ty : PType} (ht : n.type? = some ty)
    (h3 : (ty = .scopedPropertyAccessExpression ∨ ty = .scopedCallExpression ∨ ty = .classConstantAccessExpression ∨
    ty = .errorScopedAccessExpression)) (kind : Kind) :
    Step c n.node fun st => (scopedClass c n.kids st).add (scopedMember c kind n.kids) := by
  intro a b st hc hd
  obtain ⟨k, k', m, ks, hk⟩ := three_kids ((h.regular ht).sides h3)
  have hc' := h.chain hc
  have hkids := h.kids
  rw [hk] at hc' hkids
  have hc2 : Chain a b (itoks [k, m]) := chain_items
    (List.Sublist.cons_cons _ (List.Sublist.cons _ (List.Sublist.cons_cons _ (List.nil_sublist _)))) hc'
  rw [itoks_cons, chain_append] at hc2
  obtain ⟨x, h1, h2⟩ := hc2
  have h2' : Chain x b (toks m.node) := by simpa [itoks, toksOf] using h2
  simp only [hk]
  exact ext_scopedMember hinc (hkids k (by simp)) (hkids m (by simp)) h1 h2' hd

theorem step_newScopedMethodAccess (hinc : Increasing c) {n : Item} (h : Ready c n)
    (ht : n.type? = some .scopedCallExpression) : Step c n.node fun st => (newScopedMethodAccess c n st).1 := by
  intro a b st hc hd
  obtain ⟨k, k', m, ks, hk⟩ := three_kids ((h.regular ht).sides (.inr (.inl rfl)))
  have hc' := h.chain hc
  have hkids := h.kids
  rw [hk] at hc' hkids
  rw [itoks_cons, chain_append] at hc'
  obtain ⟨x, h1, h2⟩ := hc'
  rw [itoks_cons, chain_append] at h2
  obtain ⟨y, h2, h3⟩ := h2
  rw [itoks_cons, chain_append] at h3
  obtain ⟨z, h3, h4⟩ := h3
  have h5 := ext_scopedMember hinc (kind := .scopedMethodAccess) (k' := k') (ks := ks) (hkids k (by simp))
    (hkids m (by simp)) h1 (chain_mono h3 (chain_le h2) (Nat.le_refl _)) hd
  simp only [newScopedMethodAccess, hk]
  exact h5.trans (ext_firstArguments hinc (fun x hx => hkids x (List.mem_cons_of_mem _ (List.mem_cons_of_mem _ (List.mem_cons_of_mem _ hx)))) h4 h5.docOK)

theorem ext_memberScope (hinc : Increasing c) {k : Item} {ks : List Item} (h : Sound c k) {a b : Nat}
    (hc : Chain a b (toks k.node)) {st : St} (hd : DocOK (c.posAt a) st) :
    Ext (c.posAt a) (c.posAt b) st (memberScope (k :: ks) st) := by
  simp only [memberScope]
  split
  · exact h.expr a b st hc hd
  · exact Ext.refl (hinc.le (chain_le hc)) hd

/-- The loop over spaces and arrows. -/
theorem skipArrow_spec {ks : List Item} {r : Rng} {a b a0 : Nat} (hc : Chain a b (itoks ks)) (h0 : a0 ≤ a)
    (hm : hasMember (ks.map Item.node) = true ∨ ∃ o, a0 ≤ o ∧ o ≤ a ∧ r = ⟨c.posAt o, c.posAt o⟩) :
    ∃ m, a ≤ m ∧ Chain m b (itoks (skipArrow c ks r).1) ∧ (skipArrow c ks r).1.Sublist ks ∧
      ((∃ o, a0 ≤ o ∧ o ≤ m ∧ (skipArrow c ks r).2 = ⟨c.posAt o, c.posAt o⟩) ∨
        ∃ x xs, (skipArrow c ks r).1 = x :: xs ∧ (x.type? = some .memberName ∨ ∃ t, x.tok? = some t ∧ t.type = .name)) := by
  induction ks generalizing r a with
  | nil =>
    refine ⟨a, Nat.le_refl _, hc, List.Sublist.refl _, .inl ?_⟩
    rcases hm with hm | hm
    · simp [hasMember] at hm
    · exact hm
  | cons k ks ih =>
    have hcc := hc
    rw [itoks_cons, chain_append] at hc
    obtain ⟨m, h1, h2⟩ := hc
    have ham := chain_le h1
    rw [skipArrow]
    cases htk : k.tok? with
    | none =>
      refine ⟨a, Nat.le_refl _, hcc, List.Sublist.refl _, ?_⟩
      rcases hm with hm | hm
      · right
        refine ⟨k, ks, rfl, .inl ?_⟩
        simp only [List.map_cons] at hm
        unfold Item.tok? at htk
        cases hn : k.node with
        | tok t => rw [hn] at htk; simp at htk
        | err t => rw [hn] at hm; simp [hasMember] at hm
        | phr ty nk => rw [hn] at hm; simp [hasMember] at hm; simp [Item.type?, hn, hm]
      · exact .inl hm
    | some t =>
      have hn := tok?_eq htk
      simp only
      split
      · next hw =>
        obtain ⟨m', h3, h4, h5, h6⟩ := ih (r := r) h2 (by omega) (by
          rcases hm with hm | ⟨o, h3, h4, h5⟩
          · left; simpa [hn, hasMember, hw] using hm
          · right; exact ⟨o, h3, by omega, h5⟩)
        exact ⟨m', by omega, h4, h5.cons _, h6⟩
      · next hw =>
        split
        · next ha =>
          rw [hn] at h1
          have h7 := h1.1
          have h9 : t.offset + t.length ≤ m := h1.2
          obtain ⟨m', h3, h4, h5, h6⟩ := ih (r := ⟨c.posAt (t.offset + t.length), c.posAt (t.offset + t.length)⟩) h2
            (by omega) (.inr ⟨t.offset + t.length, by omega, h9, rfl⟩)
          exact ⟨m', by omega, h4, h5.cons _, h6⟩
        · next ha =>
          refine ⟨a, Nat.le_refl _, hcc, List.Sublist.refl _, ?_⟩
          rcases hm with hm | hm
          · right
            refine ⟨k, ks, rfl, .inr ⟨t, htk, ?_⟩⟩
            simpa [hn, hasMember, hw, ha] using hm
          · exact .inl hm

theorem memberNameOf_var {ks : List Item} {name name' : Bytes} {v : Item} (h : memberNameOf c ks name = (name', some v)) :
    v ∈ ks ∧ v.type? = some .simpleVariable := by
  induction ks generalizing name with
  | nil => simp [memberNameOf] at h
  | cons k ks ih =>
    rw [memberNameOf] at h
    split at h
    · next ht => simp only [Prod.mk.injEq, Option.some.injEq] at h; rw [← h.2]; exact ⟨by simp, ht⟩
    · split at h
      · exact ⟨by simp [(ih h).1], (ih h).2⟩
      · exact ⟨by simp [(ih h).1], (ih h).2⟩

theorem memberName_first {n : Item} (h : Ready c n) (ht : n.type? = some .memberName) {v : Item} (hv : v ∈ n.kids)
    (hvt : v.type? = some .simpleVariable) : ∃ ks, n.kids = v :: ks := by
  obtain ⟨k, ks, hk⟩ := Regular.cons h ht
  have hr := (h.regular ht).memberName rfl
  rw [hk] at hv hr
  rcases List.mem_cons.mp hv with rfl | hv
  · exact ⟨ks, hk⟩
  · obtain ⟨vk, hvn⟩ := type?_eq hvt
    have := hr v.node (by simp only [List.map_cons, List.tail_cons]; exact List.mem_map_of_mem hv)
    simp [hvn, Node.isPhrase] at this

/-- `readMemberName` and the symbol of the access. -/
theorem ext_readMemberName (hinc : Increasing c) {ks : List Item} (hk : ∀ k ∈ ks, Sound c k)
    (hm : hasMember (ks.map Item.node) = true) (kind : Kind) {a b : Nat} (hc : Chain a b (itoks ks)) {st : St}
    (hd : DocOK (c.posAt a) st) :
    ∃ m, Chain m b (itoks (readMemberName c ks st).2.1) ∧ (readMemberName c ks st).2.1.Sublist ks ∧
      Ext (c.posAt a) (c.posAt m) st
        ((readMemberName c ks st).1.add ⟨kind, (readMemberName c ks st).2.2.2, (readMemberName c ks st).2.2.1, []⟩) := by
  obtain ⟨m, h1, h2, h3, h4⟩ := skipArrow_spec (c := c) (r := zeroRng) (a0 := a) hc (Nat.le_refl _) (.inl hm)
  have point : ∀ (r : Rng) (name : Bytes) (m' : Nat), m ≤ m' → (∃ o, a ≤ o ∧ o ≤ m ∧ r = ⟨c.posAt o, c.posAt o⟩) →
      Ext (c.posAt a) (c.posAt m') st (st.add ⟨kind, r, name, []⟩) := by
    rintro r name m' hmm ⟨o, h5, h6, rfl⟩
    exact Ext.add (hinc.le (by omega)) hd (hinc.le (by omega)) (fun _ => ⟨hinc.le h5, hinc.le (by omega)⟩)
  unfold readMemberName
  split
  · next r hs =>
    rw [hs] at h2 h3 h4
    refine ⟨m, h2, h3, ?_⟩
    rcases h4 with h4 | ⟨x, xs, h4, _⟩
    · exact point r [] m (Nat.le_refl _) h4
    · simp at h4
  · next x rest r hs =>
    rw [hs] at h2 h3 h4
    have hxm : x ∈ ks := h3.subset (by simp)
    have hx := hk x hxm
    rw [itoks_cons, chain_append] at h2
    obtain ⟨m', h5, h6⟩ := h2
    have hrest : rest.Sublist ks := (List.sublist_cons_self x rest).trans h3
    have hmm := chain_le h5
    have hd' : DocOK (c.posAt m) st := hd.mono (hinc.le h1)
    have hadd : ∀ name, Ext (c.posAt a) (c.posAt m') st (st.add ⟨kind, c.range x.node, name, []⟩) := fun name =>
      (step_add hinc hx.wf (fun _ => ⟨kind, c.range x.node, name, []⟩) (fun _ => rfl) m m' st h5 hd').mono (hinc.le h1)
        (Le.refl _)
    split
    · next ht =>
      split
      · next name v hv =>
        refine ⟨m', h6, hrest, ?_⟩
        obtain ⟨hvm, hvt⟩ := memberNameOf_var hv
        obtain ⟨vs, hvs⟩ := memberName_first hx.ready ht hvm hvt
        have hvS := hx.ready.kids v hvm
        have hvc := chain_item hvm (hx.ready.chain h5)
        obtain ⟨i, j, hr, h7, h8, h9, h10⟩ := range_extent hinc hvS.wf hvc (variable_extent hvS.ready hvt)
        obtain ⟨i', j', hr', h7', h8', h9'⟩ := range_spec hx.wf h5
        have hstart : (c.range x.node).start = (c.range v.node).start := by
          obtain ⟨f1, f2, f3⟩ := first_last v.node hvS.wf
          obtain ⟨g1, g2, g3⟩ := first_last x.node hx.wf
          obtain ⟨xk, hxn⟩ := type?_eq ht
          have hn := hx.ready.nodes
          rw [hvs] at hn
          have htk : toks x.node = toks v.node ++ toksOf (vs.map Item.node) := by
            rw [hxn] at hn ⊢
            have : xk = v.node :: vs.map Item.node := hn
            rw [this]; simp [toks, toksOf]
          have hfirst : firstToken x.node = firstToken v.node := by
            rw [g2, f2, htk, List.head?_append]
            cases hh : toks v.node with
            | nil => exact absurd hh f1
            | cons t ts => simp
          have hl1 : (lastToken x.node).isSome := by
            rw [g3]; cases hh : (toks x.node).getLast? with
            | none => exact absurd (List.getLast?_eq_none_iff.mp hh) g1
            | some t => rfl
          have hl2 : (lastToken v.node).isSome := by
            rw [f3]; cases hh : (toks v.node).getLast? with
            | none => exact absurd (List.getLast?_eq_none_iff.mp hh) f1
            | some t => rfl
          have hf1 : (firstToken v.node).isSome := by
            rw [f2]; cases hh : (toks v.node).head? with
            | none => exact absurd (List.head?_eq_none_iff.mp hh) f1
            | some t => rfl
          obtain ⟨t1, e1⟩ := Option.isSome_iff_exists.mp hl1
          obtain ⟨t2, e2⟩ := Option.isSome_iff_exists.mp hl2
          obtain ⟨t3, e3⟩ := Option.isSome_iff_exists.mp hf1
          simp only [Ctx.range, hfirst, e1, e2, e3]
        refine Ext.variableThen (r := c.range v.node) hd ?_ ?_ rfl hstart ?_ ?_ (Le.refl _)
        · rw [hr]; exact hinc.le (by omega)
        · rw [hr]; exact hinc i j h10
        · rw [hr]; exact hinc.le h8
        · simp only; rw [hr']; exact hinc.le h8'
      · exact ⟨m', h6, hrest, hadd _⟩
    · next ht =>
      split
      · next t htk =>
        split
        · exact ⟨m', h6, hrest, hadd _⟩
        · next hnn =>
          refine ⟨m', h6, hrest, ?_⟩
          rcases h4 with h4 | ⟨y, ys, h4, h7⟩
          · exact point r [] m' hmm h4
          · simp only [List.cons.injEq] at h4
            rw [← h4.1] at h7
            rcases h7 with h7 | ⟨t', h7, h8⟩
            · exact absurd h7 ht
            · rw [htk] at h7; cases h7; exact absurd h8 hnn
      · next htk =>
        refine ⟨m', h6, hrest, ?_⟩
        rcases h4 with h4 | ⟨y, ys, h4, h7⟩
        · exact point r [] m' hmm h4
        · simp only [List.cons.injEq] at h4
          rw [← h4.1] at h7
          rcases h7 with h7 | ⟨t', h7, h8⟩
          · exact absurd h7 ht
          · rw [htk] at h7; cases h7

theorem hasMember_drop {n : Item} {i : Nat} (h : hasMember ((n.kids.map Item.node).drop i) = true) :
    hasMember ((n.kids.drop i).map Item.node) = true := by rwa [List.map_drop]

theorem step_newPropertyAccess (hinc : Increasing c) {n : Item} (h : Ready c n)
    (ht : n.type? = some .propertyAccessExpression) :
    Step c n.node fun st =>
      ((newPropertyAccess c n st).1.add ⟨.propertyAccess, (readMemberName c (n.kids.drop 1) (memberScope n.kids st)).2.2.2,
        (readMemberName c (n.kids.drop 1) (memberScope n.kids st)).2.2.1, []⟩) := by
  intro a b st hc hd
  obtain ⟨k, ks, hk⟩ := Regular.cons h ht
  have hm := hasMember_drop ((h.regular ht).property rfl)
  have hc' := h.chain hc
  have hkids := h.kids
  simp only [newPropertyAccess]
  rw [hk] at hc' hkids hm ⊢
  rw [itoks_cons, chain_append] at hc'
  obtain ⟨m, h1, h2⟩ := hc'
  have h3 := ext_memberScope hinc (ks := ks) (hkids k (by simp)) h1 hd
  obtain ⟨m', h4, _, h5⟩ := ext_readMemberName hinc (ks := (k :: ks).drop 1) (fun x hx => hkids x (by simp at hx; simp [hx])) hm .propertyAccess h2 h3.docOK
  exact (h3.trans h5).mono (Le.refl _) (hinc.le (chain_le h4))

theorem step_newMethodAccess (hinc : Increasing c) {n : Item} (h : Ready c n)
    (ht : n.type? = some .methodCallExpression) : Step c n.node fun st => (newMethodAccess c n st).1 := by
  intro a b st hc hd
  obtain ⟨k, ks, hk⟩ := Regular.cons h ht
  have hm := hasMember_drop ((h.regular ht).method rfl)
  have hc' := h.chain hc
  have hkids := h.kids
  simp only [newMethodAccess]
  rw [hk] at hc' hkids hm ⊢
  rw [itoks_cons, chain_append] at hc'
  obtain ⟨m, h1, h2⟩ := hc'
  have h3 := ext_memberScope hinc (ks := ks) (hkids k (by simp)) h1 hd
  have hsub : ((k :: ks).drop 2).Sublist ks := by simpa using List.drop_sublist 1 ks
  obtain ⟨m', h4, h6, h5⟩ := ext_readMemberName hinc (ks := (k :: ks).drop 2)
    (fun x hx => hkids x (List.mem_cons_of_mem _ (hsub.subset hx))) hm .methodAccess (chain_items hsub h2) h3.docOK
  have h7 := h3.trans h5
  refine h7.trans (ext_each hinc ?_ h4 h7.docOK)
  intro x hx
  have hxS := hkids x (List.mem_cons_of_mem _ (hsub.subset (h6.subset hx)))
  exact step_ite (fun _ => step_newArgumentList hinc hxS.ready) (fun _ => step_id hinc)

end

end Verif.Analyser
