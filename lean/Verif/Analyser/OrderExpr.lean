import Verif.Analyser.OrderSteps

/-! The analysis keeps the order of the text: object creation, parentheses, loops, assignments. -/

namespace Verif.Analyser
open Verif.Symbols (Tree Var Rec)
open Verif.Position (Before)

section
variable {c : Ctx}

theorem step_newClassTypeDesignator (hinc : Increasing c) {n : Item} (h : Ready c n) :
    Step c n.node fun st => (newClassTypeDesignator c n st).1 := by
  simp only [newClassTypeDesignator]
  refine step_each hinc h fun k hk => ?_
  have hkS := h.kids k hk
  split
  · intro a b st hc hd
    obtain ⟨i, j, hr, h1, h2, h3⟩ := range_spec hkS.wf hc
    refine Ext.addFirst (s := ⟨.designator, c.range k.node, [], []⟩) ?_ (by simp only; rw [hr]; exact hinc.le h1)
      (by simp only; rw [hr]; exact hinc.le h2)
    simp only
    rw [hr]
    have h4 : Step c k.node (designatorParts c k) := step_each hinc hkS.ready fun x hx =>
      step_ite (fun ht => step_newVariable hinc (hkS.ready.kids x hx).ready ht false) (fun _ => step_id hinc)
    refine (h4 i j _ h3 ?_).mono (Le.refl _) (hinc.le h2)
    exact fun d hd' => (hd d hd').trans (hinc.le h1)
  · exact step_newArgumentList hinc hkS.ready
  · exact step_block hinc hkS.wf hkS.run _ rfl
  · exact step_id hinc

theorem each_quiet {ks : List Item} (hk : ∀ k ∈ ks, Sound c k) (ha : ∀ k ∈ ks, k.node.active = false) (st : St) :
    each Item.run ks st = st := by
  induction ks generalizing st with
  | nil => rfl
  | cons k ks ih =>
    show each Item.run ks (k.run st) = st
    rw [(hk k (by simp)).quiet (ha k (by simp))]
    exact ih (fun x hx => hk x (by simp [hx])) (fun x hx => ha x (by simp [hx])) st

theorem each_append {f : Item → St → St} (xs ys : List Item) (st : St) :
    each f (xs ++ ys) st = each f ys (each f xs st) := by
  simp [each, List.foldl_append]

theorem active_phr {k : Item} {ty : PType} (h : k.type? = some ty) : k.node.active = true := by
  obtain ⟨ks, hk⟩ := type?_eq h
  simp [hk, Node.active]

theorem derivedLoop_quiet {ks : List Item} (ha : ∀ k ∈ ks, k.node.active = false) (later : List Item) (st : St) :
    derivedLoop ks later st = (st, later ++ ks) := by
  induction ks generalizing later with
  | nil => simp [derivedLoop]
  | cons k ks ih =>
    rw [derivedLoop]
    split
    · next ht =>
      have := active_phr ht
      rw [ha k (by simp)] at this
      simp at this
    · rw [ih (fun x hx => ha x (by simp [hx]))]; simp

theorem ext_derived (hinc : Increasing c) {ks : List Item} (hk : ∀ k ∈ ks, Sound c k)
    (h1 : ((ks.map Item.node).filter Node.active).length ≤ 1) {later : List Item} (hl : ∀ k ∈ later, Sound c k)
    (hla : ∀ k ∈ later, k.node.active = false) {a b : Nat} (hc : Chain a b (itoks ks)) {st : St}
    (hd : DocOK (c.posAt a) st) :
    Ext (c.posAt a) (c.posAt b) st (each Item.run (derivedLoop ks later st).2 (derivedLoop ks later st).1) := by
  induction ks generalizing later a st with
  | nil =>
    rw [derivedLoop]
    simp only
    rw [each_quiet hl hla]
    exact Ext.refl (hinc.le hc) hd
  | cons k ks ih =>
    rw [itoks_cons, chain_append] at hc
    obtain ⟨m, hc1, hc2⟩ := hc
    have hm := hinc.le (chain_le hc2)
    have hkS := hk k (by simp)
    have hksS : ∀ x ∈ ks, Sound c x := fun x hx => hk x (by simp [hx])
    by_cases hact : k.node.active = true
    · have hq : ∀ x ∈ ks, x.node.active = false := by
        simp only [List.map_cons, List.filter_cons, hact, if_true, List.length_cons] at h1
        have h0 : ((ks.map Item.node).filter Node.active).length = 0 := by omega
        rw [List.length_eq_zero_iff, List.filter_eq_nil_iff] at h0
        intro x hx
        simpa using h0 x.node (List.mem_map_of_mem hx)
      rw [derivedLoop]
      split
      · next ty ht =>
        cases hty : isExprType ty with
        | true =>
          simp only [if_true]
          have hx := hkS.expr a m st hc1 hd
          split
          · simp only
            rw [each_quiet hl hla]
            exact hx.mono (Le.refl _) hm
          · rw [derivedLoop_quiet hq]
            simp only
            rw [each_append, each_quiet hl hla, each_quiet hksS hq]
            exact hx.mono (Le.refl _) hm
        | false =>
          rw [hkS.plain ty ht hty]
          simp only [Bool.false_eq_true, if_false]
          rw [derivedLoop_quiet hq]
          simp only
          rw [each_append, each_append, each_quiet hl hla, each_quiet hksS hq]
          exact (hkS.run a m st hc1 hd).mono (Le.refl _) hm
      · rw [derivedLoop_quiet hq]
        simp only
        rw [each_append, each_append, each_quiet hl hla, each_quiet hksS hq]
        exact (hkS.run a m st hc1 hd).mono (Le.refl _) hm
    · have hact' : k.node.active = false := by simpa using hact
      rw [derivedLoop]
      split
      · next ty ht => rw [active_phr ht] at hact'; simp at hact'
      · refine (ih hksS ?_ ?_ ?_ hc2 (hd.mono (hinc.le (chain_le hc1)))).mono (hinc.le (chain_le hc1)) (Le.refl _)
        · simpa [List.filter_cons, hact] using h1
        · intro x hx
          rcases List.mem_append.mp hx with hx | hx
          · exact hl x hx
          · simp only [List.mem_singleton] at hx; rw [hx]; exact hkS
        · intro x hx
          rcases List.mem_append.mp hx with hx | hx
          · exact hla x hx
          · simp only [List.mem_singleton] at hx; rw [hx]; exact hact'

theorem step_newDerivedExpression (hinc : Increasing c) {n : Item} (h : Ready c n) {ty : PType} (ht : n.type? = some ty)
    (hty : ty = .encapsulatedExpression ∨ ty = .cloneExpression) :
    Step c n.node fun st => (newDerivedExpression c n st).1 := by
  unfold newDerivedExpression
  refine step_block hinc h.wf (f := fun st => each Item.run (derivedLoop n.kids [] st).2 (derivedLoop n.kids [] st).1) ?_ _ rfl
  intro a b st hc hd
  exact ext_derived hinc h.kids ((h.regular ht).operand hty) (by simp) (by simp) (h.chain hc) hd

theorem step_scanForChildren (hinc : Increasing c) {n : Item} (h : Ready c n) : Step c n.node (scanForChildren n) :=
  step_each hinc h fun k hk => (h.kids k hk).run

theorem step_analyseForeach (hinc : Increasing c) {n : Item} (h : Ready c n) :
    Step c n.node fun st => (analyseForeach c n st).1 := by
  simp only [analyseForeach]
  refine step_each hinc h fun k hk => ?_
  have hkS := h.kids k hk
  split
  · exact step_each hinc hkS.ready fun x hx =>
      step_ite (fun _ => (hkS.ready.kids x hx).expr) (fun _ => step_id hinc)
  · exact step_each hinc hkS.ready fun x hx =>
      step_ite (fun ht => step_newVariable hinc (hkS.ready.kids x hx).ready ht true) (fun _ => step_id hinc)
  · exact step_scanForChildren hinc hkS.ready
  · exact step_scanForChildren hinc hkS.ready
  · exact step_id hinc

theorem skipTok_sublist (ty : TokType) (ks : List Item) : (skipTok ty ks).Sublist ks := by
  induction ks with
  | nil => exact List.Sublist.refl _
  | cons k ks ih =>
    rw [skipTok]
    split
    · exact ih.cons _
    · exact List.Sublist.refl _

/-- A variable's symbol, then its value, then its recording. -/
theorem Ext.assign {lo m hi : Pos} {st st' : St} {s : Sym} {name : Bytes} {start : Pos} {r : Rng}
    (h : Ext m hi (st.add s) st') (hs : s.range = r) (h1 : Le lo r.start) (hb : Before r.start r.stop) (h2 : Le r.stop m)
    (hst : Le r.stop start) : Ext lo hi st (st'.record name r start true) := by
  have hrm : Before r.start m := before_le hb h2
  have h3 : Ext s.range.start hi (st.add s) st' := by
    rw [hs]; exact h.mono (Le.of_before hrm) (Le.refl _)
  have h4 := Ext.addFirst h3 (by rw [hs]; exact h1) (by rw [hs]; exact h2.trans h.le)
  obtain ⟨F, R, T, h4⟩ := h4
  refine ⟨F, R ++ [⟨⟨name, r, 0⟩, start, true⟩], T, h4.kids, h4.range, h4.kind, h4.below, h4.vrange, ?_, h4.scopes, h4.around, h4.crashed,
    h4.doc, h4.symsOK, ?_, .nil _ _, h4.scopesOK⟩
  · show st'.vars.recs ++ _ = _
    rw [h4.recs, List.append_assoc]
  · refine h4.recsOK.declare ?_ (by simpa using hst)
    intro x hx
    simp only [List.mem_singleton] at hx
    subst hx
    exact ⟨rfl, before_le hrm h.le⟩

theorem ext_variableAssignment (hinc : Increasing c) {n lhs : Item} {ks : List Item} (hlhs : Sound c lhs)
    (hks : ∀ k ∈ ks, Sound c k) (ht : lhs.type? = some .simpleVariable) {a b : Nat} (hc : Chain a b (itoks (lhs :: ks)))
    (hn : Le (c.range lhs.node).stop (c.range n.node).stop) {st : St} (hd : DocOK (c.posAt a) st) :
    Ext (c.posAt a) (c.posAt b) st (analyseVariableAssignment c n lhs ks st) := by
  rw [itoks_cons, chain_append] at hc
  obtain ⟨m, h1, h2⟩ := hc
  obtain ⟨i, j, hr, h3, h4, h5, h6⟩ := range_extent hinc hlhs.wf h1 (variable_extent hlhs.ready ht)
  have hdm : DocOK (c.posAt m) (st.add (symOf c .variable lhs.node)) :=
    fun d hd' => (hd d hd').trans (hinc.le (chain_le h1))
  have hmb := hinc.le (chain_le h2)
  have hlo : Le (c.posAt a) (c.range lhs.node).start := by rw [hr]; exact hinc.le h3
  have hbe : Before (c.range lhs.node).start (c.range lhs.node).stop := by rw [hr]; exact hinc i j h6
  have hst : Le (c.range lhs.node).stop (c.posAt m) := by rw [hr]; exact hinc.le h4
  -- the declaration comes last
  have last : ∀ st' start, Le (c.range lhs.node).stop start → Ext (c.posAt m) (c.posAt b) (st.add (symOf c .variable lhs.node)) st' →
      Ext (c.posAt a) (c.posAt b) st (st'.record (c.nodeText lhs.node) (c.range lhs.node) start true) :=
    fun st' start hs h => Ext.assign h rfl hlo hbe hst hs
  -- the declaration comes before the value
  have first : ∀ start, Le (c.range lhs.node).stop start → Ext (c.posAt a) (c.posAt m) st
      ((st.add (symOf c .variable lhs.node)).record (c.nodeText lhs.node) (c.range lhs.node) start true) :=
    fun start hs => Ext.assign (Ext.refl (Le.refl _) hdm) rfl hlo hbe hst hs
  unfold analyseVariableAssignment
  have hsub : ∀ xs : List Item, xs.Sublist ks → ∀ (start : Pos) (n' : Item), Le (c.range lhs.node).stop start →
      Ext (c.posAt a) (c.posAt b) st
        (match xs with
          | [] => (st.add (symOf c .variable lhs.node)).record (c.nodeText lhs.node) (c.range lhs.node) start true
          | rhs :: _ =>
            match rhs.type? with
            | none => rhs.run ((st.add (symOf c .variable lhs.node)).record (c.nodeText lhs.node) (c.range lhs.node) start true)
            | some ty =>
              if (rhs.expr (st.add (symOf c .variable lhs.node))).2 then
                (rhs.expr (st.add (symOf c .variable lhs.node))).1.record (c.nodeText lhs.node) (c.range lhs.node) start true
              else if isExprType ty then
                (rhs.expr (st.add (symOf c .variable lhs.node))).1.record (c.nodeText lhs.node) (c.range lhs.node) start true
              else rhs.run ((rhs.expr (st.add (symOf c .variable lhs.node))).1.record (c.nodeText lhs.node) (c.range lhs.node) start true)) := by
    intro xs hxs start _ hs
    cases xs with
    | nil => exact (first start hs).mono (Le.refl _) hmb
    | cons rhs xs =>
      have hrm : rhs ∈ ks := hxs.subset (by simp)
      have hrS := hks rhs hrm
      have hrc := chain_item hrm h2
      have hf := first start hs
      simp only
      split
      · exact hf.trans (hrS.run m b _ hrc hf.docOK)
      · next ty hty =>
        split
        · exact last _ start hs (hrS.expr m b _ hrc hdm)
        · split
          · exact last _ start hs (hrS.expr m b _ hrc hdm)
          · next hne =>
            rw [hrS.plain ty hty (by simpa using hne)]
            exact hf.trans (hrS.run m b _ hrc hf.docOK)
  exact hsub _ (by
    split
    · exact (skipTok_sublist _ _).trans ((skipTok_sublist _ _).trans ((skipTok_sublist _ _).trans ((skipTok_sublist _ _).trans ((skipTok_sublist _ _).trans (List.drop_sublist _ _)))))
    · exact (skipTok_sublist _ _).trans ((skipTok_sublist _ _).trans ((skipTok_sublist _ _).trans (List.drop_sublist _ _)))) _ n hn

theorem ext_propertyAssignment (hinc : Increasing c) {lhs : Item} {ks : List Item} (hlhs : Sound c lhs)
    (hks : ∀ k ∈ ks, Sound c k) (hv : ∀ k ∈ ks, k.node.noValue = false) {a b : Nat}
    (hc : Chain a b (itoks (lhs :: ks))) {st : St} (hd : DocOK (c.posAt a) st) :
    Ext (c.posAt a) (c.posAt b) st (processPropertyAssignment lhs ks st) := by
  rw [itoks_cons, chain_append] at hc
  obtain ⟨m, h1, h2⟩ := hc
  have h3 := hlhs.expr a m st h1 hd
  simp only [processPropertyAssignment]
  have hsub := (skipTok_sublist .whitespace (skipTok .equals (skipTok .whitespace ks))).trans
    ((skipTok_sublist _ _).trans (skipTok_sublist _ _))
  split
  · exact h3.mono (Le.refl _) (hinc.le (chain_le h2))
  · next rhs xs hx =>
    rw [hx] at hsub
    have hrm : rhs ∈ ks := hsub.subset (by simp)
    have hrS := hks rhs hrm
    have hrc := chain_item hrm h2
    refine h3.trans ?_
    split
    · next hp =>
      split
      · exact hrS.expr m b _ hrc h3.docOK
      · next hne =>
        obtain ⟨ty, hty⟩ := Option.isSome_iff_exists.mp hp
        cases hex : isExprType ty with
        | true => exact absurd (hrS.value ty hty hex (hv rhs hrm) _) hne
        | false =>
          rw [hrS.plain ty hty hex]
          exact hrS.run m b _ hrc h3.docOK
    · exact hrS.run m b _ hrc h3.docOK

theorem step_newAssignment (hinc : Increasing c) {n : Item} (h : Ready c n) {ty : PType} (ht : n.type? = some ty)
    (hty : ty = .simpleAssignmentExpression ∨ ty = .byRefAssignmentExpression ∨ ty = .compoundAssignmentExpression) :
    Step c n.node fun st => (newAssignment c n st).1 := by
  intro a b st hc hd
  obtain ⟨k, ks, hk⟩ := Regular.cons h ht
  have hc' := h.chain hc
  have hkids := h.kids
  have hreg := (h.regular ht).assigned hty
  simp only [newAssignment]
  rw [hk] at hc' hkids hreg ⊢
  have hkS := hkids k (by simp)
  have hksS : ∀ x ∈ ks, Sound c x := fun x hx => hkids x (by simp [hx])
  simp only
  split
  · next hv =>
    refine ext_variableAssignment hinc hkS hksS hv hc' ?_ hd
    obtain ⟨i, j, hr, -, -, hch⟩ := range_spec h.wf hc
    have hch' := h.chain hch
    rw [hk, itoks_cons, chain_append] at hch'
    obtain ⟨m, h1, h2⟩ := hch'
    obtain ⟨i', j', hr', -, hj, -⟩ := range_spec hkS.wf h1
    rw [hr, hr']
    exact hinc.le (Nat.le_trans hj (chain_le h2))
  · split
    · next hp =>
      refine ext_propertyAssignment hinc hkS hksS ?_ hc' hd
      intro x hx
      refine hreg ?_ x.node ?_
      · obtain ⟨pk, hpn⟩ := type?_eq hp.1
        exact ⟨k.node, by simp, by simp [hpn, Node.isPhrase]⟩
      · simp only [List.map_cons, List.tail_cons]; exact List.mem_map_of_mem hx
    · simp only
      rw [itoks_cons, chain_append] at hc'
      obtain ⟨m, h1, h2⟩ := hc'
      have h3 : Ext (c.posAt a) (c.posAt m) st (if k.isPhr = true then k.run st else st) := by
        split
        · exact hkS.run a m st h1 hd
        · exact Ext.refl (hinc.le (chain_le h1)) hd
      exact h3.trans (ext_each hinc (fun x hx => (hksS x hx).run) h2 h3.docOK)

theorem name_type {n : Item} (h : n.node.isName = true) :
    n.type? = some .qualifiedName ∨ n.type? = some .fullyQualifiedName := by
  unfold Item.type?
  cases hn : n.node with
  | tok t => rw [hn] at h; simp [Node.isName] at h
  | err t => rw [hn] at h; simp [Node.isName] at h
  | phr ty ks =>
    rw [hn] at h
    cases ty <;> simp [Node.isName] at h ⊢

theorem newClassAccess_name {k : Item} (h : k.node.isName = true) (st : St) : newClassAccess c k st = st := by
  unfold newClassAccess
  split
  · rfl
  · rcases name_type h with h | h <;> simp [h]

theorem step_processInstanceOf (hinc : Increasing c) {n : Item} (h : Ready c n) :
    Step c n.node fun st => (processInstanceOf n st).1 := by
  intro a b st hc hd
  have hc' := h.chain hc
  have hkids := h.kids
  simp only [processInstanceOf]
  have hrefl := Ext.refl (hinc.le (chain_le hc)) hd
  split
  · exact hrefl
  · next lhs ks hk =>
    rw [hk] at hc' hkids
    have hsub := (skipTok_sublist .whitespace (skipTok .instanceOf (skipTok .whitespace ks))).trans
      ((skipTok_sublist _ _).trans (skipTok_sublist _ _))
    split
    · exact hrefl
    · next rhs xs hx =>
      rw [hx] at hsub
      have hrm : rhs ∈ ks := hsub.subset (by simp)
      rw [itoks_cons, chain_append] at hc'
      obtain ⟨m, h1, h2⟩ := hc'
      split
      · have h3 := (hkids lhs (by simp)).expr a m st h1 hd
        exact h3.trans ((hkids rhs (by simp [hrm])).expr m b _ (chain_item hrm h2) h3.docOK)
      · exact hrefl

theorem newAssignment_nil (n : Item) (st : St) : (newAssignment c n st).2 = .nil := by
  unfold newAssignment
  split
  · rfl
  · split
    · rfl
    · split <;> rfl

theorem processInstanceOf_nil (n : Item) (st : St) : (processInstanceOf n st).2 = .nil := by
  unfold processInstanceOf
  split
  · rfl
  · split
    · rfl
    · split <;> rfl

theorem newFunctionCall_old (n : Item) (st : St) : (newFunctionCall c n st).2 = .old := by
  unfold newFunctionCall
  split <;> rfl

theorem scan_nil {n : Item} {st : St} (h : (construct c n st).2 = .nil) :
    scanForExpression c n st = ((construct c n st).1, false) := by
  unfold scanForExpression
  rcases hc : construct c n st with ⟨x, r⟩
  rw [hc] at h
  simp only at h
  subst h
  rfl

theorem scan_old {n : Item} {st : St} (h : (construct c n st).2 = .old) :
    scanForExpression c n st = ((construct c n st).1, true) := by
  unfold scanForExpression
  rcases hc : construct c n st with ⟨x, r⟩
  rw [hc] at h
  simp only at h
  subst h
  rfl

/-- `scanForExpression`. -/
theorem step_scanForExpression (hinc : Increasing c) {n : Item} (h : Ready c n) :
    Step c n.node fun st => (scanForExpression c n st).1 := by
  have fin : ∀ (ty : PType), n.type? = some ty → Step c n.node fun st => (scanForExpression c n st).1 := by
    intro ty ht
    have hid : Step c n.node fun st => st := step_id hinc
    have assign : (ty = .simpleAssignmentExpression ∨ ty = .byRefAssignmentExpression ∨ ty = .compoundAssignmentExpression) →
        Step c n.node fun st => (scanForExpression c n st).1 := by
      intro hty a b st hc hd
      have he : construct c n st = newAssignment c n st := by
        rcases hty with rfl | rfl | rfl <;> simp [construct, ht]
      show Ext _ _ st (scanForExpression c n st).1
      rw [scan_nil (by rw [he]; exact newAssignment_nil n st), he]
      exact step_newAssignment hinc h ht hty a b st hc hd
    cases ty
    case functionCallExpression =>
      intro a b st hc hd
      have he : construct c n st = newFunctionCall c n st := by simp [construct, ht]
      show Ext _ _ st (scanForExpression c n st).1
      rw [scan_old (by rw [he]; exact newFunctionCall_old n st), he]
      exact step_newFunctionCall hinc h ht a b st hc hd
    case simpleAssignmentExpression => exact assign (.inl rfl)
    case byRefAssignmentExpression => exact assign (.inr (.inl rfl))
    case compoundAssignmentExpression => exact assign (.inr (.inr rfl))
    case instanceOfExpression =>
      intro a b st hc hd
      have he : construct c n st = processInstanceOf n st := by simp [construct, ht]
      show Ext _ _ st (scanForExpression c n st).1
      rw [scan_nil (by rw [he]; exact processInstanceOf_nil n st), he]
      exact step_processInstanceOf hinc h a b st hc hd
    case instanceofTypeDesignator =>
      intro a b st hc hd
      have hc' := h.chain hc
      simp only [scanForExpression, construct, ht, newInstanceOfTypeDesignator]
      cases hf : n.kids.find? fun k => k.node.isName with
      | none => exact hid a b st hc hd
      | some k =>
        have hm := List.mem_of_find?_eq_some hf
        exact step_classAccess hinc (h.kids k hm) _ rfl a b st (chain_item hm hc') hd
    all_goals
      intro a b st hc hd
      simp only [scanForExpression, construct, ht]
    case constantAccessExpression =>
      exact step_add hinc h.wf (fun _ => symOf c .constantAccess n.node) (fun _ => rfl) a b st hc hd
    case scopedPropertyAccessExpression =>
      exact step_newScopedAccess hinc h ht (.inl rfl) _ a b st hc hd
    case scopedCallExpression =>
      exact step_newScopedMethodAccess hinc h ht a b st hc hd
    case classConstantAccessExpression =>
      exact step_newScopedAccess hinc h ht (.inr (.inr (.inl rfl))) _ a b st hc hd
    case errorScopedAccessExpression =>
      exact step_newScopedAccess hinc h ht (.inr (.inr (.inr rfl))) _ a b st hc hd
    case objectCreationExpression => exact step_newClassTypeDesignator hinc h a b st hc hd
    case simpleVariable => exact step_newVariable hinc h ht false a b st hc hd
    case propertyAccessExpression => exact step_newPropertyAccess hinc h ht a b st hc hd
    case methodCallExpression => exact step_newMethodAccess hinc h ht a b st hc hd
    case foreachStatement => exact step_analyseForeach hinc h a b st hc hd
    case encapsulatedExpression => exact step_newDerivedExpression hinc h ht (.inl rfl) a b st hc hd
    case cloneExpression => exact step_newDerivedExpression hinc h ht (.inr rfl) a b st hc hd
    all_goals exact hid a b st hc hd
  cases ht : n.type? with
  | some ty => exact fin ty ht
  | none =>
    intro a b st hc hd
    simp only [scanForExpression, construct, ht]
    exact step_id hinc a b st hc hd

/-- What `scanForExpression` says about phrases that are not expressions. -/
theorem scan_plain {n : Item} {ty : PType} (ht : n.type? = some ty) (hty : isExprType ty = false) (st : St) :
    scanForExpression c n st = (st, false) := by
  cases ty <;> simp [isExprType] at hty <;> simp [scanForExpression, construct, ht]

/-- It returns an expression for the others but assignments, `instanceof` and `foreach`. -/
theorem scan_value {n : Item} {ty : PType} (ht : n.type? = some ty) (hty : isExprType ty = true)
    (hv : n.node.noValue = false) (st : St) : (scanForExpression c n st).2 = true := by
  obtain ⟨ks, hk⟩ := type?_eq ht
  rw [hk] at hv
  cases ty <;> simp [isExprType] at hty <;> simp [Node.noValue] at hv
  case functionCallExpression =>
    rw [scan_old]
    rw [show construct c n st = newFunctionCall c n st by simp [construct, ht]]
    exact newFunctionCall_old n st
  all_goals
    simp only [scanForExpression, construct, ht, newScopedAccess, newScopedMethodAccess, newClassTypeDesignator,
      newVariableExpression, newPropertyAccess, newMethodAccess, newDerivedExpression]

theorem scan_var {n : Item} (ht : n.type? = some .simpleVariable) (st : St) :
    scanForExpression c n st = (newVariable c false n.node st, true) := by
  simp only [scanForExpression, construct, ht]
  rfl

end

end Verif.Analyser
