import Verif.Analyser.PropsSound

/-!
The names of declarations: the analysis gives a declaration the name that is written there, with the namespace in force.
-/

namespace Verif.Analyser
open Verif.Symbols (Tree Var Rec)

/-! ### nodes and places -/

mutual

theorem places_nodes {S : Type} (L : Levels S) (σ : S) : ∀ n, ∀ m ∈ placesIn L σ n, m.2 ∈ nodesIn n
  | .tok t, m, hm => by simp only [placesIn, List.mem_singleton] at hm; subst hm; simp [nodesIn]
  | .err t, m, hm => by simp only [placesIn, List.mem_singleton] at hm; subst hm; simp [nodesIn]
  | .phr ty ks, m, hm => by
    rw [placesIn] at hm
    rw [nodesIn]
    rcases List.mem_cons.mp hm with rfl | hm
    · simp
    · exact List.mem_cons_of_mem _ (places_nodesAll L _ ks m hm)

theorem places_nodesAll {S : Type} (L : Levels S) (σ : S) : ∀ ns, ∀ m ∈ placesInAll L σ ns, m.2 ∈ nodesInAll ns
  | [], m, hm => by simp [placesInAll] at hm
  | n :: ns, m, hm => by
    rw [placesInAll] at hm
    rw [nodesInAll]
    rcases List.mem_append.mp hm with hm | hm
    · exact List.mem_append_left _ (places_nodes L σ n m hm)
    · exact List.mem_append_right _ (places_nodesAll L σ ns m hm)

end

theorem nodesIn_kid {ks : List Node} {k m : Node} (hk : k ∈ ks) (hm : m ∈ nodesIn k) : m ∈ nodesInAll ks := by
  induction ks with
  | nil => simp at hk
  | cons k' ks ih =>
    rw [nodesInAll]
    rcases List.mem_cons.mp hk with rfl | hk
    · exact List.mem_append_left _ hm
    · exact List.mem_append_right _ (ih hk)

/-! ### the analysis of code without namespaces in it -/

theorem Titled.mono {c : Ctx} {P P' : Node → Prop} {W W' : Bytes → Prop} {s : Sym} (h : Titled c P W s) (hp : ∀ n, P n → P' n)
    (hw : ∀ ns, W ns → W' ns) : Titled c P' W' s := fun hk => by
  obtain ⟨n, h1, h2, h3, ns, h4, h5⟩ := h hk
  exact ⟨n, hp n h1, h2, h3, ns, hw ns h4, h5⟩

/-- The symbols that are new have the names written in the nodes of `P`. -/
structure Names (c : Ctx) (P : Node → Prop) (st st' : St) : Prop extends Grow True False st st' where
  fresh : ∀ s ∈ st'.syms, s ∈ st.syms ∨ Titled c P (· = st.ns) s

/-- The same while a block is open. -/
structure NamesIn (c : Ctx) (P : Node → Prop) (st st' : St) : Prop extends Within True False st st' where
  fresh : ∀ s ∈ st'.syms, s ∈ st.syms ∨ Titled c P (· = st.ns) s

section
variable {c : Ctx} {P : Node → Prop}

theorem fresh_trans {st st' st'' : St} (hns : st'.ns = st.ns) (h : ∀ s ∈ st'.syms, s ∈ st.syms ∨ Titled c P (· = st.ns) s)
    (h' : ∀ s ∈ st''.syms, s ∈ st'.syms ∨ Titled c P (· = st'.ns) s) : ∀ s ∈ st''.syms, s ∈ st.syms ∨ Titled c P (· = st.ns) s := by
  intro s hs
  rcases h' s hs with h1 | h1
  · exact h s h1
  · exact .inr (by rw [hns] at h1; exact h1)

theorem fresh_add {st : St} {s : Sym} (hs : Titled c P (· = st.ns) s) : ∀ x ∈ (st.add s).syms, x ∈ st.syms ∨ Titled c P (· = st.ns) x := by
  intro x hx
  have : x = s ∨ x ∈ st.syms := by
    unfold St.syms St.add St.addTree at *
    dsimp only at hx
    rw [flat_append] at hx
    simp only [flat, flatTree, List.mem_append, List.mem_cons, List.append_nil] at hx ⊢
    rcases hx with (hx | hx | hx) | hx
    · exact .inr (.inl hx)
    · exact .inl hx
    · simp at hx
    · exact .inr (.inr hx)
  rcases this with rfl | h
  · exact .inr hs
  · exact .inl h

theorem syms_pop {st : St} {x : Sym} (hx : x ∈ st.popBlock.syms) : x = st.top.sym ∨ x ∈ st.syms := by
  unfold St.popBlock at hx
  split at hx
  · exact .inr hx
  · next f fs e =>
    unfold St.syms at hx ⊢
    rw [e]
    dsimp only at hx
    rw [flat_append] at hx
    simp only [flat, flatTree, List.mem_append, List.mem_cons, List.flatMap_cons, List.append_nil] at hx ⊢
    tauto

theorem syms_popVars {st : St} : st.popVars.syms = st.syms ∧ st.popVars.top = st.top := by
  unfold St.popVars
  split <;> exact ⟨rfl, rfl⟩

theorem syms_pushBlock {st : St} {s x : Sym} (hx : x ∈ (st.pushBlock s).syms) : x ∈ st.syms := by
  simpa [St.syms, St.pushBlock, flat] using hx

/-- What a block becomes when it is closed. -/
theorem titled_top {st0 st st' : St} {s : Sym} (hw : Within True False st0 st') (h0 : st0.top.sym = s) (hns : st0.ns = st.ns)
    (ht : Titled c P (fun ns => ∃ st1, NamesIn c P st0 st1 ∧ st1.ns = ns) { s with name := st'.top.sym.name }) :
    Titled c P (· = st.ns) st'.top.sym := by
  intro hk
  have e1 := hw.kind
  have e2 := hw.range
  rw [h0] at e1 e2
  obtain ⟨n, h1, h2, h3, ns, ⟨st1, h4, h5⟩, h6⟩ := ht (by dsimp only; rw [← e1]; exact hk)
  refine ⟨n, h1, by rw [e1]; exact h2, by rw [e2]; exact h3, ns, ?_, h6⟩
  rw [← h5, h4.ns id, hns]

end

theorem closed_names (c : Ctx) (P : Node → Prop) :
    ClosedOn c Levels.one (fun _ => P) True False (fun _ => Names c P) (fun _ => NamesIn c P) where
  pre := ⟨fun st => ⟨.refl st, fun s hs => .inl hs⟩, fun h h' => ⟨h.toGrow.trans h'.toGrow, fresh_trans (h.ns id) h.fresh h'.fresh⟩⟩
  qpre := ⟨fun st => ⟨.refl st, fun s hs => .inl hs⟩, fun h h' => ⟨h.toWithin.trans h'.toWithin, fresh_trans (h.ns id) h.fresh h'.fresh⟩⟩
  lift h := ⟨h.toWithin, h.fresh⟩
  frame h := ⟨h.sym, h.kept⟩
  add st s _ ht _ := ⟨.add st s, fresh_add fun hk => by rw [ht] at hk; cases hk⟩
  const st s _ _ ht := ⟨.add st s, fresh_add ht⟩
  property s h _ _ _ ht := ⟨h.toGrow.trans (.add _ s), fresh_trans (h.ns id) h.fresh (fresh_add (by rw [h.ns id]; exact ht))⟩
  classConst s h _ _ _ ht := ⟨h.toGrow.trans (.add _ s), fresh_trans (h.ns id) h.fresh (fresh_add (by rw [h.ns id]; exact ht))⟩
  docMember _ σ st st' d m fqn h hd hm ho := ⟨h.toWithin.trans (Grow.add _ _).toWithin, fresh_trans (h.ns id) h.fresh (fresh_add (by
    obtain ⟨b, name⟩ := m
    intro hk
    unfold docMember at hk
    dsimp only at hk
    split at hk
    · cases hk
    · split at hk <;> cases hk))⟩
  record st name r p d _ := ⟨.record st name r p d, fun s hs => .inl hs⟩
  recordBelow st n p d _ _ := ⟨.recordBelow st _ _ p d, fun s hs => .inl (by
    unfold St.recordBelow at hs
    split at hs <;> exact hs)⟩
  block s _ _ _ h hk ht := ⟨h.toWithin.popBlock.1 hk, fun x hx => by
    rcases syms_pop hx with rfl | hx
    · exact .inr (titled_top h.toWithin rfl rfl ht)
    · exact (h.fresh x hx).imp syms_pushBlock id⟩
  classBlock hc σ st st' k name s _ _ _ h hk ht := ⟨(Within.trans (Within.pushClass trivial st k name s) h.toWithin).popBlock.1 hk, fun x hx => by
    rcases syms_pop hx with rfl | hx
    · exact .inr (titled_top h.toWithin rfl rfl ht)
    · exact (h.fresh x hx).imp syms_pushBlock id⟩
  scope n s _ _ _ _ _ h hk ht := ⟨h.toWithin.popScope.1 hk, fun x hx => by
    rcases syms_pop hx with rfl | hx
    · rw [syms_popVars.2]
      exact .inr (titled_top h.toWithin rfl rfl ht)
    · rw [syms_popVars.1] at hx
      exact (h.fresh x hx).imp syms_pushBlock id⟩
  method n s _ _ _ _ _ h hk ht := ⟨(h.toWithin.trans (.onTop _ _ rfl rfl)).popScope.1 hk, fun x hx => by
    rcases syms_pop hx with rfl | hx
    · rw [syms_popVars.2]
      exact .inr (titled_top (h.toWithin.trans (.onTop _ _ rfl rfl)) (by rfl) (by rfl) ht)
    · rw [syms_popVars.1] at hx
      exact (h.fresh x hx).imp syms_pushBlock id⟩
  onTop st f h := ⟨.onTop st f (h _).1 (h _).2.1, fun s hs => .inl hs⟩
  crash st := ⟨(closed_grow c True False).crash (σ := ()) st, fun s hs => .inl hs⟩
  doc st n hp ht hs hk := ⟨(closed_grow c True False).doc (σ := ()) st n trivial ht hs hk, fun s hs => .inl hs⟩
  ns h := h.elim
  nameClass _ _ st i name := ⟨.nameClass trivial st i name, fun s hs => .inl hs⟩

/-! ### the statements of a document -/

section
variable {c : Ctx}

/-- A node without a namespace in it. -/
theorem names_node {k : Node} (h : .namespaceDefinition ∉ typesIn k) : GoodOn Levels.one (fun _ n => n ∈ nodesIn k) True False
    (fun _ => Names c (· ∈ nodesIn k)) () (Item.of c k) :=
  (closed_names c (· ∈ nodesIn k)).good k () (fun m hm => places_nodes _ _ _ m hm) (fun _ _ _ => trivial) h

/-- A child of the definition of a namespace may give the name. -/
def nameStep (c : Ctx) (ns : Bytes) (k : Node) : Bytes := if k.isPhrase .namespaceName then c.nodeText k else ns

theorem nameStep_fold (ks : List Node) (ns : Bytes) :
    ks.foldl (nameStep c) ns = (((ks.filter fun k => k.isPhrase .namespaceName).getLast?).map c.nodeText).getD ns := by
  induction ks generalizing ns with
  | nil => rfl
  | cons k ks ih =>
    rw [List.foldl_cons, ih, List.filter_cons, nameStep]
    split
    · rw [ClosedOn.last_cons]
    · rfl

/-- The parts of the definition of a namespace. -/
theorem names_namespace {ks : List Node} (h : ∀ k ∈ ks, .namespaceDefinition ∉ typesIn k) (st : St) :
    (each (fun k st => match k.type? with
      | some .namespaceName => { st with ns := c.nodeText k.node }
      | some .statementList => scanForChildren k st
      | _ => st) (ks.map (Item.of c)) st).ns = ks.foldl (nameStep c) st.ns ∧
    ∀ s ∈ (each (fun k st => match k.type? with
      | some .namespaceName => { st with ns := c.nodeText k.node }
      | some .statementList => scanForChildren k st
      | _ => st) (ks.map (Item.of c)) st).syms, s ∈ st.syms ∨
      ∃ pre b post, ks = pre ++ b :: post ∧ b.isPhrase .statementList = true ∧
        Titled c (· ∈ nodesIn b) (· = pre.foldl (nameStep c) st.ns) s := by
  induction ks generalizing st with
  | nil => exact ⟨rfl, fun s hs => .inl hs⟩
  | cons k ks ih =>
    rw [List.map_cons]
    generalize hf : (fun (k : Item) (st : St) => match k.type? with
      | some .namespaceName => { st with ns := c.nodeText k.node }
      | some .statementList => scanForChildren k st
      | _ => st) = f at ih ⊢
    have hstep : (f (Item.of c k) st).ns = nameStep c st.ns k ∧ ∀ s ∈ (f (Item.of c k) st).syms, s ∈ st.syms ∨
        k.isPhrase .statementList = true ∧ Titled c (· ∈ nodesIn k) (· = st.ns) s := by
      rw [← hf]
      dsimp only
      split
      · next e =>
        rw [nameStep, if_pos ((type_iff c k _).mp e), of_node]
        exact ⟨rfl, fun s hs => .inl hs⟩
      · next e =>
        have hp := (type_iff c k _).mp e
        have hn := (closed_names c (· ∈ nodesIn k)).scanForChildren
          ((names_node (c := c) (h k (by simp))).children (ClosedOn.plain_of_type e)) st
        have : k.isPhrase .namespaceName = false := by
          cases k with
          | phr ty ms => simp only [Node.isPhrase, decide_eq_true_eq] at hp ⊢; subst hp; rfl
          | tok t => rfl
          | err t => rfl
        rw [nameStep, this]
        exact ⟨hn.ns id, fun s hs => (hn.fresh s hs).imp id fun h => ⟨hp, h⟩⟩
      · next e1 e2 =>
        rw [nameStep, if_neg (fun hp => e1 ((type_iff c k _).mpr hp))]
        exact ⟨rfl, fun s hs => .inl hs⟩
    obtain ⟨g1, g2⟩ := ih (fun k hk => h k (by simp [hk])) (f (Item.of c k) st)
    refine ⟨?_, fun s hs => ?_⟩
    · show (each f (ks.map (Item.of c)) (f (Item.of c k) st)).ns = _
      rw [g1, hstep.1]
      rfl
    · rcases g2 s hs with g | ⟨pre, b, post, e, hb, ht⟩
      · rcases hstep.2 s g with g | ⟨hb, g⟩
        · exact .inl g
        · exact .inr ⟨[], k, ks, rfl, hb, g⟩
      · rw [hstep.1] at ht
        exact .inr ⟨k :: pre, b, post, by rw [e]; rfl, hb, ht⟩

/-- Namespaces are defined at the outer level, with at most one name, which comes before the statements. -/
def Node.orderly : Node → Bool
  | .phr .namespaceDefinition ks =>
    !(typesInAll ks).contains .namespaceDefinition && (ks.filter fun k => k.isPhrase .namespaceName).length ≤ 1 &&
      (ks.dropWhile fun k => !k.isPhrase .statementList).all fun k => !k.isPhrase .namespaceName
  | k => !(typesIn k).contains .namespaceDefinition

theorem orderly_plain {k : Node} (h : k.orderly = true) (hk : k.isPhrase .namespaceDefinition = false) :
    .namespaceDefinition ∉ typesIn k := by
  unfold Node.orderly at h
  split at h
  · cases hk
  · simpa using h

/-- A statement of a document. -/
theorem names_statement {k : Node} (h : k.orderly = true) (st : St) : ((Item.of c k).run st).ns = nsAfter c st.ns k ∧
    ∀ s ∈ ((Item.of c k).run st).syms, s ∈ st.syms ∨ Titled c (· ∈ nodesIn k) (· = nsAfter c st.ns k) s := by
  cases hk : k.isPhrase .namespaceDefinition with
  | false =>
    have hn := (names_node (c := c) (orderly_plain h hk)).run st
    have e : nsAfter c st.ns k = st.ns := by
      unfold nsAfter
      split
      · cases hk
      · rfl
    rw [e]
    exact ⟨hn.ns id, hn.fresh⟩
  | true =>
    cases k with
    | tok t => cases hk
    | err t => cases hk
    | phr ty ks =>
      simp only [Node.isPhrase, decide_eq_true_eq] at hk
      subst hk
      simp only [Node.orderly, Bool.and_eq_true, Bool.not_eq_true', decide_eq_true_eq] at h
      obtain ⟨⟨h1, h2⟩, h3⟩ := h
      have hno : ∀ k ∈ ks, PType.namespaceDefinition ∉ typesIn k := fun k hk hm => by
        have := typesIn_kid hk hm
        simp [this] at h1
      have e1 : (Item.of c (.phr .namespaceDefinition ks)).run st =
          newNamespace c (Item.mk (.phr .namespaceDefinition ks) id (fun st => (st, false)) (Item.ofKids c ks)) st := by
        rw [Item.of]
        rfl
      have e2 : newNamespace c (Item.mk (.phr .namespaceDefinition ks) id (fun st => (st, false)) (Item.ofKids c ks)) st =
          newNamespace c (Item.mk (.phr .namespaceDefinition ks) id (fun st => (st, false)) (ks.map (Item.of c))) st := by
        rw [ofKids_eq]
      rw [e1, e2]
      obtain ⟨g1, g2⟩ := names_namespace (c := c) hno { st with ns := [] }
      have e3 : ∀ l : List Node, (l.filter fun k => k.isPhrase .namespaceName) = (ks.filter fun k => k.isPhrase .namespaceName) →
          l.foldl (nameStep c) [] = nsAfter c st.ns (.phr .namespaceDefinition ks) := by
        intro l hl
        rw [nameStep_fold, hl, nsAfter, ← List.head?_filter]
        generalize (ks.filter fun k => k.isPhrase .namespaceName) = m at h2
        cases m with
        | nil => rfl
        | cons x m =>
          cases m with
          | nil => rfl
          | cons y m => simp at h2
      refine ⟨g1.trans (e3 ks rfl), fun s hs => ?_⟩
      rcases g2 s hs with g | ⟨pre, b, post, e, hb, ht⟩
      · exact .inl g
      · refine .inr ?_
        rw [← e3 pre ?_]
        · exact ht.mono (fun n hn => by rw [nodesIn]; exact List.mem_cons_of_mem _ (nodesIn_kid (by rw [e]; simp) hn)) fun _ h => h
        · rw [e, List.filter_append]
          have hsub : ∀ x ∈ b :: post, x ∈ ks.dropWhile fun k => !k.isPhrase .statementList := by
            rw [e]
            clear h1 h2 h3 hno e1 e2 g1 g2 e3 hs e ht
            induction pre with
            | nil => intro x hx; rw [List.nil_append, List.dropWhile_cons, if_neg (by simp [hb])]; exact hx
            | cons y pre ih =>
              intro x hx
              rw [List.cons_append, List.dropWhile_cons]
              split
              · exact ih x hx
              · exact List.mem_cons_of_mem _ (List.mem_append_right _ hx)
          have : ((b :: post).filter fun k => k.isPhrase .namespaceName) = [] := by
            rw [List.filter_eq_nil_iff]
            intro x hx
            have := List.all_eq_true.mp h3 x (hsub x hx)
            simpa using this
          rw [this, List.append_nil]

/-- The statements of a document. -/
theorem names_statements {ks : List Node} (h : ∀ k ∈ ks, k.orderly = true) (st : St) :
    ∀ s ∈ (each Item.run (ks.map (Item.of c)) st).syms, s ∈ st.syms ∨ ∃ before k after, ks = before ++ k :: after ∧
      Titled c (· ∈ nodesIn k) (· = (before ++ [k]).foldl (nsAfter c) st.ns) s := by
  induction ks generalizing st with
  | nil => exact fun s hs => .inl hs
  | cons k ks ih =>
    intro s hs
    obtain ⟨g1, g2⟩ := names_statement (c := c) (h k (by simp)) st
    rcases ih (fun k hk => h k (by simp [hk])) ((Item.of c k).run st) s hs with g | ⟨before, k', after, e, ht⟩
    · rcases g2 s g with g | g
      · exact .inl g
      · exact .inr ⟨[], k, ks, rfl, g⟩
    · rw [g1] at ht
      exact .inr ⟨k :: before, k', after, by rw [e]; rfl, ht⟩

end

end Verif.Analyser
