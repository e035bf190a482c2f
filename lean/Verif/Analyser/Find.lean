import Verif.Analyser.FindSpec
import Verif.Analyser.Grow
import Verif.Analyser.Order

/-!
The analysis finds what there is to find: the parts of the state that count, and expressions.
-/

namespace Verif.Analyser
open Verif.Symbols (Tree Var Rec)

variable {u : Bool}

/-! ### what the state has -/

/-- The symbols so far. -/
def St.syms (st : St) : List Sym := flat st.top.kids ++ st.below.flatMap fun f => flat f.kids

/-- The scopes of an open scope. -/
def Scope.all (v : Scope) : List (Rng × List Rec) := (v.range, v.recs) :: scopeList v.kids

/-- The scopes so far. -/
def St.scopes (st : St) : List (Rng × List Rec) := st.vars.all ++ st.varsBelow.flatMap Scope.all

/-- The fact has been found. -/
def St.Has (st : St) (x : Fact) : Prop := Found st.syms st.scopes x

theorem scopeList_append (F G : List (Tree (Rng × List Rec))) : scopeList (F ++ G) = scopeList F ++ scopeList G := by
  induction F with
  | nil => simp [scopeList]
  | cons t ts ih => rw [List.cons_append, scopeList, scopeList, ih, List.append_assoc]

/-- Every scope is still there and has all it had. -/
def ScopesKept (a b : List (Rng × List Rec)) : Prop := ∀ p ∈ a, ∃ q ∈ b, q.1 = p.1 ∧ ∀ x ∈ p.2, x ∈ q.2

theorem ScopesKept.of_subset {a b : List (Rng × List Rec)} (h : ∀ p ∈ a, p ∈ b) : ScopesKept a b :=
  fun p hp => ⟨p, h p hp, rfl, fun _ hx => hx⟩

theorem ScopesKept.append {a a' b b' : List (Rng × List Rec)} (h : ScopesKept a b) (h' : ScopesKept a' b') :
    ScopesKept (a ++ a') (b ++ b') := by
  intro p hp
  rcases List.mem_append.mp hp with hp | hp
  · obtain ⟨q, hq, h⟩ := h p hp
    exact ⟨q, List.mem_append_left _ hq, h⟩
  · obtain ⟨q, hq, h⟩ := h' p hp
    exact ⟨q, List.mem_append_right _ hq, h⟩

theorem Found.mono {S S' : List Sym} {V V' : List (Rng × List Rec)} (hs : ∀ s ∈ S, s ∈ S') (hv : ScopesKept V V')
    {x : Fact} (h : Found S V x) : Found S' V' x := by
  cases x with
  | var r name range =>
    obtain ⟨recs, h1, y, h2, h3⟩ := h
    obtain ⟨⟨r', recs'⟩, h4, h5, h6⟩ := hv _ h1
    cases h5
    exact ⟨recs', h4, y, h6 y h2, h3⟩
  | sym s => exact hs s h
  | member k r name =>
    obtain ⟨s, h1, h2⟩ := h
    exact ⟨s, hs s h1, h2⟩

theorem ScopeLe.kept {v v' : Scope} (h : ScopeLe v v') : ScopesKept v.all v'.all := by
  obtain ⟨h1, ⟨rs, h2⟩, ⟨ts, h3⟩⟩ := h
  intro p hp
  unfold Scope.all at hp ⊢
  rcases List.mem_cons.mp hp with rfl | hp
  · exact ⟨_, List.mem_cons_self, h1, fun x hx => by rw [h2]; exact List.mem_append_left _ hx⟩
  · exact ⟨p, List.mem_cons_of_mem _ (by rw [h3, scopeList_append]; exact List.mem_append_left _ hp), rfl, fun _ h => h⟩

theorem ScopesLe.kept : ∀ {vs vs' : List Scope}, ScopesLe vs vs' → ScopesKept (vs.flatMap Scope.all) (vs'.flatMap Scope.all)
  | [], [], _ => by intro p hp; simp at hp
  | v :: vs, v' :: vs', h => by
    rw [List.flatMap_cons, List.flatMap_cons]
    exact h.1.kept.append (ScopesLe.kept h.2)
  | [], _ :: _, h => h.elim
  | _ :: _, [], h => h.elim

theorem St.Has.within {C N : Prop} {st st' : St} {x : Fact} (h : st.Has x) (w : Within C N st st') : st'.Has x := by
  refine h.mono (fun s hs => ?_) (w.vars.kept.append w.varsBelow.kept)
  obtain ⟨ts, e⟩ := w.kids
  unfold St.syms at hs ⊢
  rw [e, w.below, flat_append]
  rcases List.mem_append.mp hs with hs | hs
  · exact List.mem_append_left _ (List.mem_append_left _ hs)
  · exact List.mem_append_right _ hs

theorem St.Has.grow {C N : Prop} {st st' : St} {x : Fact} (h : st.Has x) (w : Grow C N st st') : st'.Has x :=
  h.within w.toWithin

/-- Nothing is lost when a block is closed. -/
theorem St.Has.popBlock {st : St} {x : Fact} (h : st.Has x) (hb : st.below ≠ []) : st.popBlock.Has x := by
  unfold St.popBlock
  split
  · exact absurd ‹_› hb
  · next f fs e =>
    refine h.mono (fun s hs => ?_) (ScopesKept.of_subset fun p hp => hp)
    unfold St.syms at hs ⊢
    rw [e, List.flatMap_cons] at hs
    dsimp only
    rw [flat_append]
    have e2 : flat [Tree.node st.top.sym st.top.kids] = st.top.sym :: flat st.top.kids := by simp [flat, flatTree]
    rw [e2]
    simp only [List.mem_append, List.mem_cons] at hs ⊢
    tauto

theorem St.Has.popVars {st : St} {x : Fact} (h : st.Has x) (hb : st.varsBelow ≠ []) : st.popVars.Has x := by
  unfold St.popVars
  split
  · exact absurd ‹_› hb
  · next v vs e =>
    refine h.mono (fun s hs => hs) (ScopesKept.of_subset fun p hp => ?_)
    unfold St.scopes at hp ⊢
    rw [e, List.flatMap_cons] at hp
    dsimp only [Scope.all] at hp ⊢
    rw [scopeList_append]
    have e2 : scopeList [Tree.node (st.vars.range, st.vars.recs) st.vars.kids] =
        (st.vars.range, st.vars.recs) :: scopeList st.vars.kids := by simp [scopeList, scopeTree]
    rw [e2]
    simp only [List.mem_append, List.mem_cons] at hp ⊢
    tauto

/-- The symbol of the block that is closed. -/
theorem has_popBlock {st : St} (hb : st.below ≠ []) : st.top.sym ∈ st.popBlock.syms := by
  unfold St.popBlock
  split
  · exact absurd ‹_› hb
  · unfold St.syms
    dsimp only
    rw [flat_append]
    simp [flat, flatTree]

theorem has_add (st : St) (s : Sym) : s ∈ (st.add s).syms := by
  unfold St.syms St.add St.addTree
  dsimp only
  rw [flat_append]
  simp [flat, flatTree]

theorem has_record (st : St) (name : Bytes) (r : Rng) (p : Pos) (d : Bool) :
    (st.record name r p d).Has (.var st.vars.range name r) := by
  refine ⟨st.vars.recs ++ [⟨⟨name, r, 0⟩, p, d⟩], ?_, ⟨⟨name, r, 0⟩, p, d⟩, by simp, rfl, rfl⟩
  unfold St.scopes
  exact List.mem_append_left _ List.mem_cons_self

theorem has_recordBelow (st : St) (name : Bytes) (r : Rng) (p : Pos) (d : Bool) {v : Scope} {vs : List Scope}
    (h : st.varsBelow = v :: vs) : (st.recordBelow name r p d).Has (.var v.range name r) := by
  unfold St.recordBelow
  rw [h]
  refine ⟨v.recs ++ [⟨⟨name, r, 0⟩, p, d⟩], ?_, ⟨⟨name, r, 0⟩, p, d⟩, by simp, rfl, rfl⟩
  unfold St.scopes
  dsimp only
  rw [List.flatMap_cons]
  exact List.mem_append_right _ (List.mem_append_left _ List.mem_cons_self)

/-! ### surroundings -/

/-- The state is the one of these surroundings. -/
structure Agree (e : Env) (st : St) : Prop where
  scope : st.vars.range = e.scope
  outer : ∀ r, e.outer = some r → ∃ v vs, st.varsBelow = v :: vs ∧ v.range = r
  ns : st.ns = e.ns
  cls : ∀ q, e.cls = some q → ∃ x, st.classes.getLast? = some x ∧ (x.name.setNamespace st.ns).fqn = q ∧
    (e.isInterface = false → x.kind ≠ .interface_ ∧ x.name.fqn = q)

/-- Nothing in the code changes the surroundings. -/
structure Calm (e : Env) (n : Node) : Prop where
  cls : ∀ ty ∈ typesIn n, ty.classLike = true → e.cls = none
  ns : .namespaceDefinition ∉ typesIn n

/-- What holds between states in the same surroundings. -/
abbrev Stay (e : Env) : St → St → Prop := Grow (e.cls = none) False

/-- The same while a block is open. -/
abbrev StayIn (e : Env) : St → St → Prop := Within (e.cls = none) False

theorem Agree.within {e : Env} {st st' : St} (h : Agree e st) (w : StayIn e st st') : Agree e st' := by
  refine ⟨w.vars.range.trans h.scope, fun r hr => ?_, (w.ns not_false).trans h.ns, fun q hq => ?_⟩
  · obtain ⟨v, vs, h1, h2⟩ := h.outer r hr
    have h3 := w.varsBelow
    rw [h1] at h3
    match hvs : st'.varsBelow, h3 with
    | v' :: vs', h3 => exact ⟨v', vs', rfl, h3.1.range.trans h2⟩
  obtain ⟨x, h1, h2⟩ := h.cls q hq
  have hc : st'.classes = st.classes := w.classes (by rw [hq]; simp)
  exact ⟨x, by rw [hc, h1], by rw [w.ns not_false]; exact h2⟩

theorem Agree.stay {e : Env} {st st' : St} (h : Agree e st) (w : Stay e st st') : Agree e st' := h.within w.toWithin

theorem Calm.kid {e : Env} {ty : PType} {ks : List Node} (h : Calm e (.phr ty ks)) {k : Node} (hk : k ∈ ks) : Calm e k := by
  have hm : ∀ t ∈ typesIn k, t ∈ typesIn (.phr ty ks) := by
    intro t ht
    rw [typesIn]
    refine List.mem_cons_of_mem _ ?_
    clear h
    induction ks with
    | nil => simp at hk
    | cons k' ks ih =>
      rw [typesInAll]
      rcases List.mem_cons.mp hk with rfl | hk
      · exact List.mem_append_left _ ht
      · exact List.mem_append_right _ (ih hk)
  exact ⟨fun t ht => h.cls t (hm t ht), fun hn => h.ns (hm _ hn)⟩

theorem Calm.good {c : Ctx} {e : Env} {n : Node} (h : Calm e n) : Good (e.cls = none) False (Stay e) (Item.of c n) :=
  (closed_grow c _ _).good n () (fun _ _ => trivial) h.cls fun hn => h.ns hn

/-- The items of nodes. -/
theorem ofKids_eq (c : Ctx) (ks : List Node) : Item.ofKids c ks = ks.map (Item.of c) := by
  induction ks with
  | nil => simp [Item.ofKids]
  | cons k ks ih => rw [Item.ofKids, ih, List.map_cons]

theorem of_node (c : Ctx) (n : Node) : (Item.of c n).node = n := by
  cases n <;> simp [Item.of, Item.node]

theorem of_kids (c : Ctx) (n : Node) : (Item.of c n).kids = n.kids.map (Item.of c) := by
  cases n with
  | tok t => simp [Item.of, Item.kids, Node.kids]
  | err t => simp [Item.of, Item.kids, Node.kids]
  | phr ty ks => rw [Item.of, ← ofKids_eq]; rfl

theorem of_type (c : Ctx) (ty : PType) (ks : List Node) : (Item.of c (.phr ty ks)).type? = some ty := by
  simp [Item.type?, of_node]

/-- The item has the type of the phrase. -/
theorem type_iff (c : Ctx) (n : Node) (ty : PType) : (Item.of c n).type? = some ty ↔ n.isPhrase ty = true := by
  unfold Item.type?
  rw [of_node]
  cases n <;> simp [Node.isPhrase]

/-! ### loops -/

theorem mem_factsOf {c : Ctx} {e : Env} {ks : List Node} {x : Fact} : x ∈ factsOf c u e ks ↔ ∃ k ∈ ks, x ∈ facts c u e k := by
  induction ks with
  | nil => simp [factsOf]
  | cons k ks ih => rw [factsOf, List.mem_append, ih]; simp

/-- A loop finds what is in the nodes. -/
theorem seq {c : Ctx} {e : Env} {f : Item → St → St} {ks : List Node} {x : Fact}
    (hg : ∀ k ∈ ks, ∀ st, StayIn e st (f (Item.of c k) st))
    (hf : ∀ k ∈ ks, ∀ st, Agree e st → x ∈ facts c u e k → (f (Item.of c k) st).Has x)
    {st : St} (ha : Agree e st) (hx : x ∈ factsOf c u e ks) : (each f (ks.map (Item.of c)) st).Has x := by
  unfold each
  induction ks generalizing st with
  | nil => simp [factsOf] at hx
  | cons k ks ih =>
    rw [List.map_cons, List.foldl_cons]
    rw [factsOf, List.mem_append] at hx
    rcases hx with hx | hx
    · have h1 := hf k (by simp) st ha hx
      have h2 : StayIn e (f (Item.of c k) st) (each f (ks.map (Item.of c)) (f (Item.of c k) st)) := by
        refine PreOrder.each ⟨Within.refl, Within.trans⟩ ?_ _
        intro k' hk' st'
        obtain ⟨k'', hk'', rfl⟩ := List.mem_map.mp hk'
        exact hg k'' (by simp [hk'']) st'
      exact h1.within h2
    · exact ih (fun k hk => hg k (by simp [hk])) (fun k hk => hf k (by simp [hk]))
        (ha.within (hg k (by simp) st)) hx

/-- The same for a loop with another result. -/
theorem seqFold {c : Ctx} {e : Env} {α : Type} {g : St × α → Item → St × α} {ks : List Node} {x : Fact}
    (hg : ∀ k ∈ ks, ∀ r, StayIn e r.1 (g r (Item.of c k)).1)
    (hf : ∀ k ∈ ks, ∀ r, Agree e r.1 → x ∈ facts c u e k → (g r (Item.of c k)).1.Has x)
    {r : St × α} (ha : Agree e r.1) (hx : x ∈ factsOf c u e ks) : ((ks.map (Item.of c)).foldl g r).1.Has x := by
  induction ks generalizing r with
  | nil => simp [factsOf] at hx
  | cons k ks ih =>
    rw [List.map_cons, List.foldl_cons]
    rw [factsOf, List.mem_append] at hx
    rcases hx with hx | hx
    · have h1 := hf k (by simp) r ha hx
      have h2 : StayIn e (g r (Item.of c k)).1 ((ks.map (Item.of c)).foldl g (g r (Item.of c k))).1 := by
        refine PreOrder.fold ⟨Within.refl, Within.trans⟩ ?_ _
        intro k' hk' r'
        obtain ⟨k'', hk'', rfl⟩ := List.mem_map.mp hk'
        exact hg k'' (by simp [hk'']) r'
      exact h1.within h2
    · exact ih (fun k hk => hg k (by simp [hk])) (fun k hk => hf k (by simp [hk]))
        (ha.within (hg k (by simp) r)) hx

/-! ### silence -/

theorem own_silent {c : Ctx} {e : Env} {ty : PType} {ks : List Node} (h : telling c u ty ks = false) : own c u e ty ks = [] := by
  have hu : (if u then usesOf c ty ks else []) = [] := by
    cases u with
    | false => rfl
    | true => cases ty <;> simp [telling, PType.usesSome] at h <;> simp [usesOf]
  unfold telling at h
  unfold own
  rw [hu]
  split at h <;> simp_all

mutual

theorem facts_silent {c : Ctx} : ∀ {n : Node} {e : Env}, silent c u n = true → facts c u e n = []
  | .tok _, _, _ => rfl
  | .err _, _, _ => rfl
  | .phr ty ks, e, h => by
    rw [silent] at h
    rw [facts]
    by_cases hc : ty.closed = true
    · rw [if_pos hc]
      have : telling c u ty ks = false := by unfold PType.closed at hc; split at hc <;> simp_all [telling, PType.usesSome]
      simp [own_silent this]
    · simp only [hc, Bool.false_or, Bool.and_eq_true, Bool.not_eq_true'] at h
      rw [own_silent h.1, factsOf_silent h.2]
      simp

theorem factsOf_silent {c : Ctx} : ∀ {ks : List Node} {e : Env}, silents c u ks = true → factsOf c u e ks = []
  | [], _, _ => rfl
  | k :: ks, e, h => by
    rw [silents, Bool.and_eq_true] at h
    rw [factsOf, facts_silent h.1, factsOf_silent h.2]
    rfl

end

theorem silents_iff {c : Ctx} {ks : List Node} : silents c u ks = true ↔ ∀ k ∈ ks, silent c u k = true := by
  induction ks with
  | nil => simp [silents]
  | cons k ks ih => rw [silents, Bool.and_eq_true, ih]; simp

theorem supporteds_iff {c : Ctx} {ks : List Node} : supporteds c u ks = true ↔ ∀ k ∈ ks, supported c u k = true := by
  induction ks with
  | nil => simp [supporteds]
  | cons k ks ih => rw [supporteds, Bool.and_eq_true, ih]; simp

theorem not_silent {c : Ctx} {e : Env} {n : Node} {x : Fact} (h : x ∈ facts c u e n) : silent c u n = false := by
  by_contra hs
  rw [facts_silent (by simpa using hs)] at h
  simp at h

theorem facts_phr {c : Ctx} {e : Env} {n : Node} {x : Fact} (h : x ∈ facts c u e n) : ∃ ty ks, n = .phr ty ks := by
  cases n with
  | tok t => simp [facts] at h
  | err t => simp [facts] at h
  | phr ty ks => exact ⟨ty, ks, rfl⟩

end Verif.Analyser
