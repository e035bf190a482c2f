import Verif.Analyser.FindDecl

/-!
Everything there is to find in a document is found.
-/

namespace Verif.Analyser
open Verif.Symbols (Tree Var Rec)

variable {c : Ctx} {u : Bool} {e : Env} {x : Fact}

theorem isDefine_iff (ks : List Node) : isDefine c (ks.map (Item.of c)) = isDefineCall c ks := by
  unfold isDefine isDefineCall
  rw [List.any_map]
  congr 1
  funext k
  simp only [Function.comp, of_node]

/-- What `scanNode` is given. -/
theorem Parts.inner {ty : PType} {ks : List Node} (hd : ∀ k ∈ ks, Deep c u k) (hc : Calm e (.phr ty ks)) :
    Parts c u e (Item.mk (.phr ty ks) id (fun st => (st, false)) (Item.ofKids c ks)) ty ks := by
  refine ⟨rfl, ofKids_eq c ks, hd, fun _ hk => hc.kid hk, .intro _ _ trivial (ClosedOn.ofKids_nodes _ _) .refl .refl ?_ ?_ ?_⟩
  · intro ty' e1 h
    cases e1
    exact hc.cls ty (by rw [typesIn]; simp) h
  · intro e1
    cases e1
    exact hc.ns (by rw [typesIn]; simp)
  · intro k hk
    have hk : k ∈ Item.ofKids c ks := hk
    rw [ofKids_eq] at hk
    obtain ⟨k', hk', rfl⟩ := List.mem_map.mp hk
    exact (hc.kid hk').good

theorem find_declare {n : Item} {ty : PType} {ks : List Node} (p : Parts c u e n ty ks) (hc : ty.classLike = true → e.cls = none)
    (hr : ty.runs = true) (he : isExprType ty = true → isDefineCall c ks = true) (hf : fine c u ty ks = true) {st : St}
    (ha : Agree e st) (hx : x ∈ facts c u e (.phr ty ks)) :
    (if isTransparent ty then scanForChildren n st else declare c n st).Has x := by
  by_cases hE : isExprType ty = true
  · have hd := he hE
    have hty : ty = .functionCallExpression := by
      unfold fine at hf
      rw [Bool.and_eq_true] at hf
      have := hf.1
      rw [hE, hd] at this
      simpa using this
    subst hty
    rw [if_neg (by simp [isTransparent])]
    unfold declare
    rw [p.type]
    dsimp only
    rw [p.kids, isDefine_iff, if_pos hd]
    exact find_define p hf hd ha hx
  · have hE' : isExprType ty = false := by simpa using hE
    unfold PType.runs at hr
    rw [hE', Bool.false_or] at hr
    have hall : ks.all (place c u) = true → own c u e ty ks = [] → Env.enter c e ty ks = e → (scanForChildren n st).Has x :=
      fun h1 h2 h3 => find_children p h1 ha (facts_inside hx h2 h3)
    cases ty <;> simp only [isTransparent, Bool.false_eq_true, if_true, if_false] at hr ⊢
    case transparent => exact hall (by simpa [fine, isExprType] using hf) (by simp [own, usesOf]) (by simp [Env.enter])
    case compoundStatement => exact hall (by simpa [fine, isExprType] using hf) (by simp [own, usesOf]) (by simp [Env.enter])
    case statementList => exact hall (by simpa [fine, isExprType] using hf) (by simp [own, usesOf]) (by simp [Env.enter])
    all_goals
      unfold declare
      rw [p.type]
      dsimp only
    case argumentExpressionList =>
      exact find_arguments p (by simpa [fine, isExprType] using hf) ha (facts_inside hx (by simp [own, usesOf]) (by simp [Env.enter]))
    case classDeclaration => exact find_class p (hc rfl) hf ha hx
    case interfaceDeclaration => exact find_interface p (hc rfl) hf ha hx
    case traitDeclaration => exact find_trait p (hc rfl) hf ha hx
    case anonymousClassDeclaration => exact find_anonymousClass p (hc rfl) hf ha hx
    case functionDeclaration => exact find_function p hf ha hx
    case methodDeclaration => exact find_method p hf ha hx
    case anonymousFunctionCreationExpression => exact find_closure p hf ha hx
    case classConstDeclaration => exact find_classConstDeclaration p hf ha hx
    case propertyDeclaration => exact find_propertyDeclaration p hf ha hx
    case constDeclaration => exact find_constDeclaration p hf ha hx
    case constElement => exact find_const p hf ha hx
    case globalDeclaration => exact find_global p hf ha hx
    case catchNameList => exact find_catchNames p hf hx
    case traitUseClause => exact find_traitUse p hf hx

theorem find_node {n : Item} {ty : PType} {ks : List Node} (p : Parts c u e n ty ks) (hc : ty.classLike = true → e.cls = none)
    (hr : ty.runs = true) (hf : fine c u ty ks = true) {st : St} (ha : Agree e st) (hx : x ∈ facts c u e (.phr ty ks)) :
    (scanNode c n st).Has x := by
  have H := hst c e
  unfold scanNode
  rw [p.node]
  dsimp only
  rw [if_neg (by intro h; subst h; simp [PType.runs, isExprType] at hr), p.kids, isDefine_iff]
  by_cases hd : isDefineCall c ks = true
  · rw [if_pos hd]
    exact find_declare p hc hr (fun _ => hd) hf ha hx
  · rw [if_neg hd]
    have hd : isDefineCall c ks = false := by simpa using hd
    by_cases hE : isExprType ty = true
    · refine (find_expression p hE hf hd ha hx).grow (C := e.cls = none) (N := False) ?_
      split
      · exact H.scanForChildren p.good.kids _
      · exact H.declare p.good _
    · exact find_declare p hc hr (fun h => absurd h hE) hf (ha.stay (H.scanForExpression p.good st)) hx

mutual

/-- The analysis finds what there is in a tree that is as assumed. -/
theorem deep_of : ∀ {n : Node}, supported c u n = true → Deep c u n
  | .tok _, _ => .silent rfl
  | .err _, _ => .silent rfl
  | .phr ty ks, h => by
    rw [supported, Bool.or_eq_true, Bool.and_eq_true] at h
    rcases h with h | ⟨hf, h⟩
    · exact .silent h
    · have hd := deeps_of h
      refine .phr ⟨fun hp e st x hc ha hx => ?_, fun ho e st x hc ha hx => ?_⟩ hf hd
      · have hs := not_silent hx
        simp only [place, hs, Bool.false_or] at hp
        have := find_node (Parts.inner hd hc) (hc.cls ty (by rw [typesIn]; simp)) hp hf ha hx
        rw [Item.of]
        exact this
      · have hs := not_silent hx
        simp only [operand, hs, Bool.false_or, Bool.and_eq_true] at ho
        have hdef : isDefineCall c ks = false := by
          have h1 := hf
          unfold fine at h1
          rw [Bool.and_eq_true, ho.1] at h1
          have h1 := h1.1
          have h2 := ho.2
          by_cases ht : ty = .functionCallExpression
          · simpa [ht] using h2
          · simpa [ht] using h1
        have := find_expression (Parts.inner hd hc) ho.1 hf hdef ha hx
        rw [Item.of]
        exact this

theorem deeps_of : ∀ {ks : List Node}, supporteds c u ks = true → ∀ k ∈ ks, Deep c u k
  | [], _ => by simp
  | k' :: ks, h => by
    rw [supporteds, Bool.and_eq_true] at h
    have h1 := deep_of h.1
    have h2 := deeps_of h.2
    intro k hk
    rcases List.mem_cons.mp hk with rfl | hk
    · exact h1
    · exact h2 k hk

end

/-! ### documents -/

/-- The surroundings of a statement of a document. -/
def topEnv (r : Rng) (ns : Bytes) : Env := ⟨r, none, ns, none, false⟩

theorem calm_top {r : Rng} {ns : Bytes} {k : Node} (h : (typesIn k).contains .namespaceDefinition = false) : Calm (topEnv r ns) k :=
  ⟨fun _ _ _ => rfl, fun hn => by simp [hn] at h⟩

theorem typesIn_kid {ks : List Node} {k : Node} (hk : k ∈ ks) {ty : PType} (h : ty ∈ typesIn k) : ty ∈ typesInAll ks := by
  induction ks with
  | nil => simp at hk
  | cons k' ks ih =>
    rw [typesInAll]
    rcases List.mem_cons.mp hk with rfl | hk
    · exact List.mem_append_left _ h
    · exact List.mem_append_right _ (ih hk)

theorem Agree.top {r : Rng} {ns : Bytes} {st : St} (h : Agree (topEnv r ns) st) (ns' : Bytes) :
    Agree (topEnv r ns') { st with ns := ns' } :=
  ⟨h.scope, h.outer, rfl, fun q hq => by cases hq⟩

/-- A namespace. -/
theorem find_namespace {n : Item} {ks : List Node} (hnode : n.kids = ks.map (Item.of c)) {r : Rng} {ns : Bytes} {st : St}
    (hs : statement c u (.phr .namespaceDefinition ks) = true) (ha : Agree (topEnv r ns) st) :
    Agree (topEnv r (nsAfter c ns (.phr .namespaceDefinition ks))) (newNamespace c n st) ∧
      ∀ x ∈ factsOf c u (topEnv r (nsAfter c ns (.phr .namespaceDefinition ks))) ks, (newNamespace c n st).Has x := by
  simp only [statement, Bool.and_eq_true, Bool.not_eq_true', Bool.or_eq_true, decide_eq_true_eq] at hs
  obtain ⟨⟨⟨⟨h1, h2⟩, h3⟩, h4⟩, h5⟩ := hs
  have hd := deeps_of h1
  have hc : ∀ ns' : Bytes, ∀ k ∈ ks, Calm (topEnv r ns') k := fun ns' k hk => calm_top (by
    by_contra hn
    have hm : PType.namespaceDefinition ∈ typesIn k := by simpa using hn
    have := typesIn_kid hk hm
    simp [this] at h2)
  let f : Item → St → St := fun k st =>
    match k.type? with
    | some .namespaceName => { st with ns := c.nodeText k.node }
    | some .statementList => scanForChildren k st
    | _ => st
  have hf : newNamespace c n st = each f (ks.map (Item.of c)) { st with ns := [] } := by
    unfold newNamespace
    rw [hnode]
    rfl
  rw [hf]
  have hstep : ∀ ns', ∀ k ∈ ks, k.isPhrase .namespaceName = false → ∀ st, Stay (topEnv r ns') st (f (Item.of c k) st) := by
    intro ns' k hk hp st
    dsimp only [f]
    split
    · next ht => rw [type_iff, hp] at ht; cases ht
    · exact (hst c (topEnv r ns')).scanForChildren (hc ns' k hk).good.kids st
    · exact .refl _
  have hfind : ∀ ns', ∀ k ∈ ks, ∀ st, Agree (topEnv r ns') st → ∀ x ∈ facts c u (topEnv r ns') k, (f (Item.of c k) st).Has x := by
    intro ns' k hk st ha x hx
    have ht := only_one hx (List.all_eq_true.mp h3 k hk)
    obtain ⟨ty, ms, rfl, _, hf', hd'⟩ := (hd k hk).inv hx
    simp only [Node.isPhrase, decide_eq_true_eq] at ht
    subst ht
    dsimp only [f]
    rw [of_type]
    dsimp only
    exact find_body hd' (hc ns' _ hk) (by simpa [fine, isExprType] using hf') (by simp [own, usesOf]) (by simp [Env.enter]) ha hx
  have hsplit := List.takeWhile_append_dropWhile (p := fun k => !Node.isPhrase .namespaceName k) (l := ks)
  have hpre : ∀ k ∈ ks.takeWhile (fun k => !Node.isPhrase .namespaceName k), k.isPhrase .namespaceName = false := fun k hk => by
    simpa using List.all_eq_true.mp (List.all_takeWhile (p := fun k => !Node.isPhrase .namespaceName k) (l := ks)) k hk
  match hdw : ks.dropWhile (fun k => !Node.isPhrase .namespaceName k) with
  | [] =>
    rw [hdw, List.append_nil] at hsplit
    have hno : ∀ k ∈ ks, k.isPhrase .namespaceName = false := fun k hk => hpre k (by rw [hsplit]; exact hk)
    have hns : nsAfter c ns (.phr .namespaceDefinition ks) = [] := by
      simp only [nsAfter]
      rw [List.find?_eq_none.mpr (fun k hk => by simp [hno k hk])]
    rw [hns]
    have ha0 := ha.top []
    refine ⟨ha0.stay ?_, fun x hx => ?_⟩
    · refine PreOrder.each ⟨Grow.refl, Grow.trans⟩ (fun k hk st => ?_) _
      obtain ⟨k', hk', rfl⟩ := List.mem_map.mp hk
      exact hstep _ k' hk' (hno k' hk') st
    · exact seq (fun k hk st => (hstep _ k hk (hno k hk) st).toWithin) (fun k hk st ha hx => hfind _ k hk st ha x hx) ha0 hx
  | k0 :: post =>
    have hk0 : k0.isPhrase .namespaceName = true := by
      have := List.head_dropWhile_not (fun k => !Node.isPhrase .namespaceName k) (l := ks) (by rw [hdw]; simp)
      simpa [hdw] using this
    generalize hp : ks.takeWhile (fun k => !Node.isPhrase .namespaceName k) = pre at hsplit hpre h5
    rw [hdw] at hsplit h5
    subst hsplit
    have hpost : ∀ k ∈ post, k.isPhrase .namespaceName = false := by
      intro k hk
      by_contra hn
      rw [List.filter_append, List.filter_cons_of_pos hk0, List.length_append, List.length_cons] at h4
      have : k ∈ post.filter (Node.isPhrase .namespaceName) := List.mem_filter.mpr ⟨hk, by simpa using hn⟩
      have := List.length_pos_of_mem this
      omega
    have hns : nsAfter c ns (.phr .namespaceDefinition (pre ++ k0 :: post)) = c.nodeText k0 := by
      simp only [nsAfter]
      rw [List.find?_append, List.find?_eq_none.mpr (fun k hk => by simp [hpre k hk])]
      simp [hk0]
    rw [hns, List.map_append, each_append]
    have ha0 := ha.top []
    have g1 : Stay (topEnv r []) { st with ns := [] } (each f (pre.map (Item.of c)) { st with ns := [] }) := by
      refine PreOrder.each ⟨Grow.refl, Grow.trans⟩ (fun k hk st => ?_) _
      obtain ⟨k', hk', rfl⟩ := List.mem_map.mp hk
      exact hstep _ k' (by simp [hk']) (hpre k' hk') st
    have ha1 := (ha0.stay g1).top (c.nodeText k0)
    generalize hst1 : each f (pre.map (Item.of c)) { st with ns := [] } = st1 at ha1 g1
    have e1 : each f ((k0 :: post).map (Item.of c)) st1 = each f (post.map (Item.of c)) { st1 with ns := c.nodeText k0 } := by
      rw [List.map_cons]
      show each f _ (f (Item.of c k0) st1) = _
      congr 1
      dsimp only [f]
      rw [(type_iff c k0 _).mpr hk0, of_node]
    rw [e1]
    refine ⟨ha1.stay ?_, fun x hx => ?_⟩
    · refine PreOrder.each ⟨Grow.refl, Grow.trans⟩ (fun k hk st => ?_) _
      obtain ⟨k', hk', rfl⟩ := List.mem_map.mp hk
      exact hstep _ k' (by simp [hk']) (hpost k' hk') st
    · refine seq (e := topEnv r (c.nodeText k0)) (ks := post) (fun k hk st => (hstep _ k (by simp [hk]) (hpost k hk) st).toWithin)
        (fun k hk st ha hx => hfind _ k (by simp [hk]) st ha x hx) ha1 ?_
      rw [mem_factsOf] at hx
      obtain ⟨k, hk, hx⟩ := hx
      have ht := only_one hx (List.all_eq_true.mp h3 k hk)
      rcases List.mem_append.mp hk with hk | hk
      · rcases h5 with h5 | h5
        · simp at h5
        · have := List.all_eq_true.mp h5 k hk
          rw [ht] at this
          cases this
      · rcases List.mem_cons.mp hk with rfl | hk
        · rw [isPhrase_ne ht (by simp)] at hk0
          cases hk0
        · exact mem_factsOf.mpr ⟨k, hk, hx⟩

/-- A statement of a document. -/
theorem find_statement {k : Node} {r : Rng} {ns : Bytes} {st : St} (hs : statement c u k = true) (ha : Agree (topEnv r ns) st) :
    Agree (topEnv r (nsAfter c ns k)) ((Item.of c k).run st) ∧
      ∀ x ∈ facts c u (topEnv r (nsAfter c ns k)) k, ((Item.of c k).run st).Has x := by
  by_cases hk : k.isPhrase .namespaceDefinition = true
  · cases k with
    | tok t => simp [Node.isPhrase] at hk
    | err t => simp [Node.isPhrase] at hk
    | phr ty ks =>
      simp only [Node.isPhrase, decide_eq_true_eq] at hk
      subst hk
      have e1 : (Item.of c (.phr .namespaceDefinition ks)).run st =
          newNamespace c (Item.mk (.phr .namespaceDefinition ks) id (fun st => (st, false)) (Item.ofKids c ks)) st := by
        rw [Item.of]
        rfl
      rw [e1]
      obtain ⟨h1, h2⟩ := find_namespace (n := Item.mk (.phr .namespaceDefinition ks) id (fun st => (st, false)) (Item.ofKids c ks))
        (ofKids_eq c ks) hs ha
      exact ⟨h1, fun x hx => h2 x (facts_inside hx (by simp [own, usesOf]) (by simp [Env.enter]))⟩
  · have hs' : (supported c u k && place c u k && !(typesIn k).contains .namespaceDefinition) = true := by
      unfold statement at hs
      split at hs
      · simp [Node.isPhrase] at hk
      · exact hs
    have hns : nsAfter c ns k = ns := by
      unfold nsAfter
      split
      · simp [Node.isPhrase] at hk
      · rfl
    simp only [Bool.and_eq_true, Bool.not_eq_true'] at hs'
    rw [hns]
    have hc : Calm (topEnv r ns) k := calm_top hs'.2
    exact ⟨ha.stay (hc.good.run st), fun x hx => (deep_of hs'.1.1).run hs'.1.2 hc ha hx⟩

theorem find_statements {ks : List Node} {r : Rng} {ns : Bytes} {st : St} (hs : ks.all (statement c u) = true)
    (ha : Agree (topEnv r ns) st) (hx : x ∈ factsFrom c u r ns ks) : (each Item.run (ks.map (Item.of c)) st).Has x := by
  induction ks generalizing ns st with
  | nil => simp [factsFrom] at hx
  | cons k ks ih =>
    rw [List.all_cons, Bool.and_eq_true] at hs
    rw [factsFrom, List.mem_append] at hx
    obtain ⟨h1, h2⟩ := find_statement hs.1 ha
    rw [List.map_cons]
    show (each Item.run (ks.map (Item.of c)) ((Item.of c k).run st)).Has x
    rcases hx with hx | hx
    · refine (h2 x hx).grow (C := True) (N := True) ?_
      refine PreOrder.each ⟨Grow.refl, Grow.trans⟩ (fun k hk st => ?_) _
      obtain ⟨k', _, rfl⟩ := List.mem_map.mp hk
      exact ((closed_grow c True True).good k' () (fun _ _ => trivial) (fun _ _ _ => trivial) fun _ => trivial).run st
    · exact ih hs.2 h1 hx

/-- Everything there is to find in a document is in the symbols and scopes that the analysis makes of it. -/
theorem find_all (root : Node) (hs : SupportedFor c u root) (hx : x ∈ factsIn c u root) :
    Found (flat (symbolsOf c root)) (scopeTree (scopesOf c root)) x := by
  have h : (analyse c root).Has x := by
    unfold analyse scanForChildren
    rw [of_kids]
    refine find_statements hs (r := c.range root) (ns := []) ⟨rfl, ?_, rfl, ?_⟩ hx
    · intro r hr; cases hr
    · intro q hq; cases hq
  have w := (closed_grow c True True).analyse (σ := ()) root (fun _ _ => trivial) (fun _ _ _ => trivial) fun _ => trivial
  have h1 : (analyse c root).below = [] := w.below
  have h2 : (analyse c root).varsBelow = [] := by
    have := w.varsBelow
    match hv : (analyse c root).varsBelow with
    | [] => rfl
    | v :: vs => rw [hv] at this; exact this.elim
  refine h.mono (fun s hs => ?_) (ScopesKept.of_subset fun p hp => ?_)
  · unfold St.syms at hs
    rw [h1] at hs
    simpa [symbolsOf] using hs
  · unfold St.scopes at hp
    rw [h2] at hp
    simpa [Scope.all, scopesOf, scopeTree] using hp

end Verif.Analyser
