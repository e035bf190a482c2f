import Verif.Analyser.FindFunc

/-!
Classes, interfaces and traits.
-/

namespace Verif.Analyser
open Verif.Symbols (Tree Var Rec)

variable {c : Ctx} {u : Bool} {e : Env} {x : Fact}

theorem each_append (f : Item → St → St) (as bs : List Item) (st : St) : each f (as ++ bs) st = each f bs (each f as st) :=
  List.foldl_append

theorem Within.mono {C C' N : Prop} (h : C → C') {st st' : St} (w : Within C N st st') : Within C' N st st' :=
  ⟨w.kind, w.range, w.kids, w.below, w.vars, w.varsBelow, fun hn => w.classes fun hc => hn (h hc), w.ns⟩

/-- What a header does: the block and the class get their name. -/
structure HeadStep (i : Nat) (complete : Types.Ty → Bytes → Types.Ty) (s : Bytes) (C : Prop) (f : St → St) : Prop where
  within : ∀ st, Within True False st (f st)
  sym : ∀ st, (f st).top.sym = { st.top.sym with name := (complete (tyOf s) st.ns).fqn }
  classes : ¬ C → ∀ st, (f st).classes = st.classes.modify i fun x => { x with name := complete (tyOf s) st.ns }

theorem header_step {C : Prop} {i : Nat} {complete : Types.Ty → Bytes → Types.Ty} {f : Item → St → St} {hs : List Node}
    (h : one (fun k => (nameIn c k).isSome) hs = true) (hi : ∀ k ∈ hs, k.isPhrase .identifier = false)
    (hn : ∀ k ∈ hs, (nameIn c k).isSome = false → ∀ st, Grow C False st (f (Item.of c k) st))
    (ht : ∀ t, .tok t ∈ hs → t.type = TokType.name → HeadStep i complete (c.tokText t) C (f (Item.of c (.tok t)))) :
    ∃ s, hs.findSome? (nameIn c) = some s ∧ HeadStep i complete s C (each f (hs.map (Item.of c))) := by
  obtain ⟨pre, k, post, rfl, h2, h3, h4⟩ := one_split h
  rcases nameIn_cases h2 with ⟨t, rfl, htt, hnt⟩ | ⟨ks', rfl, _⟩
  · refine ⟨c.tokText t, ?_, ?_⟩
    · rw [List.findSome?_append, List.findSome?_eq_none_iff.mpr (fun k hk => by simpa using h3 k hk)]
      simp [hnt]
    · have hs := ht t (by simp) htt
      have g1 : ∀ st, Grow C False st (each f (pre.map (Item.of c)) st) := fun st => by
        refine PreOrder.each ⟨Grow.refl, Grow.trans⟩ (fun k hk st => ?_) st
        obtain ⟨k', hk', rfl⟩ := List.mem_map.mp hk
        exact hn k' (by simp [hk']) (h3 k' hk') st
      have g2 : ∀ st, Grow C False st (each f (post.map (Item.of c)) st) := fun st => by
        refine PreOrder.each ⟨Grow.refl, Grow.trans⟩ (fun k hk st => ?_) st
        obtain ⟨k', hk', rfl⟩ := List.mem_map.mp hk
        exact hn k' (by simp [hk']) (h4 k' hk') st
      have e1 : ∀ st, each f ((pre ++ .tok t :: post).map (Item.of c)) st =
          each f (post.map (Item.of c)) (f (Item.of c (.tok t)) (each f (pre.map (Item.of c)) st)) := by
        intro st
        rw [List.map_append, each_append]
        rfl
      refine ⟨fun st => ?_, fun st => ?_, fun hC st => ?_⟩
      · rw [e1]
        exact ((g1 st).toWithin.mono (fun _ => trivial)).trans ((hs.within _).trans ((g2 _).toWithin.mono fun _ => trivial))
      · rw [e1, (g2 _).sym, hs.sym, (g1 st).sym, (g1 st).ns not_false]
      · rw [e1, (g2 _).classes hC, hs.classes hC, (g1 st).classes hC, (g1 st).ns not_false]
  · have := hi (.phr .identifier ks') (by simp)
    simp [Node.isPhrase] at this

/-- What is done at the children of a class. -/
def classStep (header body : PType) (hd : Item → St → St) (k : Item) (st : St) : St :=
  if k.type? = some header then hd k st else if k.type? = some body then scanForChildren k st else st

theorem takeWhile_pre {header : PType} {pre post : List Node} {k0 : Node} (h0 : k0.isPhrase header = true)
    (h : ∀ k ∈ pre, k.isPhrase header = false) :
    (pre ++ k0 :: post).takeWhile (fun k => !k.isPhrase header) = pre := by
  induction pre with
  | nil => simp [h0]
  | cons k ks ih =>
    rw [List.cons_append, List.takeWhile_cons_of_pos (by simp [h k (by simp)]), ih (fun k hk => h k (by simp [hk]))]

theorem modify_last {α : Type} (l : List α) (a : α) (f : α → α) : (l ++ [a]).modify l.length f = l ++ [f a] := by
  induction l with
  | nil => rfl
  | cons b l ih => simp [List.modify_succ_cons, ih]

/-- The inside of a class: the first header names it, then comes the body. -/
theorem find_inside {e' : Env} {header body : PType} {hd : Item → St → St} {ks : List Node} {old : List Cls} {kind : Kind}
    {complete : Types.Ty → Bytes → Types.Ty} {name0 : Types.Ty}
    (hdeep : ∀ k ∈ ks, Deep c u k) (hcalm : ∀ k ∈ ks, Calm e' k)
    (hne : body ≠ header)
    (honly : ks.all (only c u [header, body]) = true) (hname : named c header false ks = true)
    (hfirst : headFirst c u header ks = true)
    (hH : ∀ k ∈ ks, k.isPhrase header = true → one (fun k => (nameIn c k).isSome) k.kids = true →
      (∀ k' ∈ k.kids, k'.isPhrase .identifier = false) →
      ∃ s, k.kids.findSome? (nameIn c) = some s ∧ HeadStep old.length complete s (e'.cls = none) (hd (Item.of c k)))
    (hhead : ∀ ms, .phr header ms ∈ ks → fine c u header ms = true → ∀ x ∈ facts c u e' (.phr header ms), ∀ st,
      (hd (Item.of c (.phr header ms)) st).Has x)
    (hbody : ∀ ms, fine c u body ms = true → ms.all (place c u) = true ∧ own c u e' body ms = [] ∧ Env.enter c e' body ms = e')
    (hcls : e.cls = none) (hsc : e'.scope = e.scope) (hou : e'.outer = e.outer) (hns : e'.ns = e.ns)
    {st0 : St} (h0 : st0.classes = old ++ [⟨kind, name0⟩]) (ha : Agree e st0)
    (hq : ∀ s, headName c header ks = some s → ∀ q, e'.cls = some q →
      ((complete (tyOf s) e.ns).setNamespace e.ns).fqn = q ∧
      (e'.isInterface = false → kind ≠ .interface_ ∧ (complete (tyOf s) e.ns).fqn = q)) :
    ∃ s, headName c header ks = some s ∧
      Within True False st0 (each (classStep header body hd) (ks.map (Item.of c)) st0) ∧
      (each (classStep header body hd) (ks.map (Item.of c)) st0).top.sym =
        { st0.top.sym with name := (complete (tyOf s) e.ns).fqn } ∧
      (e'.cls ≠ none → (each (classStep header body hd) (ks.map (Item.of c)) st0).classes =
        old ++ [⟨kind, complete (tyOf s) e.ns⟩]) ∧
      ∀ x ∈ factsOf c u e' ks, (each (classStep header body hd) (ks.map (Item.of c)) st0).Has x := by
  obtain ⟨hn1, hn2⟩ := named_inv hname
  have H := hst c e'
  have hstep : ∀ k ∈ ks, k.isPhrase header = false → ∀ st, Stay e' st (classStep header body hd (Item.of c k) st) := by
    intro k hk hp st
    unfold classStep
    rw [if_neg (by rw [type_iff, hp]; simp)]
    exact (stay_pre _).ite fun _ => H.scanForChildren (hcalm k hk).good.kids st
  obtain ⟨pre, k0, post, rfl, h2, h3, h4⟩ := one_split hn1
  obtain ⟨hm1, hm2⟩ := hn2 k0 (by simp) h2
  obtain ⟨s, hs1, hs2⟩ := hH k0 (by simp) h2 hm1 (hm2 rfl)
  have hname0 : headName c header (pre ++ k0 :: post) = some s := by
    rw [headName_one (k0 := k0) ?_ h2, hs1]
    rw [List.filter_append, List.filter_cons_of_pos h2, List.filter_eq_nil_iff.mpr (fun k hk => by simp [h3 k hk]),
      List.filter_eq_nil_iff.mpr (fun k hk => by simp [h4 k hk])]
    rfl
  have hpre : silents c u pre = true := by
    unfold headFirst at hfirst
    rwa [takeWhile_pre h2 h3] at hfirst
  have g1 : Stay e' st0 (each (classStep header body hd) (pre.map (Item.of c)) st0) := by
    refine PreOrder.each ⟨Grow.refl, Grow.trans⟩ (fun k hk st => ?_) st0
    obtain ⟨k', hk', rfl⟩ := List.mem_map.mp hk
    exact hstep k' (by simp [hk']) (h3 k' hk') st
  have g2 : ∀ st, Stay e' st (each (classStep header body hd) (post.map (Item.of c)) st) := fun st => by
    refine PreOrder.each ⟨Grow.refl, Grow.trans⟩ (fun k hk st => ?_) st
    obtain ⟨k', hk', rfl⟩ := List.mem_map.mp hk
    exact hstep k' (by simp [hk']) (h4 k' hk') st
  have e1 : ∀ st, each (classStep header body hd) ((pre ++ k0 :: post).map (Item.of c)) st =
      each (classStep header body hd) (post.map (Item.of c))
        (hd (Item.of c k0) (each (classStep header body hd) (pre.map (Item.of c)) st)) := by
    intro st
    rw [List.map_append, each_append]
    show each _ _ (classStep header body hd (Item.of c k0) _) = _
    rw [classStep, if_pos ((type_iff c k0 _).mpr h2)]
  rw [e1]
  generalize hst1 : each (classStep header body hd) (pre.map (Item.of c)) st0 = st1 at g1
  have w12 : Within True False st0 (hd (Item.of c k0) st1) := (g1.toWithin.mono fun _ => trivial).trans (hs2.within st1)
  have hns1 : st1.ns = e.ns := (g1.ns not_false).trans ha.ns
  have hclasses : e'.cls ≠ none → (hd (Item.of c k0) st1).classes = old ++ [⟨kind, complete (tyOf s) e.ns⟩] := by
    intro hc
    rw [hs2.classes hc, g1.classes hc, h0, modify_last, hns1]
  have ha1 : Agree e (hd (Item.of c k0) st1) := ha.within (w12.mono fun _ => hcls)
  have ha' : Agree e' (hd (Item.of c k0) st1) := by
    refine ⟨by rw [hsc]; exact ha1.scope, by rw [hou]; exact ha1.outer, by rw [hns]; exact ha1.ns, fun q hq' => ?_⟩
    have hc : e'.cls ≠ none := by rw [hq']; simp
    refine ⟨⟨kind, complete (tyOf s) e.ns⟩, by rw [hclasses hc]; simp, ?_⟩
    rw [ha1.ns]
    exact hq s hname0 q hq'
  refine ⟨s, hname0, w12.trans ((g2 _).toWithin.mono fun _ => trivial), ?_, fun hc => ?_, fun x hx => ?_⟩
  · rw [(g2 _).sym, hs2.sym, g1.sym, hns1]
  · rw [(g2 _).classes hc, hclasses hc]
  · rw [mem_factsOf] at hx
    obtain ⟨k, hk, hx⟩ := hx
    have hpost : (hd (Item.of c k0) st1).Has x ∨ k ∈ post := by
      rcases List.mem_append.mp hk with hk | hk
      · rw [facts_silent (silents_iff.mp hpre k hk)] at hx
        simp at hx
      · rcases List.mem_cons.mp hk with rfl | hk
        · obtain ⟨ty, ms, rfl, _, hf, _⟩ := (hdeep k (by simp)).inv hx
          simp only [Node.isPhrase, decide_eq_true_eq] at h2
          subst h2
          exact Or.inl (hhead ms (by simp) hf x hx _)
        · exact Or.inr hk
    rcases hpost with hpost | hpost
    case inl => exact hpost.within (g2 _).toWithin
    refine seq (e := e') (ks := post) (fun k hk st => (hstep k (by simp [hk]) (h4 k hk) st).toWithin) (fun k hk st ha hx => ?_) ha'
      (mem_factsOf.mpr ⟨k, hpost, hx⟩)
    obtain ⟨ty, ht, ms, rfl⟩ := find_only hx (List.all_eq_true.mp honly k (by simp [hk]))
    simp only [List.mem_cons, List.not_mem_nil, or_false] at ht
    rcases ht with rfl | rfl
    · have := h4 _ hk
      simp [Node.isPhrase] at this
    · unfold classStep
      rw [of_type, if_neg (by simpa using hne), if_pos rfl]
      obtain ⟨_, _, e2, _, hf', hd'⟩ := (hdeep _ (List.mem_append_right _ (List.mem_cons_of_mem _ hk))).inv hx
      cases e2
      obtain ⟨hb1, hb2, hb3⟩ := hbody ms hf'
      exact find_body hd' (hcalm _ (by simp [hk])) hb1 hb2 hb3 ha hx

/-! ### classes -/

theorem hasClass_none {ks : List Node} (h : hasClass ks = false) {k : Node} (hk : k ∈ ks) :
    ∀ ty ∈ typesIn k, ty.classLike = false := by
  unfold hasClass at h
  rw [List.any_eq_false] at h
  intro ty hty
  have : ty ∈ typesInAll ks := by
    clear h
    induction ks with
    | nil => simp at hk
    | cons k' ks ih =>
      rw [typesInAll]
      rcases List.mem_cons.mp hk with rfl | hk
      · exact List.mem_append_left _ hty
      · exact List.mem_append_right _ (ih hk)
  simpa using h ty this

/-- Inside a class the class is known only if there is no other class. -/
theorem calm_inside {e' : Env} {ks : List Node} {q : Option Bytes} (he' : e'.cls = if hasClass ks then none else q)
    {k : Node} (hk : k ∈ ks) (h : Calm e k) : Calm e' k := by
  refine ⟨fun ty hty hc => ?_, h.ns⟩
  rw [he']
  split
  · rfl
  · next hh =>
    rw [hasClass_none (by simpa using hh) hk ty hty] at hc
    cases hc

theorem header_empty {ms : List Node} {header : PType} (h : silents c u ms = true) (ho : own c u e header ms = []) :
    facts c u e (.phr header ms) = [] := by
  rw [facts, ho, factsOf_silent h]
  simp

/-- A name token in the header of a class. -/
theorem classHeader_name {C : Prop} {i : Nat} {doc : Option (Rng × List (Bool × Bytes))} {t : Tok} (ht : t.type = TokType.name) :
    HeadStep i (fun t ns => t.setNamespace ns) (c.tokText t) C (fun st =>
      match (Item.of c (.tok t)).tok?, (Item.of c (.tok t)).type? with
      | some t, _ =>
        if t.type = .name then
          let name := (tyOf (c.tokText t)).setNamespace st.ns
          let st := (st.nameClass i name).onTop fun s => { s with name := name.fqn }
          match doc with
          | some d => d.2.foldl (fun st m => st.add (docMember d.1 name.fqn m)) st
          | none => st
        else st
      | none, some .argumentExpressionList => (Item.of c (.tok t)).run st
      | none, some .classBaseClause => classExtends c (Item.of c (.tok t)).kids st
      | none, some .classInterfaceClause => classImplements c (Item.of c (.tok t)).kids st
      | _, _ => st) := by
  have e1 : (Item.of c (.tok t)).tok? = some t := by simp [Item.tok?, of_node]
  have hg : ∀ (d : Rng × List (Bool × Bytes)) (fqn : Bytes) (ms : List (Bool × Bytes)) (st : St),
      Grow False False st (ms.foldl (fun st m => st.add (docMember d.1 fqn m)) st) := by
    intro d fqn ms
    induction ms with
    | nil => exact fun st => .refl st
    | cons m ms ih => exact fun st => (Grow.add st _).trans (ih _)
  have hd : ∀ (fqn : Bytes) (st : St), Grow False False st (match doc with
      | some d => d.2.foldl (fun st m => st.add (docMember d.1 fqn m)) st
      | none => st) := by
    intro fqn st
    split
    · exact hg _ _ _ _
    · exact .refl _
  simp only [e1, ht, if_true]
  refine ⟨fun st => ?_, fun st => ?_, fun _ st => ?_⟩
  · refine Within.trans ?_ ((hd _ _).toWithin.mono False.elim)
    exact ((closed_grow c True False).nameClass (σ := ()) trivial st i _).trans (Within.onTop _ _ rfl rfl)
  · exact (hd _ _).sym
  · exact (hd _ _).classes not_false

theorem classHeader_step {C : Prop} {i : Nat} {doc : Option (Rng × List (Bool × Bytes))} {k : Node}
    (hg : Good C False (Grow C False) (Item.of c k))
    (h : one (fun k => (nameIn c k).isSome) k.kids = true) (hi : ∀ k' ∈ k.kids, k'.isPhrase .identifier = false) :
    ∃ s, k.kids.findSome? (nameIn c) = some s ∧
      HeadStep i (fun t ns => t.setNamespace ns) s C (classHeader c i doc (Item.of c k).kids) := by
  have H := closed_grow c C False
  unfold classHeader
  rw [of_kids]
  refine header_step h hi (fun k' hk' hn st => ?_) (fun t _ ht => classHeader_name ht)
  have hgk : Good C False (Grow C False) (Item.of c k') := hg.kids _ (by rw [of_kids]; exact List.mem_map_of_mem hk')
  have hnn := nameIn_none hn
  split
  · next ht => rw [if_neg (hnn.1 _ ht)]; exact .refl _
  · exact hgk.run st
  · exact H.classExtends hgk.kids st
  · exact H.classImplements hgk.kids st
  · exact .refl _

theorem addClassAccess_name {k : Node} (hn : k.isName = true) (st : St) :
    addClassAccess c (Item.of c k) st = st.add ⟨.classAccess, c.range k, c.nodeText k, []⟩ := by
  unfold addClassAccess newClassAccess symOf
  rw [of_node]
  have : ¬(Item.of c k).type? = some .simpleVariable := by
    rw [type_iff]
    intro hv
    cases k with
    | tok t => cases hv
    | err t => cases hv
    | phr ty ms =>
      have : ty = .simpleVariable := by simpa [Node.isPhrase] using hv
      subst this
      cases hn
  rw [if_neg this, ite_self]

/-- The names in the header of a class are found. -/
theorem has_classHeader {C : Prop} {i : Nat} {doc : Option (Rng × List (Bool × Bytes))} {ty : PType} {ks : List Node}
    (hg : ∀ k ∈ ks, Good C False (Grow C False) (Item.of c k))
    (hx : x ∈ ks.flatMap (headUse c)) (st : St) : (classHeader c i doc (Item.of c (.phr ty ks)).kids st).Has x := by
  have H := closed_grow c C False
  rw [List.mem_flatMap] at hx
  obtain ⟨k, hk, hx⟩ := hx
  rw [of_kids]
  unfold classHeader
  refine each_adds (fun k' hk' st h => ?_) (List.mem_map_of_mem hk) (fun st => ?_) st
  · obtain ⟨k'', hk'', rfl⟩ := List.mem_map.mp hk'
    have hgk := hg k'' hk''
    split
    · next t ht =>
      by_cases hn : t.type = TokType.name
      · rw [if_pos hn]
        dsimp only
        have h1 : ((st.nameClass i ((tyOf (c.tokText t)).setNamespace st.ns)).onTop
            fun s => { s with name := ((tyOf (c.tokText t)).setNamespace st.ns).fqn }).Has x :=
          has_onTop (h.within ((closed_grow c True False).nameClass (σ := ()) trivial st i _))
        split
        · next d =>
          generalize hm : d.2 = ms
          clear hm
          revert h1
          generalize (St.onTop _ _) = st2
          intro h1
          induction ms generalizing st2 with
          | nil => exact h1
          | cons m ms ih => exact ih _ (h1.grow (Grow.add (C := True) (N := True) _ _))
        · exact h1
      · rw [if_neg hn]
        exact h
    · exact h.grow (hgk.run st)
    · exact h.grow (H.classExtends hgk.kids st)
    · exact h.grow (H.classImplements hgk.kids st)
    · exact h
  · unfold headUse at hx
    split at hx
    · next ms =>
      have e2 : (Item.of c (.phr .classBaseClause ms)).tok? = none := by simp [Item.tok?, of_node]
      have e4 : (Item.of c (.phr .classBaseClause ms)).kids = ms.map (Item.of c) := of_kids ..
      rw [of_type, e2, e4]
      dsimp only
      unfold classExtends
      have e3 : (ms.map (Item.of c)).filter (fun k => k.node.isName) = (ms.filter Node.isName).map (Item.of c) := by
        rw [List.filter_map]
        congr 1
        apply List.filter_congr
        intro k _
        simp [of_node]
      rw [e3, List.getLast?_map]
      cases h : (ms.filter Node.isName).getLast? with
      | none => simp [h] at hx
      | some m =>
        simp only [h, Option.toList_some, List.map_cons, List.map_nil, List.mem_singleton] at hx
        subst hx
        rw [Option.map_some]
        dsimp only
        rw [addClassAccess_name (List.mem_filter.mp (List.mem_of_getLast? h)).2]
        exact has_add _ _
    · next ms =>
      have e2 : (Item.of c (.phr .classInterfaceClause ms)).tok? = none := by simp [Item.tok?, of_node]
      have e4 : (Item.of c (.phr .classInterfaceClause ms)).kids = ms.map (Item.of c) := of_kids ..
      rw [of_type, e2, e4]
      dsimp only
      unfold classImplements
      have e3 : (ms.map (Item.of c)).find? (fun k => decide (k.type? = some .qualifiedNameList)) =
          (ms.find? (Node.isPhrase .qualifiedNameList)).map (Item.of c) := by
        rw [List.find?_map]
        congr 1
        congr 1
        funext k
        rw [Bool.eq_iff_iff]
        simp [type_iff]
      rw [e3]
      cases h : ms.find? (Node.isPhrase .qualifiedNameList) with
      | none => simp [h] at hx
      | some l =>
        simp only [h, Option.toList_some, List.flatMap_cons, List.flatMap_nil, List.append_nil, List.mem_map, List.mem_filter] at hx
        obtain ⟨m, ⟨hm, hn⟩, rfl⟩ := hx
        rw [Option.map_some]
        dsimp only
        have hm2 : Item.of c m ∈ (Item.of c l).kids := by
          have hl := List.find?_some h
          cases l with
          | tok t => cases hl
          | err t => cases hl
          | phr ty ls =>
            rw [of_kids]
            exact List.mem_map_of_mem hm
        refine each_adds (fun k' hk' st h => ?_) hm2 (fun st => ?_) st
        · split
          · exact h.grow (Grow.add (C := True) (N := True) _ _)
          · exact h
        · rw [of_node, if_pos hn]
          exact has_add _ _
    · cases hx

theorem find_class {n : Item} {ks : List Node} (p : Parts c u e n .classDeclaration ks) (hcls : e.cls = none)
    (hf : fine c u .classDeclaration ks = true) {st : St} (ha : Agree e st)
    (hx : x ∈ facts c u e (.phr .classDeclaration ks)) : (newClass c n st).Has x := by
  simp only [fine, isExprType, Bool.not_false, Bool.true_or, Bool.true_and, Bool.and_eq_true] at hf
  obtain ⟨⟨⟨hf1, hf2⟩, hf3⟩, hf4⟩ := hf
  have hcalm : ∀ k ∈ ks, Calm (Env.enter c e .classDeclaration ks) k := fun k hk => calm_inside rfl hk (p.calm k hk)
  obtain ⟨s, hs1, hs2, hs3, hs4, hs5⟩ := find_inside (c := c) (e := e) (e' := Env.enter c e .classDeclaration ks)
    (header := .classDeclarationHeader) (body := .classDeclarationBody) (old := st.classes) (kind := .class_)
    (complete := fun t ns => t.setNamespace ns) (name0 := ⟨[], [], 0⟩)
    (hd := fun k st' => classHeader c st.classes.length ((st.addClass .class_ ⟨[], [], 0⟩).1.validDoc (c.range n.node)) k.kids st')
    p.deep hcalm (by simp) hf1 hf2 hf3 (fun k hk hp h1 h2 => classHeader_step (hcalm k hk).good h1 h2)
    (fun ms hk hm x hx st' => has_classHeader (fun k' hk' => (hcalm _ hk).good.kids _ (by rw [of_kids]; exact List.mem_map_of_mem hk'))
      (uses_only (by simpa [fine, isExprType] using hm) (by simp [own]) hx) st')
    (fun ms hm => ⟨by simpa [fine, isExprType] using hm, by simp [own, usesOf], by simp [Env.enter]⟩)
    hcls rfl rfl rfl (st0 := (st.addClass .class_ ⟨[], [], 0⟩).1.pushBlock ⟨.class_, c.range n.node, [], []⟩) rfl
    ⟨ha.scope, ha.outer, ha.ns, by rw [hcls]; simp⟩
    (by
      intro s hs q hq
      rw [hs] at hf4
      simp only [Env.enter, hs, Option.map_some] at hq
      split at hq
      · cases hq
      · injection hq with hq
        subst hq
        rw [tyOf_plain hf4, setNamespace_plain hf4, setNamespace_full]
        exact ⟨rfl, fun _ => ⟨by simp, rfl⟩⟩)
  rw [hs1] at hf4
  have e1 : newClass c n st = St.popBlock (each (classStep .classDeclarationHeader .classDeclarationBody
      (fun k st' => classHeader c st.classes.length ((st.addClass .class_ ⟨[], [], 0⟩).1.validDoc (c.range n.node)) k.kids st'))
      (ks.map (Item.of c)) ((st.addClass .class_ ⟨[], [], 0⟩).1.pushBlock ⟨.class_, c.range n.node, [], []⟩)) := by
    unfold newClass
    rw [p.kids]
    dsimp only
    congr 2
    funext k st'
    unfold classStep
    split
    · next h => rw [if_pos h]; rfl
    · next h => rw [h, if_neg (by simp), if_pos rfl]
    · next h1 h2 => rw [if_neg h1, if_neg h2]
  rw [e1]
  rw [facts, List.mem_append] at hx
  rcases hx with hx | hx
  · simp only [own, usesOf, ite_self, List.nil_append, hs1, declares, List.mem_singleton] at hx
    subst hx
    show _ ∈ St.syms _
    have := has_popBlock (st := each (classStep .classDeclarationHeader .classDeclarationBody
      (fun k st' => classHeader c st.classes.length ((st.addClass .class_ ⟨[], [], 0⟩).1.validDoc (c.range n.node)) k.kids st'))
      (ks.map (Item.of c)) ((st.addClass .class_ ⟨[], [], 0⟩).1.pushBlock ⟨.class_, c.range n.node, [], []⟩))
      (by rw [hs2.below]; simp [St.pushBlock])
    rw [hs3, tyOf_plain hf4, setNamespace_plain hf4] at this
    rw [← p.node]
    exact this
  · rw [if_neg (by simp [PType.closed])] at hx
    exact has_block hs2 (hs5 x hx)

/-! ### traits and interfaces -/

theorem nameHeader_step {C : Prop} {i : Nat} {complete : Types.Ty → Bytes → Types.Ty} {k : Node}
    (h : one (fun k => (nameIn c k).isSome) k.kids = true) (hi : ∀ k' ∈ k.kids, k'.isPhrase .identifier = false) :
    ∃ s, k.kids.findSome? (nameIn c) = some s ∧ HeadStep i complete s C (nameHeader c i complete (Item.of c k).kids) := by
  unfold nameHeader
  rw [of_kids]
  refine header_step h hi (fun k' hk' hn st => ?_) (fun t _ ht => ?_)
  · have hnn := nameIn_none hn
    split
    · next ht => rw [if_neg (hnn.1 _ ht)]; exact .refl _
    · exact .refl _
  · have e1 : (Item.of c (.tok t)).tok? = some t := by simp [Item.tok?, of_node]
    simp only [e1, ht, if_true]
    refine ⟨fun st => ?_, fun st => rfl, fun _ st => rfl⟩
    exact ((closed_grow c True False).nameClass (σ := ()) trivial st i _).trans (Within.onTop _ _ rfl rfl)

theorem find_trait {n : Item} {ks : List Node} (p : Parts c u e n .traitDeclaration ks) (hcls : e.cls = none)
    (hf : fine c u .traitDeclaration ks = true) {st : St} (ha : Agree e st)
    (hx : x ∈ facts c u e (.phr .traitDeclaration ks)) : (newTrait c n st).Has x := by
  simp only [fine, isExprType, Bool.not_false, Bool.true_or, Bool.true_and, Bool.and_eq_true] at hf
  obtain ⟨⟨⟨hf1, hf2⟩, hf3⟩, hf4⟩ := hf
  have hcalm : ∀ k ∈ ks, Calm (Env.enter c e .traitDeclaration ks) k := fun k hk => calm_inside rfl hk (p.calm k hk)
  obtain ⟨s, hs1, hs2, hs3, hs4, hs5⟩ := find_inside (c := c) (e := e) (e' := Env.enter c e .traitDeclaration ks)
    (header := .traitDeclarationHeader) (body := .traitDeclarationBody) (old := st.classes) (kind := .trait_)
    (complete := fun t ns => t.setNamespace ns) (name0 := ⟨[], [], 0⟩)
    (hd := fun k st' => nameHeader c st.classes.length (fun t ns => t.setNamespace ns) k.kids st')
    p.deep hcalm (by simp) hf1 hf2 hf3 (fun k hk hp h1 h2 => nameHeader_step h1 h2)
    (fun ms _ hm x hx => by
      rw [header_empty (by simpa [fine, isExprType] using hm) (by simp [own, usesOf])] at hx
      cases hx)
    (fun ms hm => ⟨by simpa [fine, isExprType] using hm, by simp [own, usesOf], by simp [Env.enter]⟩)
    hcls rfl rfl rfl (st0 := (st.addClass .trait_ ⟨[], [], 0⟩).1.pushBlock ⟨.trait_, c.range n.node, [], []⟩) rfl
    ⟨ha.scope, ha.outer, ha.ns, by rw [hcls]; simp⟩
    (by
      intro s hs q hq
      rw [hs] at hf4
      simp only [Env.enter, hs, Option.map_some] at hq
      split at hq
      · cases hq
      · injection hq with hq
        subst hq
        rw [tyOf_plain hf4, setNamespace_plain hf4, setNamespace_full]
        exact ⟨rfl, fun _ => ⟨by simp, rfl⟩⟩)
  rw [hs1] at hf4
  have e1 : newTrait c n st = St.popBlock (each (classStep .traitDeclarationHeader .traitDeclarationBody
      (fun k st' => nameHeader c st.classes.length (fun t ns => t.setNamespace ns) k.kids st'))
      (ks.map (Item.of c)) ((st.addClass .trait_ ⟨[], [], 0⟩).1.pushBlock ⟨.trait_, c.range n.node, [], []⟩)) := by
    unfold newTrait
    rw [p.kids]
    dsimp only
    congr 2
    funext k st'
    unfold classStep
    split
    · next h => rw [if_pos h]; rfl
    · next h => rw [h, if_neg (by simp), if_pos rfl]
    · next h1 h2 => rw [if_neg h1, if_neg h2]
  rw [e1]
  rw [facts, List.mem_append] at hx
  rcases hx with hx | hx
  · simp only [own, usesOf, ite_self, List.nil_append, hs1, declares, List.mem_singleton] at hx
    subst hx
    show _ ∈ St.syms _
    have := has_popBlock (st := each (classStep .traitDeclarationHeader .traitDeclarationBody
      (fun k st' => nameHeader c st.classes.length (fun t ns => t.setNamespace ns) k.kids st'))
      (ks.map (Item.of c)) ((st.addClass .trait_ ⟨[], [], 0⟩).1.pushBlock ⟨.trait_, c.range n.node, [], []⟩))
      (by rw [hs2.below]; simp [St.pushBlock])
    rw [hs3, tyOf_plain hf4, setNamespace_plain hf4] at this
    rw [← p.node]
    exact this
  · rw [if_neg (by simp [PType.closed])] at hx
    exact has_block hs2 (hs5 x hx)

theorem find_interface {n : Item} {ks : List Node} (p : Parts c u e n .interfaceDeclaration ks) (hcls : e.cls = none)
    (hf : fine c u .interfaceDeclaration ks = true) {st : St} (ha : Agree e st)
    (hx : x ∈ facts c u e (.phr .interfaceDeclaration ks)) : (newInterface c n st).Has x := by
  simp only [fine, isExprType, Bool.not_false, Bool.true_or, Bool.true_and, Bool.and_eq_true, Bool.not_eq_true'] at hf
  obtain ⟨⟨⟨⟨hf1, hfc⟩, hf2⟩, hf3⟩, hf4⟩ := hf
  have hcalm : ∀ k ∈ ks, Calm (Env.enter c e .interfaceDeclaration ks) k := fun k hk => calm_inside rfl hk (p.calm k hk)
  obtain ⟨s, hs1, hs2, hs3, hs4, hs5⟩ := find_inside (c := c) (e := e) (e' := Env.enter c e .interfaceDeclaration ks)
    (header := .interfaceDeclarationHeader) (body := .interfaceDeclarationBody) (old := st.classes) (kind := .interface_)
    (complete := fun t _ => t) (name0 := ⟨[], [], 0⟩)
    (hd := fun k st' => nameHeader c st.classes.length (fun t _ => t) k.kids st')
    p.deep hcalm (by simp) hf1 hf2 hf3 (fun k hk hp h1 h2 => nameHeader_step h1 h2)
    (fun ms _ hm x hx => by
      rw [header_empty (by simpa [fine, isExprType] using hm) (by simp [own, usesOf])] at hx
      cases hx)
    (fun ms hm => ⟨by simpa [fine, isExprType] using hm, by simp [own, usesOf], by simp [Env.enter]⟩)
    hcls rfl rfl rfl (st0 := (st.addClass .interface_ ⟨[], [], 0⟩).1.pushBlock ⟨.interface_, c.range n.node, [], []⟩) rfl
    ⟨ha.scope, ha.outer, ha.ns, by rw [hcls]; simp⟩
    (by
      intro s hs q hq
      rw [hs] at hf4
      simp only [Env.enter, hs, Option.map_some, hfc] at hq
      injection hq with hq
      subst hq
      rw [tyOf_plain hf4, setNamespace_plain hf4]
      exact ⟨rfl, fun h => by simp [Env.enter] at h⟩)
  rw [hs1] at hf4
  have hs4 := hs4 (by simp [Env.enter, hs1, hfc])
  have e1 : newInterface c n st =
      let st1 := each (classStep .interfaceDeclarationHeader .interfaceDeclarationBody
        (fun k st' => nameHeader c st.classes.length (fun t _ => t) k.kids st'))
        (ks.map (Item.of c)) ((st.addClass .interface_ ⟨[], [], 0⟩).1.pushBlock ⟨.interface_, c.range n.node, [], []⟩)
      let name : Types.Ty := ((st1.classes[st.classes.length]?.map fun (x : Cls) => x.name).getD ⟨[], [], 0⟩).setNamespace st1.ns
      ((st1.nameClass st.classes.length name).onTop fun s => { s with name := name.fqn }).popBlock := by
    have e2 : classStep .interfaceDeclarationHeader .interfaceDeclarationBody
        (fun k st' => nameHeader c st.classes.length (fun t _ => t) k.kids st') = (fun k st' =>
          match k.type? with
          | some .interfaceDeclarationHeader => nameHeader c (st.addClass .interface_ ⟨[], [], 0⟩).2 (fun t _ => t) k.kids st'
          | some .interfaceDeclarationBody => scanForChildren k st'
          | _ => st') := by
      funext k st'
      unfold classStep
      split
      · next h => rw [h]; rfl
      · next h1 =>
        split
        · next h2 => rw [h2]
        · next h2 =>
          split
          · exact absurd ‹_› h1
          · exact absurd ‹_› h2
          · rfl
    rw [e2]
    unfold newInterface
    rw [p.kids]
    rfl
  rw [e1]
  dsimp only
  generalize hst1 : each (classStep .interfaceDeclarationHeader .interfaceDeclarationBody
    (fun k st' => nameHeader c st.classes.length (fun t _ => t) k.kids st'))
    (ks.map (Item.of c)) ((st.addClass .interface_ ⟨[], [], 0⟩).1.pushBlock ⟨.interface_, c.range n.node, [], []⟩) = st1 at *
  have hw : Within True False ((st.addClass .interface_ ⟨[], [], 0⟩).1.pushBlock ⟨.interface_, c.range n.node, [], []⟩)
      ((st1.nameClass st.classes.length (((st1.classes[st.classes.length]?.map fun (x : Cls) => x.name).getD ⟨[], [], 0⟩).setNamespace st1.ns)).onTop
        fun s => { s with name := (((st1.classes[st.classes.length]?.map fun (x : Cls) => x.name).getD ⟨[], [], 0⟩).setNamespace st1.ns).fqn }) :=
    hs2.trans (((closed_grow c True False).nameClass (σ := ()) trivial st1 _ _).trans (Within.onTop _ _ rfl rfl))
  rw [facts, List.mem_append] at hx
  rcases hx with hx | hx
  · simp only [own, usesOf, ite_self, List.nil_append, hs1, declares, List.mem_singleton] at hx
    subst hx
    show _ ∈ St.syms _
    have := has_popBlock (st := (st1.nameClass st.classes.length (((st1.classes[st.classes.length]?.map fun (x : Cls) => x.name).getD ⟨[], [], 0⟩).setNamespace st1.ns)).onTop
        fun s => { s with name := (((st1.classes[st.classes.length]?.map fun (x : Cls) => x.name).getD ⟨[], [], 0⟩).setNamespace st1.ns).fqn })
      (by rw [hw.below]; simp [St.pushBlock])
    have e3 : ((st1.classes[st.classes.length]?.map fun (x : Cls) => x.name).getD ⟨[], [], 0⟩) = tyOf s := by
      rw [hs4]; simp
    rw [e3] at this ⊢
    have e4 : st1.ns = e.ns := (hs2.ns not_false).trans ha.ns
    have e5 : ((st1.nameClass st.classes.length ((tyOf s).setNamespace st1.ns)).onTop
        fun s' => { s' with name := ((tyOf s).setNamespace st1.ns).fqn }).top.sym =
        ⟨.interface_, c.range (.phr .interfaceDeclaration ks), fullName e.ns s, []⟩ := by
      show ({ st1.top.sym with name := _ } : Sym) = _
      rw [hs3, e4, tyOf_plain hf4, setNamespace_plain hf4, p.node]
      rfl
    rw [e5] at this
    exact this
  · rw [if_neg (by simp [PType.closed])] at hx
    refine has_block hw ?_
    exact hs5 x hx

/-! ### anonymous classes -/

theorem find_anonymousClass {n : Item} {ks : List Node} (p : Parts c u e n .anonymousClassDeclaration ks) (hcls : e.cls = none)
    (hf : fine c u .anonymousClassDeclaration ks = true) {st : St} (ha : Agree e st)
    (hx : x ∈ facts c u e (.phr .anonymousClassDeclaration ks)) : (newAnonymousClass c n st).Has x := by
  simp only [fine, isExprType, Bool.not_false, Bool.true_or, Bool.true_and, Bool.and_eq_true] at hf
  obtain ⟨⟨hf1, hf2⟩, hf3⟩ := hf
  have hcalm : ∀ k ∈ ks, Calm (Env.enter c e .anonymousClassDeclaration ks) k := fun k hk => calm_inside rfl hk (p.calm k hk)
  have hname : (tyOf (c.anonName (c.range n.node).start)).setNamespace st.ns =
      ⟨fullName e.ns (c.anonName (c.range (.phr .anonymousClassDeclaration ks)).start), c.anonName (c.range n.node).start, 0⟩ := by
    rw [p.node, tyOf_plain hf3, setNamespace_plain hf3, ha.ns]
  unfold newAnonymousClass
  rw [hname, p.kids]
  dsimp only
  generalize hq : fullName e.ns (c.anonName (c.range (.phr .anonymousClassDeclaration ks)).start) = q
  generalize ho : c.anonName (c.range n.node).start = o
  generalize hdoc : (st.addClass .class_ ⟨q, o, 0⟩).1.validDoc (c.range n.node) = doc
  have hst0 : Agree (Env.enter c e .anonymousClassDeclaration ks)
      ((st.addClass .class_ ⟨q, o, 0⟩).1.pushBlock ⟨.class_, c.range n.node, q, []⟩) := by
    refine ⟨ha.scope, ha.outer, ha.ns, fun q' hq' => ?_⟩
    simp only [Env.enter] at hq'
    split at hq'
    · cases hq'
    · injection hq' with hq'
      subst hq'
      refine ⟨⟨.class_, ⟨q, o, 0⟩⟩, by simp [St.addClass, St.pushBlock], ?_⟩
      rw [← hq, setNamespace_full]
      exact ⟨rfl, fun _ => ⟨by simp, rfl⟩⟩
  have H := hst c (Env.enter c e .anonymousClassDeclaration ks)
  have hnone : ∀ k ∈ ks, k.isPhrase .anonymousClassDeclarationHeader = true → ∀ m ∈ k.kids, (nameIn c m).isSome = false := by
    intro k hk ht m hm
    have := List.all_eq_true.mp hf2 k hk
    rw [ht, Bool.not_true, Bool.false_or] at this
    have := List.all_eq_true.mp this m hm
    simpa using this
  have hfold : ∀ k ∈ ks, k.isPhrase .anonymousClassDeclarationHeader = true → ∀ st',
      Stay (Env.enter c e .anonymousClassDeclaration ks) st' (classHeader c st.classes.length doc (Item.of c k).kids st') := by
    intro k hk ht st'
    unfold classHeader
    refine (stay_pre _).each (fun m hm st' => ?_) st'
    have hgk := (hcalm k hk).good.kids m hm
    rw [of_kids] at hm
    obtain ⟨m, hm', rfl⟩ := List.mem_map.mp hm
    have hnn := nameIn_none (hnone k hk ht m hm')
    split
    · next ht => rw [if_neg (hnn.1 _ ht)]; exact .refl _
    · exact hgk.run st'
    · exact H.classExtends hgk.kids st'
    · exact H.classImplements hgk.kids st'
    · exact .refl _
  have hstep : ∀ k ∈ ks, ∀ st', Stay (Env.enter c e .anonymousClassDeclaration ks) st' (match (Item.of c k).type? with
      | some .anonymousClassDeclarationHeader => classHeader c st.classes.length doc (Item.of c k).kids st'
      | some .classDeclarationBody => scanForChildren (Item.of c k) st'
      | _ => st') := by
    intro k hk st'
    split
    · next ht => exact hfold k hk ((type_iff c k _).mp ht) st'
    · exact H.scanForChildren (hcalm k hk).good.kids st'
    · exact .refl _
  have hw : Stay (Env.enter c e .anonymousClassDeclaration ks)
      ((st.addClass .class_ ⟨q, o, 0⟩).1.pushBlock ⟨.class_, c.range n.node, q, []⟩)
      (each (fun k st' => match k.type? with
        | some .anonymousClassDeclarationHeader => classHeader c st.classes.length doc k.kids st'
        | some .classDeclarationBody => scanForChildren k st'
        | _ => st') (ks.map (Item.of c)) ((st.addClass .class_ ⟨q, o, 0⟩).1.pushBlock ⟨.class_, c.range n.node, q, []⟩)) := by
    refine (stay_pre _).each (fun k hk st' => ?_) _
    obtain ⟨k', hk', rfl⟩ := List.mem_map.mp hk
    exact hstep k' hk' st'
  rw [facts, List.mem_append] at hx
  rcases hx with hx | hx
  · simp only [own, usesOf, ite_self, List.nil_append, declares, List.mem_singleton] at hx
    subst hx
    show _ ∈ St.syms _
    have h1 := has_popBlock (st := each (fun k st' => match k.type? with
        | some .anonymousClassDeclarationHeader => classHeader c st.classes.length doc k.kids st'
        | some .classDeclarationBody => scanForChildren k st'
        | _ => st') (ks.map (Item.of c)) ((st.addClass .class_ ⟨q, o, 0⟩).1.pushBlock ⟨.class_, c.range n.node, q, []⟩))
      (by rw [hw.below]; simp [St.pushBlock])
    rw [hw.sym] at h1
    rw [hq, ← p.node]
    exact h1
  · rw [if_neg (by simp [PType.closed])] at hx
    refine has_block hw.toWithin ?_
    refine seq (e := Env.enter c e .anonymousClassDeclaration ks) (fun k hk st' => (hstep k hk st').toWithin)
      (fun k hk st' ha' hx' => ?_) hst0 hx
    obtain ⟨ty', ht, ms, rfl⟩ := find_only hx' (List.all_eq_true.mp hf1 k hk)
    simp only [List.mem_cons, List.not_mem_nil, or_false] at ht
    rw [of_type]
    obtain ⟨_, _, e1, _, hf', hd'⟩ := (p.deep _ hk).inv hx'
    cases e1
    rcases ht with rfl | rfl
    · dsimp only
      have hf' : ms.all (only c u [.argumentExpressionList]) = true := by simpa [fine, isExprType] using hf'
      by_cases hu : x ∈ ms.flatMap (headUse c)
      · exact has_classHeader (fun k' hk' => (hcalm _ hk).good.kids _ (by rw [of_kids]; exact List.mem_map_of_mem hk')) hu st'
      have hx' : x ∈ factsOf c u (Env.enter c e .anonymousClassDeclaration ks) ms := by
        rw [facts, List.mem_append, if_neg (by simp [PType.closed])] at hx'
        rcases hx' with hx' | hx'
        · refine absurd ?_ hu
          simp only [own, usesOf, List.append_nil] at hx'
          split at hx'
          · exact hx'
          · cases hx'
        · exact hx'
      unfold classHeader
      rw [of_kids]
      refine seq (e := Env.enter c e .anonymousClassDeclaration ks) (fun m hm st' => ?_) (fun m hm st' ha' hx' => ?_) ha' hx'
      · have hgk := (hcalm _ hk).good (c := c) |>.kids (Item.of c m) (by rw [of_kids]; exact List.mem_map_of_mem hm)
        have hnn := nameIn_none (hnone _ hk (by simp [Node.isPhrase]) m hm)
        refine Grow.toWithin (C := (Env.enter c e .anonymousClassDeclaration ks).cls = none) (N := False) ?_
        split
        · next ht => rw [if_neg (hnn.1 _ ht)]; exact .refl _
        · exact hgk.run st'
        · exact H.classExtends hgk.kids st'
        · exact H.classImplements hgk.kids st'
        · exact .refl _
      · obtain ⟨ty', ht, ms', rfl⟩ := find_only hx' (List.all_eq_true.mp hf' m hm)
        simp only [List.mem_cons, List.not_mem_nil, or_false] at ht
        subst ht
        have e2 : (Item.of c (.phr .argumentExpressionList ms')).tok? = none := by simp [Item.tok?, of_node]
        rw [of_type, e2]
        dsimp only
        exact (hd' _ hm).run (by simp [place, PType.runs]) ((hcalm _ hk).kid hm) ha' hx'
    · dsimp only
      exact find_body hd' (hcalm _ hk) (by simpa [fine, isExprType] using hf') (by simp [own, usesOf]) (by simp [Env.enter]) ha' hx'

end Verif.Analyser
