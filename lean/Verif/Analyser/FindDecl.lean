import Verif.Analyser.FindClass

/-!
Properties, constants, `define` and `global`.
-/

namespace Verif.Analyser
open Verif.Symbols (Tree Var Rec)

variable {c : Ctx} {u : Bool} {e : Env} {x : Fact}

/-! ### properties -/

theorem find_property {k : Node} (hd : Deep c u k) (hc : Calm e k) (ht : k.isPhrase .propertyElement = true) {st : St} (ha : Agree e st)
    (hx : x ∈ facts c u e k) : (newProperty c (Item.of c k) st).Has x := by
  obtain ⟨ty, ks, rfl, _, hf, hds⟩ := hd.inv hx
  simp only [Node.isPhrase, decide_eq_true_eq] at ht
  subst ht
  simp only [fine, isExprType, Bool.not_false, Bool.true_or, Bool.true_and, Bool.and_eq_true] at hf
  have H := hst c e
  obtain ⟨k0, h1, h2, h3, h4⟩ := fold_one (c := c) (β := Bytes) (γ := Bytes) (π := id)
    (g := fun r k =>
      match k.tok? with
      | some t => if t.type = .variableName then c.tokText t else r
      | none => r)
    (f := fun k _ => c.nodeText k) hf.2
    (by
      intro k _ hk r
      cases k with
      | tok t =>
        have e1 : (Item.of c (.tok t)).tok? = some t := by simp [Item.tok?, of_node]
        simp only [id, e1]
        rw [if_neg]
        intro ht
        simp [varTok, ht] at hk
      | err t => simp [Item.tok?, of_node]
      | phr ty ks => simp [Item.tok?, of_node])
    (by
      intro k _ hk r
      obtain ⟨t, rfl, ht⟩ := varTok_isSome hk
      simp [Item.tok?, of_node, ht, Ctx.nodeText])
  obtain ⟨t, rfl, ht⟩ := varTok_isSome h2
  have e0 : newProperty c (Item.of c (.phr .propertyElement ks)) st =
      (each (fun k st => if k.type? = some .propertyInitialiser then scanForChildren k st else st) (ks.map (Item.of c)) st).add
        ⟨.property, c.range (.phr .propertyElement ks), c.nodeText (.tok t), st.propertyScope⟩ := by
    unfold newProperty
    rw [of_node, of_kids]
    have h5 : ∀ {a b : Bytes} {S : St}, a = b → S.add ⟨.property, c.range (.phr .propertyElement ks), a, st.propertyScope⟩ =
        S.add ⟨.property, c.range (.phr .propertyElement ks), b, st.propertyScope⟩ := by
      rintro _ _ _ rfl; rfl
    exact h5 (h4 [])
  rw [e0]
  rw [facts, List.mem_append] at hx
  rcases hx with hx | hx
  · have hname : ks.findSome? varTok = some t := by
      rw [findSome_one (p := fun k => (varTok k).isSome) (fun k hk => by simpa using hk) h3]
      simp [varTok, ht]
    simp only [own, usesOf, ite_self, List.nil_append, hname, Option.map_some, declaresMember] at hx
    split at hx
    · cases hx
    · next hi =>
      have hsym := has_add (each (fun k st => if k.type? = some .propertyInitialiser then scanForChildren k st else st)
        (ks.map (Item.of c)) st) ⟨.property, c.range (.phr .propertyElement ks), c.nodeText (.tok t), st.propertyScope⟩
      rcases List.mem_cons.mp hx with rfl | hx
      · exact ⟨_, hsym, rfl, rfl, rfl⟩
      · split at hx
        · next q hq =>
          rw [List.mem_singleton] at hx
          subst hx
          obtain ⟨y, hy1, _, hy3⟩ := ha.cls q hq
          obtain ⟨hy4, hy5⟩ := hy3 (by simpa using hi)
          have : st.propertyScope = q := by
            unfold St.propertyScope
            rw [hy1]
            dsimp only
            rw [if_neg hy4, hy5]
          rw [this] at hsym
          rw [this]
          exact hsym
        · cases hx
  · rw [if_neg (by simp [PType.closed])] at hx
    simp only [Env.enter] at hx
    refine St.Has.grow ?_ (Grow.add (C := True) (N := True) _ _)
    refine seq (fun k hk st => ((stay_pre e).ite fun _ => H.scanForChildren (hc.kid hk).good.kids st).toWithin) (fun k hk st ha hx => ?_) ha hx
    have ht := only_one hx (List.all_eq_true.mp hf.1 k hk)
    rw [if_pos ((type_iff c k _).mpr ht)]
    obtain ⟨ty, ms, rfl, _, hf', hd'⟩ := (hds k hk).inv hx
    simp only [Node.isPhrase, decide_eq_true_eq] at ht
    subst ht
    exact find_body hd' (hc.kid hk) (by simpa [fine, isExprType] using hf') (by simp [own, usesOf]) (by simp [Env.enter]) ha hx

theorem find_propertyDeclaration {n : Item} {ks : List Node} (p : Parts c u e n .propertyDeclaration ks)
    (hf : fine c u .propertyDeclaration ks = true) {st : St} (ha : Agree e st)
    (hx : x ∈ facts c u e (.phr .propertyDeclaration ks)) : (newPropertyDeclaration c n st).Has x := by
  have hf : ks.all (only c u [.propertyElementList]) = true := by simpa [fine, isExprType] using hf
  have H := hst c e
  have hx := facts_inside hx (by simp [own, usesOf]) (by simp [Env.enter])
  unfold newPropertyDeclaration
  rw [p.kids]
  have hg : ∀ k ∈ ks, ∀ st, Stay e st (each (fun k st => if k.type? = some .propertyElement then newProperty c k st else st) (Item.of c k).kids st) :=
    fun k hk st => (stay_pre e).each (fun m hm st => (stay_pre e).ite fun ht => H.newProperty ((p.calm k hk).good.kids m hm) ht st) st
  refine seq (fun k hk st => ((stay_pre e).ite fun _ => hg k hk st).toWithin) (fun k hk st ha hx => ?_) ha hx
  have ht := only_one hx (List.all_eq_true.mp hf k hk)
  rw [if_pos ((type_iff c k _).mpr ht)]
  obtain ⟨ty, ms, rfl, _, hf', hd'⟩ := (p.deep k hk).inv hx
  simp only [Node.isPhrase, decide_eq_true_eq] at ht
  subst ht
  have hf' : ms.all (only c u [.propertyElement]) = true := by simpa [fine, isExprType] using hf'
  rw [of_kids]
  refine seq (fun m hm st => ((stay_pre e).ite fun ht => H.newProperty (((p.calm _ hk).kid hm).good) ht st).toWithin)
    (fun m hm st ha hx => ?_) ha (facts_inside hx (by simp [own, usesOf]) (by simp [Env.enter]))
  have ht := only_one hx (List.all_eq_true.mp hf' m hm)
  rw [if_pos ((type_iff c m _).mpr ht)]
  exact find_property (hd' m hm) ((p.calm _ hk).kid hm) ht ha hx

/-! ### constants of classes -/

theorem classConstLoop_name {ks : List Node} {eq : Bool} (hf : constFine c u eq ks = true) (name : Bytes) (st : St) :
    (classConstLoop c (ks.map (Item.of c)) eq name st).2 =
      (((ks.filter fun k => k.isPhrase .identifier).getLast?).map c.nodeText).getD name := by
  induction ks generalizing eq name st with
  | nil => simp [classConstLoop]
  | cons k ks ih =>
    rw [List.map_cons, classConstLoop]
    cases k with
    | tok t =>
      have e1 : (Item.of c (.tok t)).tok? = some t := by simp [Item.tok?, of_node]
      rw [e1]
      dsimp only
      rw [ih (by simpa [constFine] using hf), List.filter_cons_of_neg (by simp [Node.isPhrase])]
    | err t =>
      have e1 : (Item.of c (.err t)).tok? = none := by simp [Item.tok?, of_node]
      have e2 : (Item.of c (.err t)).type? = none := by simp [Item.type?, of_node]
      rw [e1, e2]
      dsimp only
      rw [ih (by simpa [constFine] using hf), List.filter_cons_of_neg (by simp [Node.isPhrase])]
    | phr ty ms =>
      have e1 : (Item.of c (.phr ty ms)).tok? = none := by simp [Item.tok?, of_node]
      rw [e1, of_type]
      dsimp only
      rw [constFine, Bool.and_eq_true] at hf
      cases eq with
      | true =>
        rw [if_pos rfl, ih hf.2, List.filter_cons_of_neg]
        have := hf.1
        simp only [if_true, Bool.and_eq_true, bne_iff_ne] at this
        simpa [Node.isPhrase] using this.2
      | false =>
        rw [if_neg (by simp), ih hf.2]
        by_cases ht : ty = .identifier
        · subst ht
          rw [List.filter_cons_of_pos (by simp [Node.isPhrase]), if_pos rfl, of_node]
          rw [List.getLast?_cons]
          cases (List.filter (fun k => k.isPhrase .identifier) ks).getLast? <;> simp
        · rw [if_neg ht, List.filter_cons_of_neg (by simpa [Node.isPhrase] using ht)]

theorem find_classConstLoop {ks : List Node} {eq : Bool} (hd : ∀ k ∈ ks, Deep c u k) (hc : ∀ k ∈ ks, Calm e k)
    (hf : constFine c u eq ks = true) (name : Bytes) {st : St} (ha : Agree e st) (hx : x ∈ factsOf c u e ks) :
    (classConstLoop c (ks.map (Item.of c)) eq name st).1.Has x := by
  have H := hst c e
  induction ks generalizing eq name st with
  | nil => simp [factsOf] at hx
  | cons k ks ih =>
    rw [List.map_cons, classConstLoop]
    rw [factsOf, List.mem_append] at hx
    cases k with
    | tok t =>
      have e1 : (Item.of c (.tok t)).tok? = some t := by simp [Item.tok?, of_node]
      rw [e1]
      dsimp only
      rw [constFine] at hf
      exact ih (fun k hk => hd k (by simp [hk])) (fun k hk => hc k (by simp [hk])) hf name ha (by simpa [facts] using hx)
    | err t =>
      have e1 : (Item.of c (.err t)).tok? = none := by simp [Item.tok?, of_node]
      have e2 : (Item.of c (.err t)).type? = none := by simp [Item.type?, of_node]
      rw [e1, e2]
      dsimp only
      rw [constFine] at hf
      exact ih (fun k hk => hd k (by simp [hk])) (fun k hk => hc k (by simp [hk])) hf name ha (by simpa [facts] using hx)
    | phr ty ms =>
      have e1 : (Item.of c (.phr ty ms)).tok? = none := by simp [Item.tok?, of_node]
      rw [e1, of_type]
      dsimp only
      rw [constFine, Bool.and_eq_true] at hf
      cases eq with
      | true =>
        rw [if_pos rfl]
        have h1 := hf.1
        rw [if_pos rfl, Bool.and_eq_true] at h1
        have hr : Stay e st ((Item.of c (.phr ty ms)).run st) := (hc _ (by simp)).good.run st
        rcases hx with hx | hx
        · refine St.Has.grow ((hd _ (by simp)).run h1.1 (hc _ (by simp)) ha hx) (H.classConstLoop (σ := ()) _ (fun k hk => ?_) _ _ _)
          obtain ⟨k', hk', rfl⟩ := List.mem_map.mp hk
          exact (hc k' (by simp [hk'])).good
        · exact ih (fun k hk => hd k (by simp [hk])) (fun k hk => hc k (by simp [hk])) hf.2 name (ha.stay hr) hx
      | false =>
        rw [if_neg (by simp)]
        have h1 := hf.1
        rw [if_neg (by simp)] at h1
        rw [facts_silent h1] at hx
        exact ih (fun k hk => hd k (by simp [hk])) (fun k hk => hc k (by simp [hk])) hf.2 _ ha (by simpa using hx)

theorem Agree.lastClass {st : St} (ha : Agree e st) {q : Bytes} (hq : e.cls = some q) : st.lastClassFQN = q := by
  obtain ⟨y, hy1, hy2, _⟩ := ha.cls q hq
  unfold St.lastClassFQN
  rw [hy1]
  exact hy2

theorem find_classConst {k : Node} (hd : Deep c u k) (hc : Calm e k) (ht : k.isPhrase .classConstElement = true) {st : St}
    (ha : Agree e st) (hx : x ∈ facts c u e k) : (newClassConst c (Item.of c k) st).Has x := by
  obtain ⟨ty, ks, rfl, _, hf, hds⟩ := hd.inv hx
  simp only [Node.isPhrase, decide_eq_true_eq] at ht
  subst ht
  simp only [fine, isExprType, Bool.not_false, Bool.true_or, Bool.true_and, Bool.and_eq_true] at hf
  obtain ⟨⟨hf1, hf2⟩, hf3⟩ := hf
  unfold newClassConst
  rw [of_kids, of_node]
  dsimp only
  rw [show (Node.phr .classConstElement ks).kids = ks from rfl, classConstLoop_name hf1]
  rw [facts, List.mem_append] at hx
  rcases hx with hx | hx
  · obtain ⟨pre, k0, post, rfl, h2, h3, h4⟩ := one_split hf2
    have e1 : (pre ++ k0 :: post).filter (fun k => k.isPhrase .identifier) = [k0] := by
      rw [List.filter_append, List.filter_cons_of_pos h2, List.filter_eq_nil_iff.mpr (fun k hk => by simp [h3 k hk]),
        List.filter_eq_nil_iff.mpr (fun k hk => by simp [h4 k hk])]
      rfl
    have hk0 : nameIn c k0 = some (c.nodeText k0) := by
      cases k0 with
      | tok t => simp [Node.isPhrase] at h2
      | err t => simp [Node.isPhrase] at h2
      | phr ty ms =>
        simp only [Node.isPhrase, decide_eq_true_eq] at h2
        subst h2
        rfl
    have hname : (pre ++ k0 :: post).findSome? (nameIn c) = some (c.nodeText k0) := by
      obtain ⟨pre', k1, post', e2, g2, g3, g4⟩ := one_split hf3
      have hm : k0 ∈ pre' ++ k1 :: post' := by rw [← e2]; simp
      have hk1 : k1 = k0 := by
        rcases List.mem_append.mp hm with hm | hm
        · have := g3 k0 hm
          rw [hk0] at this
          cases this
        · rcases List.mem_cons.mp hm with rfl | hm
          · rfl
          · have := g4 k0 hm
            rw [hk0] at this
            cases this
      subst hk1
      rw [e2, List.findSome?_append, List.findSome?_eq_none_iff.mpr (fun k hk => by simpa using g3 k hk)]
      simp [hk0]
    rw [e1]
    simp only [own, usesOf, ite_self, List.nil_append, hname, declaresMember, List.getLast?_singleton, Option.map_some, Option.getD_some] at hx ⊢
    have hsym := has_add (classConstLoop c ((pre ++ k0 :: post).map (Item.of c)) false [] st).1
      ⟨.classConst, c.range (.phr .classConstElement (pre ++ k0 :: post)), c.nodeText k0, st.lastClassFQN⟩
    rcases List.mem_cons.mp hx with rfl | hx
    · exact ⟨_, hsym, rfl, rfl, rfl⟩
    · split at hx
      · next q hq =>
        rw [List.mem_singleton] at hx
        subst hx
        rw [ha.lastClass hq] at hsym ⊢
        exact hsym
      · cases hx
  · rw [if_neg (by simp [PType.closed])] at hx
    simp only [Env.enter] at hx
    refine St.Has.grow ?_ (Grow.add (C := True) (N := True) _ _)
    exact find_classConstLoop hds (fun k hk => hc.kid hk) hf1 _ ha hx

theorem find_classConstDeclaration {n : Item} {ks : List Node} (p : Parts c u e n .classConstDeclaration ks)
    (hf : fine c u .classConstDeclaration ks = true) {st : St} (ha : Agree e st)
    (hx : x ∈ facts c u e (.phr .classConstDeclaration ks)) : (newClassConstDeclaration c n st).Has x := by
  have hf : ks.all (only c u [.classConstElementList]) = true := by simpa [fine, isExprType] using hf
  have H := hst c e
  have hx := facts_inside hx (by simp [own, usesOf]) (by simp [Env.enter])
  unfold newClassConstDeclaration
  rw [p.kids]
  have hg : ∀ k ∈ ks, ∀ st, Stay e st (each (fun k st => if k.type? = some .classConstElement then newClassConst c k st else st) (Item.of c k).kids st) :=
    fun k hk st => (stay_pre e).each (fun m hm st => (stay_pre e).ite fun ht => H.newClassConst ((p.calm k hk).good.kids m hm) ht st) st
  refine seq (fun k hk st => ((stay_pre e).ite fun _ => hg k hk st).toWithin) (fun k hk st ha hx => ?_) ha hx
  have ht := only_one hx (List.all_eq_true.mp hf k hk)
  rw [if_pos ((type_iff c k _).mpr ht)]
  obtain ⟨ty, ms, rfl, _, hf', hd'⟩ := (p.deep k hk).inv hx
  simp only [Node.isPhrase, decide_eq_true_eq] at ht
  subst ht
  have hf' : ms.all (only c u [.classConstElement]) = true := by simpa [fine, isExprType] using hf'
  rw [of_kids]
  refine seq (fun m hm st => ((stay_pre e).ite fun ht => H.newClassConst (((p.calm _ hk).kid hm).good) ht st).toWithin)
    (fun m hm st ha hx => ?_) ha (facts_inside hx (by simp [own, usesOf]) (by simp [Env.enter]))
  have ht := only_one hx (List.all_eq_true.mp hf' m hm)
  rw [if_pos ((type_iff c m _).mpr ht)]
  exact find_classConst (hd' m hm) ((p.calm _ hk).kid hm) ht ha hx

/-! ### constants -/

theorem find_constDeclaration {n : Item} {ks : List Node} (p : Parts c u e n .constDeclaration ks)
    (hf : fine c u .constDeclaration ks = true) {st : St} (ha : Agree e st)
    (hx : x ∈ facts c u e (.phr .constDeclaration ks)) : (newConstDeclaration n st).Has x := by
  have hf : ks.all (only c u [.constElementList]) = true := by simpa [fine, isExprType] using hf
  have H := hst c e
  have hx := facts_inside hx (by simp [own, usesOf]) (by simp [Env.enter])
  unfold newConstDeclaration
  rw [p.kids]
  refine seq (fun k hk st => ((stay_pre e).ite fun _ => H.scanForChildren (p.calm k hk).good.kids st).toWithin) (fun k hk st ha hx => ?_) ha hx
  have ht := only_one hx (List.all_eq_true.mp hf k hk)
  rw [if_pos ((type_iff c k _).mpr ht)]
  obtain ⟨ty, ms, rfl, _, hf', hd'⟩ := (p.deep k hk).inv hx
  simp only [Node.isPhrase, decide_eq_true_eq] at ht
  subst ht
  exact find_body hd' (p.calm _ hk) (by simpa [fine, isExprType] using hf') (by simp [own, usesOf]) (by simp [Env.enter]) ha hx

theorem find_const {n : Item} {ks : List Node} (p : Parts c u e n .constElement ks)
    (hf : fine c u .constElement ks = true) {st : St} (ha : Agree e st)
    (hx : x ∈ facts c u e (.phr .constElement ks)) : (newConst c n st).Has x := by
  simp only [fine, isExprType, Bool.not_false, Bool.true_or, Bool.true_and, Bool.and_eq_true] at hf
  obtain ⟨⟨⟨hf1, hf2⟩, hf3⟩, hf4⟩ := hf
  rw [facts, factsOf_silent hf1] at hx
  simp only [ite_self, List.append_nil] at hx
  obtain ⟨k0, h1, h2, h3, h4⟩ := fold_one (c := c) (β := Types.Ty) (γ := Types.Ty) (π := id)
    (g := fun r k =>
      match k.tok? with
      | some t => if t.type = TokType.name then tyOf (c.tokText t) else r
      | none => r)
    (f := fun k _ => tyOf (c.nodeText k)) hf2
    (by
      intro k _ hk r
      have hn := nameIn_none hk
      dsimp only [id]
      split
      · next ht => rw [if_neg (hn.1 _ ht)]
      · rfl)
    (by
      intro k hk' hk r
      rcases nameIn_cases hk with ⟨t, rfl, ht, hn⟩ | ⟨ks', rfl, hn⟩
      · simp [Item.tok?, of_node, ht, Ctx.nodeText]
      · have := List.all_eq_true.mp hf3 _ hk'
        simp [Node.isPhrase] at this)
  have hname : ks.findSome? (nameIn c) = some (c.nodeText k0) := by
    rw [findSome_one (p := fun k => (nameIn c k).isSome) (fun k hk => by simpa using hk) h3]
    rcases nameIn_cases h2 with ⟨t, rfl, ht, hn⟩ | ⟨ks', rfl, hn⟩
    · exact hn
    · exact hn
  rw [hname] at hf4
  simp only [own, usesOf, ite_self, List.nil_append, hname, declares, List.mem_singleton] at hx
  subst hx
  have e0 : newConst c n st = st.add ⟨.const_, c.range (.phr .constElement ks), ((tyOf (c.nodeText k0)).setNamespace st.ns).fqn, []⟩ := by
    unfold newConst
    rw [p.kids, p.node]
    have h5 : ∀ {a b : Types.Ty}, a = b → st.add ⟨.const_, c.range (.phr .constElement ks), (a.setNamespace st.ns).fqn, []⟩ =
        st.add ⟨.const_, c.range (.phr .constElement ks), (b.setNamespace st.ns).fqn, []⟩ := by
      rintro _ _ rfl; rfl
    exact h5 (h4 ⟨[], [], 0⟩)
  rw [e0, tyOf_plain hf4, setNamespace_plain hf4, ha.ns]
  exact has_add ..

/-! ### `define` -/

theorem argumentsOf_head (ks : List Node) :
    (argumentsOf c.ignored (ks.map (Item.of c))).head? = ks.find? (isArgument c) := by
  unfold argumentsOf
  rw [List.filter_map, List.map_map]
  have e1 : (Item.node ∘ Item.of c) = id := by funext k; exact of_node c k
  rw [e1, List.map_id]
  have e2 : ((fun k : Item => match k.node with
      | .tok t => t.type != .comma && !c.ignored t.type
      | .phr _ _ => true
      | .err _ => false) ∘ Item.of c) = isArgument c := by
    funext k
    simp only [Function.comp, of_node]
    cases k <;> rfl
  rw [← List.head?_filter, ← e2]
  rfl

theorem defineName_sym {k : Node} {s : Bytes} (h : (k.kids.find? (isArgument c)).bind (stringIn c) = some s) (hs : plain s = true)
    (st : St) : (defineName c c.ignored (Item.of c k) st).top.sym = { st.top.sym with name := s } := by
  unfold defineName
  rw [of_kids]
  rw [← argumentsOf_head] at h
  generalize argumentsOf c.ignored (k.kids.map (Item.of c)) = l at h
  cases l with
  | nil => simp at h
  | cons a l =>
    simp only [List.head?_cons, Option.bind_some] at h
    cases a with
    | tok t =>
      simp only [stringIn] at h
      split at h
      · next ht =>
        injection h with h
        dsimp only
        rw [if_pos ht]
        have hne : s ≠ [] := by
          unfold plain at hs
          simp only [Bool.and_eq_true, bne_iff_ne] at hs
          exact hs.1.1.1
        rw [if_neg]
        · rw [h, tyOf_plain hs]
          rfl
        · intro hl
          apply hne
          rw [← h]
          match hc : c.tokText t with
          | [] => rfl
          | [_] => rfl
          | _ :: _ :: l => rw [hc] at hl; simp only [List.length_cons] at hl; omega
      · cases h
    | err t => simp [stringIn] at h
    | phr ty ks => simp [stringIn] at h

theorem find_define {n : Item} {ks : List Node} (p : Parts c u e n .functionCallExpression ks)
    (hf : fine c u .functionCallExpression ks = true) (hd : isDefineCall c ks = true) {st : St} (ha : Agree e st)
    (hx : x ∈ facts c u e (.phr .functionCallExpression ks)) : (newDefine c n st).Has x := by
  have H := hst c e
  simp only [fine, hd, decide_true, Bool.true_or, Bool.or_true, Bool.true_and, if_true, Bool.and_eq_true] at hf
  obtain ⟨⟨hf1, hf2⟩, hf3⟩ := hf
  have hg : ∀ k ∈ ks, ∀ st, StayIn e st (if (Item.of c k).type? = some .argumentExpressionList then
      defineName c c.ignored (Item.of c k) (newArgumentList c (Item.of c k) st) else st) := fun k hk st =>
    (stayIn_pre e).ite fun ht => (stayIn_pre e).trans (Grow.toWithin (H.newArgumentList (p.calm k hk).good ht st)) (H.defineName (σ := ()) _ _ _)
  have hw : StayIn e (st.pushBlock ⟨.define, c.range n.node, [], []⟩) (each (fun k st =>
      if k.type? = some .argumentExpressionList then defineName c c.ignored k (newArgumentList c k st) else st)
      (ks.map (Item.of c)) (st.pushBlock ⟨.define, c.range n.node, [], []⟩)) := by
    refine (stayIn_pre e).each (fun k hk st => ?_) _
    obtain ⟨k', hk', rfl⟩ := List.mem_map.mp hk
    exact hg k' hk' st
  unfold newDefine
  rw [p.kids]
  dsimp only
  rw [facts, List.mem_append] at hx
  rcases hx with hx | hx
  · simp only [own, usesOf, hd, if_true, ite_self, List.nil_append, Bool.true_and] at hx
    split at hx
    · next hns =>
      rw [beq_iff_eq] at hns
      cases hs : firstString c ks with
      | none => rw [hs] at hx; simp [declares] at hx
      | some s =>
        rw [hs] at hx hf3
        simp only [declares, List.mem_singleton] at hx
        subst hx
        dsimp only at hf3
        obtain ⟨k0, h1, h2, h3, h4⟩ := fold_one (c := c) (π := fun st : St => st.top.sym)
          (g := fun st k => if k.type? = some .argumentExpressionList then
            defineName c c.ignored k (newArgumentList c k st) else st)
          (f := fun k sym => if (k.kids.find? (isArgument c)).bind (stringIn c) = some s then { sym with name := s } else
            (defineName c c.ignored (Item.of c k) ⟨⟨sym, []⟩, [], ⟨zeroRng, [], []⟩, [], [], none, [], false⟩).top.sym) hf2
          (by
            intro k _ hk st
            rw [if_neg]
            rw [type_iff, hk]
            simp)
          (by
            intro k hk hp st
            rw [if_pos ((type_iff c k _).mpr hp)]
            have h1 := (H.newArgumentList ((p.calm k hk).good (c := c)) ((type_iff c k _).mpr hp) st).sym
            split
            · next h => rw [defineName_sym h hf3, h1]
            · rw [← h1]
              unfold defineName
              split
              · split
                · dsimp only
                  split <;> rfl
                · rfl
              · rfl)
        have hk0 : (k0.kids.find? (isArgument c)).bind (stringIn c) = some s := by
          have : ks.find? (fun k => k.isPhrase .argumentExpressionList) = some k0 := by
            rw [← List.head?_filter, h3]
            rfl
          unfold firstString at hs
          rw [this] at hs
          exact hs
        have h5 := h4 (st.pushBlock ⟨.define, c.range n.node, [], []⟩)
        rw [if_pos hk0] at h5
        have hw2 := hw.trans (Within.onTop (C := e.cls = none) (N := False) _ (fun x => { x with name :=
          ((⟨x.name, x.name, 0⟩ : Types.Ty).setNamespace (each (fun k st =>
            if k.type? = some .argumentExpressionList then defineName c c.ignored k (newArgumentList c k st) else st)
            (ks.map (Item.of c)) (st.pushBlock ⟨.define, c.range n.node, [], []⟩)).ns).fqn }) rfl rfl)
        have h6 := has_popBlock (st := St.onTop _ _) (by rw [hw2.below]; simp [St.pushBlock])
        have e1 : (St.onTop (each (fun k st =>
            if k.type? = some .argumentExpressionList then defineName c c.ignored k (newArgumentList c k st) else st)
            (ks.map (Item.of c)) (st.pushBlock ⟨.define, c.range n.node, [], []⟩)) (fun x => { x with name :=
          ((⟨x.name, x.name, 0⟩ : Types.Ty).setNamespace (each (fun k st =>
            if k.type? = some .argumentExpressionList then defineName c c.ignored k (newArgumentList c k st) else st)
            (ks.map (Item.of c)) (st.pushBlock ⟨.define, c.range n.node, [], []⟩)).ns).fqn })).top.sym =
            ⟨.define, c.range (.phr .functionCallExpression ks), fullName e.ns s, []⟩ := by
          show Sym.mk _ _ _ _ = _
          unfold each
          rw [h5]
          dsimp only
          have e2 : (each (fun k st =>
            if k.type? = some .argumentExpressionList then defineName c c.ignored k (newArgumentList c k st) else st)
            (ks.map (Item.of c)) (st.pushBlock ⟨.define, c.range n.node, [], []⟩)).ns = e.ns := (hw.ns not_false).trans ha.ns
          unfold each at e2
          rw [e2, setNamespace_plain hf3, p.node]
          rfl
        show _ ∈ St.syms _
        rw [← e1]
        exact h6
    · cases hx
  · rw [if_neg (by simp [PType.closed])] at hx
    simp only [Env.enter] at hx
    refine St.Has.popBlock (has_onTop ?_) ?_
    · refine seq hg (fun k hk st ha hx => ?_) (ha.pushBlock _) hx
      have ht := only_one hx (List.all_eq_true.mp hf1 k hk)
      rw [if_pos ((type_iff c k _).mpr ht)]
      exact (find_argumentsOf (p.deep k hk) (p.calm k hk) ht ha hx).within (H.defineName (σ := ()) _ _ _)
    · show St.below _ ≠ []
      rw [St.onTop]
      rw [hw.below]
      simp [St.pushBlock]

/-! ### `global` -/

theorem find_global {n : Item} {ks : List Node} (p : Parts c u e n .globalDeclaration ks)
    (hf : fine c u .globalDeclaration ks = true) {st : St} (ha : Agree e st)
    (hx : x ∈ facts c u e (.phr .globalDeclaration ks)) : (newGlobalDeclaration c n st).Has x := by
  have hf : ks.all (only c u [.variableNameList]) = true := by simpa [fine, isExprType] using hf
  have H := hst c e
  have hx := facts_inside hx (by simp [own, usesOf]) (by simp [Env.enter])
  unfold newGlobalDeclaration
  rw [p.kids]
  have hg2 : ∀ (k : Item) (st : St), Stay e st (if k.type? = some .simpleVariable then
      (st.record (c.nodeText k.node) (c.range k.node) (c.range k.node).stop true).add
        (symOf c .globalVariable k.node) else st) :=
    fun k st => (stay_pre e).ite fun _ => (Grow.record ..).trans (.add _ _)
  refine seq (fun k hk st => ((stay_pre e).ite fun _ => (stay_pre e).each (fun m _ st => hg2 m st) st).toWithin) (fun k hk st ha hx => ?_) ha hx
  have ht := only_one hx (List.all_eq_true.mp hf k hk)
  rw [if_pos ((type_iff c k _).mpr ht)]
  obtain ⟨ty, ms, rfl, _, hf', hd'⟩ := (p.deep k hk).inv hx
  simp only [Node.isPhrase, decide_eq_true_eq] at ht
  subst ht
  have hf' : ms.all (only c u [.simpleVariable]) = true := by simpa [fine, isExprType] using hf'
  rw [of_kids]
  refine seq (fun m hm st => (hg2 _ st).toWithin)
    (fun m hm st ha hx => ?_) ha (facts_inside hx (by simp [own, usesOf]) (by simp [Env.enter]))
  have ht := only_one hx (List.all_eq_true.mp hf' m hm)
  rw [if_pos ((type_iff c m _).mpr ht), of_node]
  obtain ⟨ty, vs, rfl, _, hfv, _⟩ := (hd' m hm).inv hx
  simp only [Node.isPhrase, decide_eq_true_eq] at ht
  subst ht
  have hs : silents c u vs = true := by
    simp only [fine, Bool.and_eq_true] at hfv
    exact hfv.2
  rw [facts, factsOf_silent hs] at hx
  simp only [own, usesOf, ite_self, List.append_nil, List.nil_append, List.mem_singleton] at hx
  subst hx
  rw [← ha.scope]
  exact (has_record st _ _ _ true).grow (Grow.add (C := True) (N := True) _ _)

/-! ### names of classes -/

theorem find_catchNames {n : Item} {ks : List Node} (p : Parts c u e n .catchNameList ks)
    (hf : fine c u .catchNameList ks = true) {st : St}
    (hx : x ∈ facts c u e (.phr .catchNameList ks)) : (processCatchNames c n st).Has x := by
  have hf : silents c u ks = true := by simpa [fine, isExprType] using hf
  have hx := uses_only hf (by simp [own]) hx
  simp only [usesOf, List.mem_map, List.mem_filter] at hx
  obtain ⟨k, ⟨hk, hn⟩, rfl⟩ := hx
  unfold processCatchNames
  rw [p.kids]
  refine each_adds (fun k' hk' st h => ?_) (List.mem_map_of_mem hk) (fun st => ?_) st
  · split
    · next hn' =>
      refine St.Has.grow ?_ (Grow.add (C := True) (N := True) _ _)
      unfold newClassAccess
      obtain ⟨k'', hk'', rfl⟩ := List.mem_map.mp hk'
      rw [of_node] at hn'
      split
      · exact h
      · rw [if_neg]
        · exact h
        · rw [type_iff]
          intro hv
          cases k'' with
          | tok t => cases hv
          | err t => cases hv
          | phr ty ms =>
            have : ty = .simpleVariable := by simpa [Node.isPhrase] using hv
            subst this
            cases hn'
    · exact h
  · rw [of_node, if_pos hn]
    unfold addClassAccess symOf
    rw [of_node]
    exact has_add _ _

theorem find_traitUse {n : Item} {ks : List Node} (p : Parts c u e n .traitUseClause ks)
    (hf : fine c u .traitUseClause ks = true) {st : St}
    (hx : x ∈ facts c u e (.phr .traitUseClause ks)) : (processTraitUse c n st).Has x := by
  have hf : silents c u ks = true := by simpa [fine, isExprType] using hf
  have hx := uses_only hf (by simp [own]) hx
  simp only [usesOf, List.mem_flatMap, List.mem_map, List.mem_filter] at hx
  obtain ⟨l, ⟨hl, ht⟩, k, ⟨hk, hn⟩, rfl⟩ := hx
  have hkeep : ∀ (ks : List Item) (st : St) (y : Fact), st.Has y →
      (each (fun k st => if k.node.isName then st.add (symOf c .traitAccess k.node) else st) ks st).Has y := by
    intro ks st y h
    refine h.grow (C := True) (N := True) (PreOrder.each ⟨Grow.refl, Grow.trans⟩ (fun k _ st => ?_) st)
    split
    · exact .add _ _
    · exact .refl _
  unfold processTraitUse
  rw [p.kids]
  refine each_adds (fun k' hk' st h => ?_) (List.mem_map_of_mem hl) (fun st => ?_) st
  · split
    · exact hkeep _ _ _ h
    · exact h
  · rw [if_pos ((type_iff c l _).mpr ht)]
    have hk2 : Item.of c k ∈ (Item.of c l).kids := by
      cases l with
      | tok t => cases ht
      | err t => cases ht
      | phr ty ms =>
        rw [of_kids]
        exact List.mem_map_of_mem hk
    refine each_adds (fun k' hk' st h => ?_) hk2 (fun st => ?_) st
    · split
      · exact h.grow (Grow.add (C := True) (N := True) _ _)
      · exact h
    · rw [of_node, if_pos hn]
      exact has_add _ _

end Verif.Analyser
