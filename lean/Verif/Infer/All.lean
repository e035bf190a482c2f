import Verif.Infer.Main

/-! The analysis and the evaluation on types go together, for every program. -/

namespace Verif.Infer
open Verif.Types (Ty Union add merge mergeWithArrayLevel hasFQN)
open Verif.Position (Before)

section
variable {w : World} {hi lo : Outside} {cls : Union}

theorem look_own (H : Env) (name : Bytes) (k : Kind) (hk : k ∈ H.types name) : k ∈ look (kinds cls) true H name := by
  unfold look
  split
  · exact List.mem_append_right _ hk
  · exact hk

/-- A variable is pushed after something; `extra` is merged into it afterwards. -/
theorem step_var (hc : Covers w hi) (hg : Gives w lo) {st : St} {m : Bytes → Option Expr} {a : Pos} {H L : Env}
    (ht : Table st m a) (hgl : ∀ n, (st.top || st.globals.contains n) = H.isGlobal n) (hh : HiEnv w m H) (name : Bytes)
    (range : Rng) (doc extra : Union) (pos : Pos) (hp : Upto a pos) (d : Bool) :
    ∃ m' new, Step w st
      ((st.add name range ((st.merged name (newVariable cls name doc) pos).mergeTypes (merge [] extra)) pos d).see range
        ((st.merged name (newVariable cls name doc) pos).mergeTypes (merge [] extra)))
      ((st.merged name (newVariable cls name doc) pos).mergeTypes (merge [] extra)) m m' pos H L
      { env := H.put name (look (kinds cls) true H name ++ kinds doc ++ kinds extra),
        types := look (kinds cls) true H name ++ kinds doc ++ kinds extra ++ fromGlobal hi H name,
        trace := [(range, look (kinds cls) true H name ++ kinds doc ++ kinds extra ++ fromGlobal hi H name)] }
      { env := L.put name (look (kinds cls) false L name ++ kinds doc ++ kinds extra),
        types := look (kinds cls) false L name ++ kinds doc ++ kinds extra ++ fromGlobal lo L name,
        trace := [(range, look (kinds cls) false L name ++ kinds doc ++ kinds extra ++ fromGlobal lo L name)] } new := by
  obtain ⟨ts, sc, e1, e2, e3, e4⟩ := merged_spec (w := w) (cls := cls) (doc := doc) (H := H) (ht.find name pos hp) (hgl name) (hh name)
  have h0 : Step w st st .nothing m m a H L { env := H } { env := L } [] := Step.refl ht (upto_refl _) hgl hh
  have hex : ∀ k, k ∈ kinds (merge [] extra) → k ∈ kinds extra := by
    intro k hk
    rcases within_merge _ _ k hk with h | h
    · cases h
    · exact h
  have hts : ∀ k ∈ kinds ts, k ∈ look (kinds cls) true H name ++ kinds doc := by
    intro k h
    rcases List.mem_append.1 (e2 k h) with h | h
    · exact List.mem_append_left _ (look_own H name k h)
    · exact List.mem_append_right _ h
  have := Step.push hc hg h0 hp name range d (merge ts (merge [] extra)) sc
    (look (kinds cls) true H name ++ kinds doc ++ kinds extra) (look (kinds cls) false L name ++ kinds doc ++ kinds extra)
    (by
      intro k hk
      rcases within_merge _ _ k hk with h | h
      · exact List.mem_append_left _ (hts k h)
      · exact List.mem_append_right _ (hex k h))
    (Under.mono e3 fun k hk => List.mem_append_left _ (List.mem_append_left _ hk))
    (by
      intro hcl hl _ k hk
      have hS1 : ∀ k ∈ look (kinds cls) true H name ++ kinds doc,
          k ∈ look (kinds cls) true H name ++ kinds doc ++ kinds extra ++ fromGlobal hi H name :=
        fun k hk => List.mem_append_left _ (List.mem_append_left _ hk)
      have hS2 : ∀ k ∈ kinds extra,
          k ∈ look (kinds cls) true H name ++ kinds doc ++ kinds extra ++ fromGlobal hi H name :=
        fun k hk => List.mem_append_left _ (List.mem_append_right _ hk)
      have hm : ∀ k, k ∈ kinds ts ∨ k ∈ kinds (merge [] extra) → k ∈ kinds (merge ts (merge [] extra)) :=
        adds_merge hcl _ _ (fun k hk => hS1 k (hts k hk)) (fun k hk => hS2 k (hex k hk))
      rcases List.mem_append.1 hk with hk | hk
      · rcases e4 _ L hcl hS1 (hl name) k hk with h | h
        · exact Or.inl (hm k (Or.inl h))
        · exact Or.inr h
      · exact Or.inl (hm k (Or.inr (adds_merge hcl _ _ (by simp [kinds_nil]) hS2 k (Or.inr hk)))))
  rw [e1]
  exact ⟨_, _, this⟩

/-- The value that is assigned becomes the scope of the variable. -/
theorem step_set (hc : Covers w hi) (hg : Gives w lo) {st st1 : St} {e0 : Expr} {m m1 : Bytes → Option Expr} {a : Pos}
    {H L : Env} {rh rl : Out} {new : List (Rng × Expr)} (h : Step w st st1 e0 m m1 a H L rh rl new) (name : Bytes)
    (range : Rng) (doc : Union) (pos : Pos) (hp : Upto a pos) (d : Bool) (value : Expr) (V P : List Kind)
    (hV : Under w value V) (hP : Clean (V ++ kinds doc ++ look (kinds cls) true rh.env name ++ fromGlobal hi rh.env name) →
      Over w e0 rl.types → Over w value P) (set : Bool) (hset : set = false → P = []) :
    ∃ m' new',
      Step w st
        ((st1.add name range (if set then (st1.merged name (newVariable cls name doc) pos).setExpression value
            else st1.merged name (newVariable cls name doc) pos) pos d).see range
          (if set then (st1.merged name (newVariable cls name doc) pos).setExpression value
            else st1.merged name (newVariable cls name doc) pos)) .nothing m m' pos H L
        { env := rh.env.put name (V ++ kinds doc ++ look (kinds cls) true rh.env name),
          trace := rh.trace ++ [(range, V ++ kinds doc ++ look (kinds cls) true rh.env name ++ fromGlobal hi rh.env name)] }
        { env := rl.env.put name (P ++ kinds doc),
          trace := rl.trace ++ [(range, P ++ kinds doc ++ fromGlobal lo rl.env name)] } new' := by
  obtain ⟨ts, sc, e1, e2, e3, e4⟩ := merged_spec (w := w) (cls := cls) (doc := doc) (H := rh.env)
    (h.table.find name pos hp) (h.isGlobal name) (h.hiEnv name)
  have hts : ∀ k ∈ kinds ts, k ∈ V ++ kinds doc ++ look (kinds cls) true rh.env name := by
    intro k hk
    rcases List.mem_append.1 (e2 k hk) with h | h
    · exact List.mem_append_right _ (look_own _ name k h)
    · exact List.mem_append_left _ (List.mem_append_right _ h)
  have hdoc : Clean (V ++ kinds doc ++ look (kinds cls) true rh.env name ++ fromGlobal hi rh.env name) →
      ∀ k ∈ kinds doc, k ∈ kinds ts ∨ k ∈ kinds (sc.typesIn w) := by
    intro hcl k hk
    refine e4 _ {} hcl ?_ ?_ k (List.mem_append_right _ hk)
    · intro k hk
      apply List.mem_append_left
      rcases List.mem_append.1 hk with h | h
      · exact List.mem_append_right _ h
      · exact List.mem_append_left _ (List.mem_append_right _ h)
    · intro k hk
      cases hk
  rw [e1]
  cases set with
  | false =>
    rw [hset rfl]
    refine ⟨_, _, (Step.push hc hg h hp name range d ts sc _ _ hts (Under.mono e3 fun k hk => List.mem_append_right _ hk)
      (fun hcl _ _ k hk => hdoc hcl k hk)).drop⟩
  | true =>
    refine ⟨_, _, (Step.push hc hg h hp name range d ts value _ _ hts
      (Under.mono hV fun k hk => List.mem_append_left _ (List.mem_append_left _ hk))
      (fun hcl _ ho k hk => ?_)).drop⟩
    rcases List.mem_append.1 hk with hk | hk
    · exact Or.inr (hP hcl ho k hk)
    · -- a doc comment: in the types of the variable itself
      left
      have hd : ∀ k ∈ kinds doc, k ∈ kinds ts := by
        intro k hk
        have hsub : ∀ k ∈ look (kinds cls) true rh.env name ++ kinds doc,
            k ∈ V ++ kinds doc ++ look (kinds cls) true rh.env name ++ fromGlobal hi rh.env name := by
          intro k hk
          apply List.mem_append_left
          rcases List.mem_append.1 hk with h | h
          · exact List.mem_append_right _ h
          · exact List.mem_append_left _ (List.mem_append_right _ h)
        exact merged_doc (h.table.find name pos hp) (h.hiEnv name) hcl
          (fun k hk => hsub k (List.mem_append_right _ hk))
          (fun k hk => hsub k (List.mem_append_left _ (look_own _ name k hk))) e1 k hk
      exact hd k hk

theorem typesIn_property (here name : Bytes) (s : Expr) : (Expr.property here name [] false s).typesIn w =
    memberLoop (fun c => w.props ⟨here, (s.resolve w).scopeName, s.typesIn w⟩ c (b!"$" ++ name)) (s.typesIn w) [] := rfl

theorem typesIn_staticProperty (here name : Bytes) (s : Expr) : (Expr.staticProperty here name [] false s).typesIn w =
    memberLoop (fun c => w.staticProps ⟨here, (s.resolve w).scopeName, s.typesIn w⟩ c name) (s.typesIn w) [] := rfl

theorem typesIn_method (here name : Bytes) (s : Expr) : (Expr.method here name [] false s).typesIn w =
    methodLoop (fun c => w.methods ⟨here, (s.resolve w).scopeName, s.typesIn w⟩ c name) (s.typesIn w) [] := rfl

theorem typesIn_staticMethod (here name : Bytes) (s : Expr) : (Expr.staticMethod here name [] false s).typesIn w =
    methodLoop (fun c => w.staticMethods ⟨here, (s.resolve w).scopeName, s.typesIn w⟩ c name) (s.typesIn w) [] := rfl

/-- A member access: what it offers is under and over what evaluation says. -/
theorem under_property (hc : Covers w hi) (here name : Bytes) (s : Expr) (ks : List Kind) (nm : Bytes)
    (hn : s.scopeName = nm) (hs : Under w s ks) :
    Under w (.property here name [] false s) (ks.flatMap fun k => (hi.props here nm k.1 (b!"$" ++ name)).map kind) := by
  refine ⟨fun k hk => (by cases hk), fun k hk => ?_⟩
  rw [typesIn_property, scopeName_resolve, hn] at hk
  have h := within_memberLoop _ _ k hk
  exact offered_under (f := fun c => hi.props here nm c (b!"$" ++ name)) hs.2 (fun c u hu t ht => hc.props _ c _ u hu t ht) k h

theorem over_property (hc : Covers w hi) (hg : Gives w lo) (here name : Bytes) (s : Expr) (ks ls : List Kind) (nm : Bytes)
    (hn : s.scopeName = nm) (hs : Under w s ks) (ho : Over w s ls)
    (hcl : Clean (ks.flatMap fun k => (hi.props here nm k.1 (b!"$" ++ name)).map kind)) :
    Over w (.property here name [] false s) (ls.flatMap fun k => (lo.props here nm k.1 (b!"$" ++ name)).map kind) := by
  intro k hk
  rw [typesIn_property, scopeName_resolve, hn]
  refine adds_memberLoop hcl _ _ ?_ k ?_
  · exact offered_under (f := fun c => hi.props here nm c (b!"$" ++ name)) hs.2 (fun c u hu t ht => hc.props _ c _ u hu t ht)
  · exact offered_over (f := fun c => lo.props here nm c (b!"$" ++ name)) ho (fun c t ht => hg.props ⟨here, nm, _⟩ c _ t ht) k hk

theorem under_staticProperty (hc : Covers w hi) (here name : Bytes) (s : Expr) (ks : List Kind) (nm : Bytes)
    (hn : s.scopeName = nm) (hs : Under w s ks) :
    Under w (.staticProperty here name [] false s) (ks.flatMap fun k => (hi.staticProps here nm k.1 name).map kind) := by
  refine ⟨fun k hk => (by cases hk), fun k hk => ?_⟩
  rw [typesIn_staticProperty, scopeName_resolve, hn] at hk
  have h := within_memberLoop _ _ k hk
  exact offered_under (f := fun c => hi.staticProps here nm c name) hs.2 (fun c u hu t ht => hc.staticProps _ c _ u hu t ht) k h

theorem over_staticProperty (hc : Covers w hi) (hg : Gives w lo) (here name : Bytes) (s : Expr) (ks ls : List Kind)
    (nm : Bytes) (hn : s.scopeName = nm) (hs : Under w s ks) (ho : Over w s ls)
    (hcl : Clean (ks.flatMap fun k => (hi.staticProps here nm k.1 name).map kind)) :
    Over w (.staticProperty here name [] false s) (ls.flatMap fun k => (lo.staticProps here nm k.1 name).map kind) := by
  intro k hk
  rw [typesIn_staticProperty, scopeName_resolve, hn]
  refine adds_memberLoop hcl _ _ ?_ k ?_
  · exact offered_under (f := fun c => hi.staticProps here nm c name) hs.2 (fun c u hu t ht => hc.staticProps _ c _ u hu t ht)
  · exact offered_over (f := fun c => lo.staticProps here nm c name) ho (fun c t ht => hg.staticProps ⟨here, nm, _⟩ c _ t ht) k hk

theorem under_method (hc : Covers w hi) (here name : Bytes) (s : Expr) (ks : List Kind) (nm : Bytes)
    (hn : s.scopeName = nm) (hs : Under w s ks) :
    Under w (.method here name [] false s) (ks.flatMap fun k => returned ks (hi.methods here nm k.1 name)) := by
  refine ⟨fun k hk => (by cases hk), fun k hk => ?_⟩
  rw [typesIn_method, scopeName_resolve, hn] at hk
  have h := within_methodLoop _ _ k hk
  exact offeredRet_under (f := fun c => hi.methods here nm c name) hs.2 (fun c u hu t ht => hc.methods _ c _ u hu t ht) k h

theorem over_method (hc : Covers w hi) (hg : Gives w lo) (here name : Bytes) (s : Expr) (ks ls : List Kind)
    (nm : Bytes) (hn : s.scopeName = nm) (hs : Under w s ks) (ho : Over w s ls)
    (hcl : Clean (ks.flatMap fun k => returned ks (hi.methods here nm k.1 name))) :
    Over w (.method here name [] false s) (ls.flatMap fun k => returned ls (lo.methods here nm k.1 name)) := by
  intro k hk
  rw [typesIn_method, scopeName_resolve, hn]
  refine adds_methodLoop hcl _ _ ?_ k ?_
  · exact offeredRet_under (f := fun c => hi.methods here nm c name) hs.2 (fun c u hu t ht => hc.methods _ c _ u hu t ht)
  · exact offeredRet_over (f := fun c => lo.methods here nm c name) ho (fun c t ht => hg.methods ⟨here, nm, _⟩ c _ t ht) k hk

theorem under_staticMethod (hc : Covers w hi) (here name : Bytes) (s : Expr) (ks : List Kind) (nm : Bytes)
    (hn : s.scopeName = nm) (hs : Under w s ks) :
    Under w (.staticMethod here name [] false s) (ks.flatMap fun k => returned ks (hi.staticMethods here nm k.1 name)) := by
  refine ⟨fun k hk => (by cases hk), fun k hk => ?_⟩
  rw [typesIn_staticMethod, scopeName_resolve, hn] at hk
  have h := within_methodLoop _ _ k hk
  exact offeredRet_under (f := fun c => hi.staticMethods here nm c name) hs.2
    (fun c u hu t ht => hc.staticMethods _ c _ u hu t ht) k h

theorem over_staticMethod (hc : Covers w hi) (hg : Gives w lo) (here name : Bytes) (s : Expr) (ks ls : List Kind)
    (nm : Bytes) (hn : s.scopeName = nm) (hs : Under w s ks) (ho : Over w s ls)
    (hcl : Clean (ks.flatMap fun k => returned ks (hi.staticMethods here nm k.1 name))) :
    Over w (.staticMethod here name [] false s) (ls.flatMap fun k => returned ls (lo.staticMethods here nm k.1 name)) := by
  intro k hk
  rw [typesIn_staticMethod, scopeName_resolve, hn]
  refine adds_methodLoop hcl _ _ ?_ k ?_
  · exact offeredRet_under (f := fun c => hi.staticMethods here nm c name) hs.2
      (fun c u hu t ht => hc.staticMethods _ c _ u hu t ht)
  · exact offeredRet_over (f := fun c => lo.staticMethods here nm c name) ho
      (fun c t ht => hg.staticMethods ⟨here, nm, _⟩ c _ t ht) k hk

theorem under_known (ts : Union) : Under w (.known (merge [] ts)) (kinds ts) := by
  have : ∀ k ∈ kinds (merge [] ts), k ∈ kinds ts := by
    intro k hk
    rcases within_merge _ _ k hk with h | h
    · cases h
    · exact h
  exact ⟨this, this⟩

theorem over_known (ts : Union) (hcl : Clean (kinds ts)) : Over w (.known (merge [] ts)) (kinds ts) :=
  fun k hk => adds_merge hcl _ _ (by simp [kinds_nil]) (fun k hk => hk) k (Or.inr hk)

theorem under_call (hc : Covers w hi) (name : Bytes) : Under w (.call name [] false) ((hi.functions name).map kind) := by
  refine ⟨fun k hk => (by cases hk), fun k hk => ?_⟩
  rcases within_foldl within_merge _ _ k hk with h | h
  · cases h
  · obtain ⟨u, hu, h⟩ := List.mem_flatMap.1 h
    obtain ⟨t, ht, rfl⟩ := List.mem_map.1 h
    exact List.mem_map_of_mem (hc.functions name u hu t ht)

theorem over_call (hc : Covers w hi) (hg : Gives w lo) (name : Bytes) (hcl : Clean ((hi.functions name).map kind)) :
    Over w (.call name [] false) ((lo.functions name).map kind) := by
  intro k hk
  obtain ⟨t, ht, rfl⟩ := List.mem_map.1 hk
  obtain ⟨u, hu, htu⟩ := hg.functions name t ht
  refine adds_foldl within_merge (adds_merge hcl) _ _ (by simp [kinds_nil]) ?_ _
    (Or.inr (List.mem_flatMap.2 ⟨u, hu, List.mem_map_of_mem htu⟩))
  intro k h
  obtain ⟨u, hu, h⟩ := List.mem_flatMap.1 h
  obtain ⟨t, ht, rfl⟩ := List.mem_map.1 h
  exact List.mem_map_of_mem (hc.functions name u hu t ht)

theorem under_cls (name : Bytes) (ts : Union) (s : Expr) (ks : List Kind) (hs : Under w s ks) :
    Under w (.classAccess name (merge [] ts) false s) (kinds ts ++ ks) := by
  have h0 : ∀ k ∈ kinds (merge [] ts), k ∈ kinds ts := (under_known (w := w) ts).1
  refine ⟨fun k hk => List.mem_append_left _ (h0 k hk), fun k hk => ?_⟩
  rcases within_merge _ _ k hk with h | h
  · exact List.mem_append_left _ (h0 k h)
  · exact List.mem_append_right _ (hs.2 k h)

theorem over_cls (name : Bytes) (ts : Union) (s : Expr) (ks ls : List Kind) (hs : Under w s ks) (ho : Over w s ls)
    (hcl : Clean (kinds ts ++ ks)) : Over w (.classAccess name (merge [] ts) false s) (kinds ts ++ ls) := by
  intro k hk
  have h0 : ∀ k ∈ kinds (merge [] ts), k ∈ kinds ts := (under_known (w := w) ts).1
  refine adds_merge hcl _ _ (fun k hk => List.mem_append_left _ (h0 k hk)) (fun k hk => List.mem_append_right _ (hs.2 k hk)) k ?_
  rcases List.mem_append.1 hk with h | h
  · exact Or.inl (adds_merge hcl _ _ (by simp [kinds_nil]) (fun k hk => List.mem_append_left _ hk) k (Or.inr h))
  · exact Or.inr (ho k h)

theorem typesIn_derived (s : Expr) : (Expr.derived false s).typesIn w = s.typesIn w := by
  show (if (s.resolve w).isNil then [] else (s.resolve w).getTypes) = (s.resolve w).getTypes
  split
  · rename_i h
    rw [(isNil_iff _).1 h]
    rfl
  · rfl

theorem getTypes_derived (d : Bool) (s : Expr) : (Expr.derived d s).getTypes = s.getTypes := by
  show (if s.isNil then [] else s.getTypes) = s.getTypes
  split
  · rename_i h
    rw [(isNil_iff _).1 h]
    rfl
  · rfl

theorem elements_mono {a b : List Kind} (h : ∀ k ∈ a, k ∈ b) (k : Kind) (hk : k ∈ elements a) : k ∈ elements b := by
  rw [mem_elements] at hk ⊢
  exact ⟨h _ hk.1, hk.2⟩

theorem getTypes_element (s : Expr) : (Expr.element s).getTypes = dearrayAll s.getTypes := by
  show (if s.isNil then [] else dearrayAll s.getTypes) = dearrayAll s.getTypes
  split
  · rename_i h
    rw [(isNil_iff _).1 h]
    rfl
  · rfl

theorem under_element (s : Expr) (ks : List Kind) (hs : Under w s ks) : Under w (.element s) (elements ks) := by
  constructor
  · intro k hk
    rw [getTypes_element] at hk
    exact elements_mono hs.1 k (within_dearrayAll _ k hk)
  · intro k hk
    have hk : k ∈ kinds (Expr.element (s.resolve w)).getTypes := hk
    rw [getTypes_element] at hk
    exact elements_mono hs.2 k (within_dearrayAll _ k hk)

theorem over_element {S : List Kind} (hS : Clean S) (s : Expr) (ks ls : List Kind) (hs : Under w s ks) (ho : Over w s ls)
    (hin : ∀ k ∈ elements ks, k ∈ S) : Over w (.element s) (elements ls) := by
  intro k hk
  show k ∈ kinds (Expr.element (s.resolve w)).getTypes
  rw [getTypes_element]
  exact adds_dearrayAll hS _ (fun k hk => hin k (elements_mono hs.2 k hk)) k (elements_mono ho k hk)

theorem modify_last {α : Type} (l : List α) (x : α) (f : α → α) : (l ++ [x]).modify l.length f = l ++ [f x] := by
  induction l with
  | nil => rfl
  | cons y l ih => simp [List.modify_succ_cons, ih]

/-- Where no expression is made, evaluation has no type. -/
theorem types_of_nil (p : Src) (st : St) (L : Env) (h : (scan cls p st).2.isNil = true) :
    (eval lo (kinds cls) false false p L).types = [] := by
  cases p with
  | var name range doc =>
    have : (St.merged st name (newVariable cls name doc) range.stop).isNil = true := h
    unfold St.merged mergeWith? newVariable at this
    revert this
    cases st.find name range.stop with
    | none => intro this; simp only [] at this; split at this <;> cases this
    | some x => intro this; simp only [mergeWith] at this; split at this <;> cases this
  | skip | both _ _ | assign _ _ _ _ _ | each _ _ _ _ _ | closure _ _ _ _ | global _ => rfl
  | test i range name types => cases i <;> rfl
  | _ => cases h

theorem changeLast_see (st : St) (name : Bytes) (range : Rng) (e : Expr) (pos : Pos) (d : Bool) (f : Expr → Expr) :
    ((st.add name range e pos d).see range e).changeLast f = (st.add name range (f e) pos d).see range (f e) := by
  unfold St.changeLast St.see St.add
  simp only [List.length_append, List.length_cons, List.length_nil, Nat.add_sub_cancel, modify_last]

/-- For every program: what is recorded goes together with the evaluations. -/
theorem step_scan (hc : Covers w hi) (hg : Gives w lo) (p : Src) (a b : Pos) (st : St) (m : Bytes → Option Expr)
    (H L : Env) (hf : Fits p a b) (ht : Table st m a) (hgl : ∀ n, (st.top || st.globals.contains n) = H.isGlobal n)
    (hh : HiEnv w m H) :
    ∃ m' new, Step w st (scan cls p st).1 (scan cls p st).2 m m' b H L (eval hi (kinds cls) true true p H)
      (eval lo (kinds cls) false false p L) new := by
  induction p generalizing a b st m H L with
  | skip => exact ⟨_, _, Step.refl ht hf hgl hh⟩
  | both x y ihx ihy =>
    obtain ⟨c, h1, h2⟩ := hf
    obtain ⟨m1, n1, s1⟩ := ihx a c st m H L h1 ht hgl hh
    obtain ⟨m2, n2, s2⟩ := ihy c b _ m1 _ (eval lo (kinds cls) false false x L).env h2 s1.table s1.isGlobal s1.hiEnv
    exact ⟨_, _, (s1.thenSide s2).drop⟩
  | var name range doc =>
    obtain ⟨h1, h2, h3⟩ := hf
    obtain ⟨m', new, h⟩ := step_var (cls := cls) (lo := lo) (L := L) hc hg ht hgl hh name range doc [] range.stop
      (upto_trans h1 (upto_of_before h2)) false
    have hm : ∀ e : Expr, e.mergeTypes (merge [] []) = e := by
      intro e
      cases e <;> rfl
    simp only [hm, kinds_nil, List.append_nil] at h
    exact ⟨m', new, { h with table := h.table.mono h3 }⟩
  | property range here s name ih =>
    obtain ⟨m1, n1, s1⟩ := ih a b st m H L hf ht hgl hh
    exact ⟨_, _, s1.see range _ _ _ (under_property hc here name _ _ _ (scopeName_scan s st) s1.under)
      (fun hcl ho => over_property hc hg here name _ _ _ _ (scopeName_scan s st) s1.under ho hcl)⟩
  | method range here s name args ih1 ih2 =>
    obtain ⟨c, h1, h2⟩ := hf
    obtain ⟨m1, n1, s1⟩ := ih1 a c st m H L h1 ht hgl hh
    have s2 := s1.see range _ _ _ (under_method hc here name _ _ _ (scopeName_scan s st) s1.under)
      (fun hcl ho => over_method hc hg here name _ _ _ _ (scopeName_scan s st) s1.under ho hcl)
    obtain ⟨m2, n2, s3⟩ := ih2 c b _ m1 _ (eval lo (kinds cls) false false s L).env h2 s2.table s2.isGlobal s2.hiEnv
    have := s2.thenSide s3
    simp only [List.append_assoc, List.singleton_append] at this
    exact ⟨_, _, this⟩
  | cls range name types s ih =>
    obtain ⟨m1, n1, s1⟩ := ih a b st m H L hf ht hgl hh
    exact ⟨_, _, s1.see range _ _ _ (under_cls name types _ _ s1.under)
      (fun hcl ho => over_cls name types _ _ _ s1.under ho hcl)⟩
  | staticProperty range here s name ih =>
    obtain ⟨m1, n1, s1⟩ := ih a b st m H L hf ht hgl hh
    exact ⟨_, _, s1.see range _ _ _ (under_staticProperty hc here name _ _ _ (scopeName_scan s st) s1.under)
      (fun hcl ho => over_staticProperty hc hg here name _ _ _ _ (scopeName_scan s st) s1.under ho hcl)⟩
  | staticMethod range here s name args ih1 ih2 =>
    obtain ⟨c, h1, h2⟩ := hf
    obtain ⟨m1, n1, s1⟩ := ih1 a c st m H L h1 ht hgl hh
    have s2 := s1.see range _ _ _ (under_staticMethod hc here name _ _ _ (scopeName_scan s st) s1.under)
      (fun hcl ho => over_staticMethod hc hg here name _ _ _ _ (scopeName_scan s st) s1.under ho hcl)
    obtain ⟨m2, n2, s3⟩ := ih2 c b _ m1 _ (eval lo (kinds cls) false false s L).env h2 s2.table s2.isGlobal s2.hiEnv
    have := s2.thenSide s3
    simp only [List.append_assoc, List.singleton_append] at this
    exact ⟨_, _, this⟩
  | staticConstant range s ih =>
    obtain ⟨m1, n1, s1⟩ := ih a b st m H L hf ht hgl hh
    exact ⟨_, _, s1.see range (.known []) [] [] (under_known []) (fun _ _ => over_nil _ _)⟩
  | constant range =>
    have s0 : Step w st st .nothing m m b H L { env := H } { env := L } [] := Step.refl ht hf hgl hh
    exact ⟨_, _, s0.see range (.known []) [] [] (under_known []) (fun _ _ => over_nil _ _)⟩
  | call range name callee args ih1 ih2 =>
    obtain ⟨c, h1, h2⟩ := hf
    have s0 : Step w st st .nothing m m a H L { env := H } { env := L } [] := Step.refl ht (upto_refl _) hgl hh
    have s1 := s0.see range _ _ _ (under_call hc name) (fun hcl _ => over_call hc hg name hcl)
    obtain ⟨m2, n2, s2⟩ := ih1 a c _ _ _ L h1 s1.table s1.isGlobal s1.hiEnv
    have s12 := s1.thenSide s2
    obtain ⟨m3, n3, s3⟩ := ih2 c b _ m2 _ (eval lo (kinds cls) false false callee L).env h2 s12.table s12.isGlobal s12.hiEnv
    exact ⟨_, _, s12.thenSide s3⟩
  | create range types callee args ih1 ih2 =>
    obtain ⟨c, h1, h2⟩ := hf
    have s0 : Step w st st .nothing m m a H L { env := H } { env := L } [] := Step.refl ht (upto_refl _) hgl hh
    have s1 := s0.see range _ _ _ (under_known types) (fun hcl _ => over_known types hcl)
    obtain ⟨m2, n2, s2⟩ := ih1 a c _ _ _ L h1 s1.table s1.isGlobal s1.hiEnv
    have s12 := s1.thenSide s2
    obtain ⟨m3, n3, s3⟩ := ih2 c b _ m2 _ (eval lo (kinds cls) false false callee L).env h2 s12.table s12.isGlobal s12.hiEnv
    exact ⟨_, _, s12.thenSide s3⟩
  | derived range s ih =>
    obtain ⟨m1, n1, s1⟩ := ih a b st m H L hf ht hgl hh
    refine ⟨_, _, s1.see range (.derived false (scan cls s st).2) _ _ ?_ ?_⟩
    · constructor
      · rw [getTypes_derived]
        exact s1.under.1
      · rw [typesIn_derived]
        exact s1.under.2
    · intro _ ho k hk
      rw [typesIn_derived]
      exact ho k hk
  | assign name range doc v stop ih =>
    obtain ⟨h1, h2, h3, h4⟩ := hf
    obtain ⟨m1, n1, s1⟩ := ih range.stop stop st m H L h3 (ht.mono (upto_trans h1 (upto_of_before h2))) hgl hh
    obtain ⟨m2, n2, s2⟩ := step_set (cls := cls) hc hg s1 name range doc stop (upto_refl _) true (scan cls v st).2 _
      (eval lo (kinds cls) false false v L).types s1.under (fun _ ho => ho) (!(scan cls v st).2.isNil)
      (fun h => types_of_nil v st L (by simpa using h))
    have hif : ∀ x y : Expr, (if (!(scan cls v st).2.isNil) = true then x else y) =
        if (scan cls v st).2.isNil = true then y else x := by
      intro x y
      cases (scan cls v st).2.isNil <;> rfl
    rw [hif] at s2
    simp only [eval, if_true, Bool.false_eq_true, if_false, List.append_nil]
    exact ⟨m2, n2, { s2 with table := s2.table.mono h4, under := under_nothing _ _ }⟩
  | each c name range doc body ih1 ih2 =>
    obtain ⟨x, h1, h2, h3, h4⟩ := hf
    obtain ⟨m1, n1, s1⟩ := ih1 a x st m H L h1 ht hgl hh
    obtain ⟨m2, n2, s2⟩ := step_set (cls := cls) hc hg s1 name range doc range.stop (upto_trans h2 (upto_of_before h3)) true
      (.element (scan cls c st).2) _ (elements (eval lo (kinds cls) false false c L).types) (under_element _ _ s1.under)
      (fun hcl ho => over_element hcl _ _ _ s1.under ho
        (fun k hk => List.mem_append_left _ (List.mem_append_left _ (List.mem_append_left _ hk)))) true (by simp)
    obtain ⟨m3, n3, s3⟩ := ih2 range.stop b _ m2 _ ((eval lo (kinds cls) false false c L).env.put name _) h4 s2.table s2.isGlobal s2.hiEnv
    have := s2.thenSide s3
    simp only [List.append_assoc, List.singleton_append] at this
    simp only [eval, if_true, Bool.false_eq_true, if_false, List.append_assoc, List.append_nil]
    exact ⟨_, _, this⟩
  | test i range name types ih =>
    have hcl : ∀ {st1 : St} {e1 : Expr} {m1 : Bytes → Option Expr} {rh rl : Out} {n1 : List (Rng × Expr)},
        Step w st st1 e1 m m1 b H L rh rl n1 →
        ∃ m' new, Step w st (st1.see range (.classAccess name (merge [] types) false .nothing)) .nothing m m' b H L
          { env := rh.env, trace := rh.trace ++ [(range, kinds types)] }
          { env := rl.env, trace := rl.trace ++ [(range, kinds types)] } new := by
      intro st1 e1 m1 rh rl n1 s1
      have hu := under_cls (w := w) name types .nothing [] (under_nothing _ _)
      have ho := over_cls (w := w) name types .nothing [] [] (under_nothing _ _) (over_nil _ _)
      rw [List.append_nil] at hu ho
      exact ⟨_, _, (s1.see range _ _ _ hu (fun h _ => ho h)).drop⟩
    have hother : (∀ n r d, i ≠ .var n r d) → ∃ m' new, Step w st (scan cls (.test i range name types) st).1 .nothing m m' b H L
        { env := (eval hi (kinds cls) true true i H).env, trace := (eval hi (kinds cls) true true i H).trace ++ [(range, kinds types)] }
        { env := (eval lo (kinds cls) false false i L).env, trace := (eval lo (kinds cls) false false i L).trace ++ [(range, kinds types)] }
        new := by
      intro hn
      obtain ⟨m1, n1, s1⟩ := ih a b st m H L hf ht hgl hh
      have : (scan cls (.test i range name types) st).1 =
          ((scan cls i st).1).see range (.classAccess name (merge [] types) false .nothing) := by
        cases i with
        | var n r d => exact absurd rfl (hn n r d)
        | _ => rfl
      rw [this]
      exact hcl s1
    cases i with
    | var n r d =>
      obtain ⟨h1, h2, h3⟩ := hf
      obtain ⟨m', new, h⟩ := step_var (cls := cls) (lo := lo) (L := L) hc hg ht hgl hh n r d types r.stop
        (upto_trans h1 (upto_of_before h2)) false
      have h' : Step w st _ _ m m' b H L _ _ new := { h with table := h.table.mono h3 }
      have hst : (scan cls (.test (.var n r d) range name types) st).1 =
          (((st.add n r ((st.merged n (newVariable cls n d) r.stop).mergeTypes (merge [] types)) r.stop false).see r
            ((st.merged n (newVariable cls n d) r.stop).mergeTypes (merge [] types))).see range
              (.classAccess name (merge [] types) false .nothing)) := by
        rw [← changeLast_see]
        obtain ⟨ts, sc, e1, -⟩ := merged_spec (w := w) (cls := cls) (doc := d) (H := H)
          (ht.find n r.stop (upto_trans h1 (upto_of_before h2))) (hgl n) (hh n)
        simp only [scan, e1, mkVar]
      rw [hst]
      exact hcl h'
    | _ => exact hother (fun _ _ _ h => by cases h)
  | closure uses params header body ih =>
    obtain ⟨c, h1, h2, h3⟩ := hf
    have u0 : Uses w st st { objects := st.objects, top := false, seen := st.seen } m m (fun _ => none) a H L
        ({ env := H }, {}) ({ env := L }, {}) [] := by
      refine ⟨Step.refl ht (upto_refl _) hgl hh, ⟨[], rfl, by simp, List.Pairwise.nil, by simp, fun _ => rfl⟩, rfl, rfl, rfl, rfl,
        (fun _ _ h => by cases h), (fun _ _ h => by cases h), (fun _ => rfl), ?_⟩
      exact fun _ _ _ => ⟨fun _ _ h => (by cases h), fun _ => rfl⟩
    obtain ⟨m1, mi, n1, u1⟩ := uses_all (cls := cls) hc hg uses u0 h1
    obtain ⟨m2, p1, p2, p3, p4, p5, p6, p7, p8⟩ := params_all (w := w) header params (u1.tableIn.mono h2) u1.hiIn
    obtain ⟨m3, n3, s3⟩ := ih header b _ m2 _
      (params.foldl evalParam (uses.foldl (evalUse (kinds cls) false) ({ env := L }, {})).2) h3 p1
      (by
        intro n
        rw [p4, p5, u1.top, u1.globals, p3]
        exact (u1.hiGlobal n).symm) p2
    have hpre := p7.trans s3.objects
    rw [u1.objects] at hpre
    refine ⟨m1, n1 ++ n3, ?_, ?_, ?_, ?_, ?_, ?_, ?_, ?_⟩
    · exact (u1.step.table.mono (upto_trans h2 (fits_upto body _ _ h3))).more rfl hpre
    · show (scan cls body _).1.seen = _
      rw [s3.seen, p6, u1.seen, u1.step.seen, List.append_assoc]
    · exact u1.step.objects.trans hpre
    · exact u1.step.isGlobal
    · exact u1.step.hiEnv
    · exact under_nothing _ _
    · exact forall₂_append u1.step.hiSeen s3.hiSeen
    · intro c1 c2 c3
      have c1' : ∀ q ∈ (uses.foldl (evalUse (kinds cls) true) ({ env := H }, {})).1.trace, Clean q.2 :=
        fun q hq => c1 q (List.mem_append_left _ hq)
      obtain ⟨x, y, _, v⟩ := u1.step.low c1' c2 c3
      obtain ⟨x', y'⟩ := u1.low c1' c2 c3
      obtain ⟨l1, l2⟩ := p8 _ x'
      obtain ⟨_, _, _, v'⟩ := s3.low (fun q hq => c1 q (List.mem_append_right _ hq)) l1
        (by
          intro n
          rw [l2, p3, y' n, u1.hiGlobal n])
      exact ⟨x, y, over_nil _ _, forall₂_append v v'⟩
  | global name =>
    refine ⟨m, [], ⟨(ht.mono hf).more rfl List.prefix_rfl, by simp [scan], List.prefix_rfl, ?_, hh, under_nothing _ _,
      List.Forall₂.nil, fun _ h2 h3 => ⟨h2, ?_, over_nil _ _, List.Forall₂.nil⟩⟩⟩
    · intro n
      show (st.top || (name :: st.globals).contains n) = (decide (n = name) || H.isGlobal n)
      rw [← hgl n, List.contains_cons]
      cases st.top <;> simp [Bool.beq_eq_decide_eq]
    · intro n
      show (decide (n = name) || L.isGlobal n) = (decide (n = name) || H.isGlobal n)
      rw [h3 n]

end

end Verif.Infer
