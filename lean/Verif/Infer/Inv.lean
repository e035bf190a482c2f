import Verif.Infer.Lemmas

/-! The invariant of the analysis with respect to the evaluation on types. -/

namespace Verif.Infer
open Verif.Types (Ty Union add merge mergeWithArrayLevel hasFQN)
open Verif.Symbols (Var VarTable Rec record IsLatest Recorded)
open Verif.Position (Before)

/-- The types of an expression are among `U`, now and once it is resolved. -/
def Under (w : World) (e : Expr) (U : List Kind) : Prop :=
  (∀ k ∈ kinds e.getTypes, k ∈ U) ∧ ∀ k ∈ kinds (e.typesIn w), k ∈ U

/-- The types of an expression contain `L` once it is resolved. -/
def Over (w : World) (e : Expr) (L : List Kind) : Prop := ∀ k ∈ L, k ∈ kinds (e.typesIn w)

theorem Under.mono {w : World} {e : Expr} {U V : List Kind} (h : Under w e U) (hv : ∀ k ∈ U, k ∈ V) : Under w e V :=
  ⟨fun k hk => hv k (h.1 k hk), fun k hk => hv k (h.2 k hk)⟩

theorem isNil_iff (e : Expr) : e.isNil = true ↔ e = .nothing := by cases e <;> simp [Expr.isNil]

theorem isNil_resolve (w : World) (e : Expr) : (e.resolve w).isNil = e.isNil := by
  cases e <;> simp only [Expr.resolve] <;> (try split) <;> rfl

theorem scopeName_resolve (w : World) (e : Expr) : (e.resolve w).scopeName = e.scopeName := by
  cases e <;> simp only [Expr.resolve] <;> (try split) <;> rfl

theorem under_nothing (w : World) (U : List Kind) : Under w .nothing U :=
  ⟨fun _ h => (by cases h), fun _ h => (by cases h)⟩

theorem over_nil (w : World) (e : Expr) : Over w e [] := fun _ h => by cases h

/-- A variable. -/
def mkVar (name : Bytes) (ts : Union) (cg : Bool) (sc : Expr) : Expr := .variable name ts cg false sc

theorem getTypes_var (name : Bytes) (ts : Union) (cg d : Bool) (sc : Expr) (k : Kind)
    (h : k ∈ kinds (Expr.variable name ts cg d sc).getTypes) : k ∈ kinds ts ∨ k ∈ kinds sc.getTypes := by
  unfold Expr.getTypes at h
  split at h
  · exact Or.inl h
  · exact (within_merge _ _ k h).symm

theorem getTypes_var_of {S : List Kind} (hS : Clean S) (name : Bytes) (ts : Union) (cg d : Bool) (sc : Expr)
    (ht : ∀ k ∈ kinds ts, k ∈ S) (hs : ∀ k ∈ kinds sc.getTypes, k ∈ S) (k : Kind)
    (h : k ∈ kinds ts ∨ k ∈ kinds sc.getTypes) : k ∈ kinds (Expr.variable name ts cg d sc).getTypes := by
  unfold Expr.getTypes
  split
  · rename_i hn
    rw [(isNil_iff sc).1 hn] at h
    simpa [Expr.getTypes, kinds_nil] using h
  · exact adds_merge hS _ _ hs ht k h.symm

theorem mem_fromGlobal (o : Outside) (env : Env) (name : Bytes) (k : Kind) :
    k ∈ fromGlobal o env name ↔ env.isGlobal name = true ∧ ∃ t ∈ o.globals name, kind t = k := by
  unfold fromGlobal
  split
  · rename_i h; simp [h]
  · rename_i h; simp [h]

theorem under_var {w : World} {hi : Outside} (hc : Covers w hi) {H : Env} {name : Bytes} {ts : Union} {sc : Expr}
    {O : List Kind} (ht : ∀ k ∈ kinds ts, k ∈ O) (hs : Under w sc O) :
    Under w (mkVar name ts (H.isGlobal name) sc) (O ++ fromGlobal hi H name) := by
  constructor
  · intro k hk
    rcases getTypes_var _ _ _ _ _ k hk with h | h
    · exact List.mem_append_left _ (ht k h)
    · exact List.mem_append_left _ (hs.1 k h)
  · intro k hk
    have hk : k ∈ kinds (Expr.variable name _ (H.isGlobal name) true (sc.resolve w)).getTypes := hk
    rcases getTypes_var _ _ _ _ _ k hk with h | h
    · split at h
      · rename_i hg
        rcases within_foldl within_merge _ _ k h with h | h
        · exact List.mem_append_left _ (ht k h)
        · obtain ⟨u, hu, hk⟩ := List.mem_flatMap.1 h
          obtain ⟨t, ht, rfl⟩ := List.mem_map.1 hk
          exact List.mem_append_right _ ((mem_fromGlobal _ _ _ _).2 ⟨hg, t, hc.globals name u hu t ht, rfl⟩)
      · exact List.mem_append_left _ (ht k h)
    · exact List.mem_append_left _ (hs.2 k h)

theorem over_var {w : World} {hi lo : Outside} (hc : Covers w hi) (hg : Gives w lo) {H L : Env} {name : Bytes}
    (hl : L.isGlobal name = H.isGlobal name) {ts : Union} {sc : Expr} {O P : List Kind} (ht : ∀ k ∈ kinds ts, k ∈ O)
    (hs : Under w sc O) (hS : Clean (O ++ fromGlobal hi H name))
    (hP : ∀ k ∈ P, k ∈ kinds ts ∨ k ∈ kinds (sc.typesIn w)) :
    Over w (mkVar name ts (H.isGlobal name) sc) (P ++ fromGlobal lo L name) := by
  intro k hk
  show k ∈ kinds (Expr.variable name _ (H.isGlobal name) true (sc.resolve w)).getTypes
  have hin : ∀ k ∈ kinds (if H.isGlobal name then (w.globals name).foldl merge ts else ts),
      k ∈ O ++ fromGlobal hi H name := by
    intro k h
    split at h
    · rename_i hg
      rcases within_foldl within_merge _ _ k h with h | h
      · exact List.mem_append_left _ (ht k h)
      · obtain ⟨u, hu, hk⟩ := List.mem_flatMap.1 h
        obtain ⟨t, ht, rfl⟩ := List.mem_map.1 hk
        exact List.mem_append_right _ ((mem_fromGlobal _ _ _ _).2 ⟨hg, t, hc.globals name u hu t ht, rfl⟩)
    · exact List.mem_append_left _ (ht k h)
  have hall : H.isGlobal name = true → ∀ k, k ∈ kinds ts ∨ k ∈ (w.globals name).flatMap kinds →
      k ∈ kinds ((w.globals name).foldl merge ts) := by
    intro hgl k hk
    refine adds_foldl within_merge (adds_merge hS) _ _ (fun k h => List.mem_append_left _ (ht k h)) ?_ k hk
    intro k h
    obtain ⟨u, hu, hk⟩ := List.mem_flatMap.1 h
    obtain ⟨t, ht, rfl⟩ := List.mem_map.1 hk
    exact List.mem_append_right _ ((mem_fromGlobal _ _ _ _).2 ⟨hgl, t, hc.globals name u hu t ht, rfl⟩)
  refine getTypes_var_of hS _ _ _ _ _ hin (fun k h => List.mem_append_left _ (hs.2 k h)) k ?_
  rcases List.mem_append.1 hk with hk | hk
  · rcases hP k hk with h | h
    · left
      split
      · rename_i hgl
        exact hall hgl k (Or.inl h)
      · exact h
    · exact Or.inr h
  · left
    obtain ⟨h1, t, h2, rfl⟩ := (mem_fromGlobal _ _ _ _).1 hk
    obtain ⟨u, hu, htu⟩ := hg.globals name t h2
    rw [hl] at h1
    rw [if_pos h1]
    exact hall h1 _ (Or.inr (List.mem_flatMap.2 ⟨u, hu, List.mem_map_of_mem htu⟩))

/-- What the recorded variable of a name may have, and must have. -/
def HiVar (w : World) (e : Option Expr) (H : List Kind) : Prop :=
  ∀ x, e = some x → ∃ nm ts cg sc, x = mkVar nm ts cg sc ∧ (∀ k ∈ kinds ts, k ∈ H) ∧ Under w sc H

/-- See `HiVar`. -/
def LoVar (w : World) (e : Option Expr) (L : List Kind) : Prop :=
  ∀ k ∈ L, ∃ nm ts cg sc, e = some (mkVar nm ts cg sc) ∧ (k ∈ kinds ts ∨ k ∈ kinds (sc.typesIn w))

/-- `m` gives the variable of each name that was recorded last; all were recorded in order, before `a`. -/
def Table (st : St) (m : Bytes → Option Expr) (a : Pos) : Prop :=
  ∃ rs, st.table = record rs ∧ (∀ r ∈ rs, r.v.tag < st.objects.length) ∧
    rs.Pairwise (fun a b => Upto a.start b.start) ∧ (∀ r ∈ rs, Upto r.start a) ∧
    ∀ n, m n = ((rs.filter fun r => r.v.name = n).getLast?).bind fun r => st.objects[r.v.tag]?

/-- `m` with another variable. -/
def upd (m : Bytes → Option Expr) (name : Bytes) (e : Expr) : Bytes → Option Expr :=
  fun n => if n = name then some e else m n

theorem Table.mono {st : St} {m : Bytes → Option Expr} {a b : Pos} (h : Table st m a) (hb : Upto a b) : Table st m b := by
  obtain ⟨rs, h1, h2, h3, h4, h5⟩ := h
  exact ⟨rs, h1, h2, h3, fun r hr => upto_trans (h4 r hr) hb, h5⟩

theorem Table.find {st : St} {m : Bytes → Option Expr} {a : Pos} (h : Table st m a) (name : Bytes) (pos : Pos)
    (hp : Upto a pos) : st.find name pos = m name := by
  obtain ⟨rs, h1, h2, h3, h4, h5⟩ := h
  unfold St.find
  rw [h1, find_sorted rs h3, lastOf, h5]
  have : (rs.filter fun r => decide (r.v.name = name) && !decide (pos.line < r.start.line ∨ (pos.line = r.start.line ∧ pos.character < r.start.character))) = rs.filter fun r => decide (r.v.name = name) := by
    apply List.filter_congr
    intro r hr
    have : Upto r.start pos := upto_trans (h4 r hr) hp
    unfold Upto Before at this
    simp only [this, decide_false, Bool.not_false, Bool.and_true]
  rw [this]
  cases (rs.filter fun r => decide (r.v.name = name)).getLast? <;> rfl

/-- The recorded variables are the same in a state with the same table and more objects. -/
theorem Table.more {st st' : St} {m : Bytes → Option Expr} {a : Pos} (h : Table st m a) (ht : st'.table = st.table)
    (ho : st.objects <+: st'.objects) : Table st' m a := by
  obtain ⟨rs, h1, h2, h3, h4, h5⟩ := h
  obtain ⟨l, hl⟩ := ho
  refine ⟨rs, ht.trans h1, fun r hr => ?_, h3, h4, fun n => ?_⟩
  · have := h2 r hr
    rw [← hl, List.length_append]
    omega
  · rw [h5]
    cases hc : (rs.filter fun r => decide (r.v.name = n)).getLast? with
    | none => rfl
    | some r =>
      have hr : r ∈ rs := (List.mem_filter.1 (List.mem_of_getLast? hc)).1
      simp only [Option.bind_some]
      rw [← hl, List.getElem?_append_left (h2 r hr)]

/-- A variable is recorded. -/
theorem Table.push {st st' : St} {m : Bytes → Option Expr} {a : Pos} (h : Table st m a) (name : Bytes) (range : Rng)
    (e : Expr) (s : Pos) (d : Bool) (hs : Upto a s) (ho : st'.objects = st.objects ++ [e])
    (ht : st'.table = st.table.add ⟨name, range, st.objects.length⟩ s d) : Table st' (upd m name e) s := by
  obtain ⟨rs, h1, h2, h3, h4, h5⟩ := h
  refine ⟨rs ++ [⟨⟨name, range, st.objects.length⟩, s, d⟩], ?_, ?_, ?_, ?_, ?_⟩
  · rw [ht, h1]
    unfold record
    rw [List.foldl_append]
    rfl
  · intro r hr
    rw [ho, List.length_append]
    rcases List.mem_append.1 hr with hr | hr
    · have := h2 r hr
      simp only [List.length_cons, List.length_nil]
      omega
    · rw [List.mem_singleton] at hr
      subst hr
      simp
  · rw [List.pairwise_append]
    refine ⟨h3, List.pairwise_singleton _ _, ?_⟩
    intro r hr r' hr'
    rw [List.mem_singleton] at hr'
    subst hr'
    exact upto_trans (h4 r hr) hs
  · intro r hr
    rcases List.mem_append.1 hr with hr | hr
    · exact upto_trans (h4 r hr) hs
    · rw [List.mem_singleton] at hr
      subst hr
      exact upto_refl _
  · intro n
    unfold upd
    by_cases hn : n = name
    · subst hn
      rw [if_pos rfl, List.filter_append, List.filter_cons_of_pos (by simp), ho, List.filter_nil, List.getLast?_append]
      simp
    · rw [if_neg hn, List.filter_append, List.filter_cons_of_neg (by simp [Ne.symm hn]), List.filter_nil,
        List.append_nil, h5, ho]
      cases hc : (rs.filter fun r => decide (r.v.name = n)).getLast? with
      | none => rfl
      | some r =>
        have hr : r ∈ rs := (List.mem_filter.1 (List.mem_of_getLast? hc)).1
        simp only [Option.bind_some]
        rw [List.getElem?_append_left (h2 r hr)]

theorem merged_eq (st : St) (cls : Union) (name : Bytes) (doc : Union) (pos : Pos) (prev : Option Expr)
    (hp : st.find name pos = prev) :
    st.merged name (newVariable cls name doc) pos =
      (if st.top || st.globals.contains name then allowGlobal else id)
        (mergeWith? (newVariable cls name doc) prev) := by
  unfold St.merged
  rw [hp]
  split <;> rfl

/-- What `pushVariable` makes of a variable, given what is recorded for its name. -/
theorem merged_spec {w : World} {st : St} {cls : Union} {name : Bytes} {doc : Union} {pos : Pos} {prev : Option Expr}
    {H : Env} (hp : st.find name pos = prev) (hg : (st.top || st.globals.contains name) = H.isGlobal name)
    (hv : HiVar w prev (H.types name)) :
    ∃ ts sc, st.merged name (newVariable cls name doc) pos = mkVar name ts (H.isGlobal name) sc ∧
      (∀ k ∈ kinds ts, k ∈ H.types name ++ kinds doc) ∧ Under w sc (look (kinds cls) true H name) ∧
      ∀ (S : List Kind) (L : Env), Clean S → (∀ k ∈ look (kinds cls) true H name ++ kinds doc, k ∈ S) →
        LoVar w prev (L.types name) →
        ∀ k ∈ look (kinds cls) false L name ++ kinds doc, k ∈ kinds ts ∨ k ∈ kinds (sc.typesIn w) := by
  rw [merged_eq st cls name doc pos prev hp, hg]
  have hfun : ∀ ts sc, (if H.isGlobal name then allowGlobal else id) (Expr.variable name ts false false sc) =
      mkVar name ts (H.isGlobal name) sc := by
    intro ts sc
    by_cases h : H.isGlobal name = true
    · rw [if_pos h, h]; rfl
    · rw [if_neg h]
      have : H.isGlobal name = false := by simpa using h
      rw [this]; rfl
  cases prev with
  | none =>
    refine ⟨merge [] doc, (if name = b!"$this" then .relative cls else .nothing), hfun _ _, ?_, ?_, ?_⟩
    · intro k hk
      rcases within_merge _ _ k hk with h | h
      · cases h
      · exact List.mem_append_right _ h
    · unfold look
      split
      · exact ⟨fun k hk => List.mem_append_left _ hk, fun k hk => List.mem_append_left _ hk⟩
      · exact under_nothing _ _
    · intro S L hS hin hl k hk
      rcases List.mem_append.1 hk with h | h
      · unfold look at h
        split at h
        · rename_i hn
          right
          rw [if_pos hn]
          show k ∈ kinds cls
          simpa using h
        · obtain ⟨_, _, _, _, h, _⟩ := hl k h
          cases h
      · exact Or.inl (adds_merge hS _ _ (by simp [kinds_nil]) (fun k h => hin k (List.mem_append_right _ h)) k (Or.inr h))
  | some x =>
    obtain ⟨nm, ts, cg, sc, rfl, ht, hs⟩ := hv x rfl
    have hprev : ∀ k ∈ kinds (mkVar nm ts cg sc).getTypes, k ∈ H.types name := by
      intro k hk
      rcases getTypes_var _ _ _ _ _ k hk with h | h
      · exact ht k h
      · exact hs.1 k h
    have hlook : ∀ k ∈ H.types name, k ∈ look (kinds cls) true H name := by
      intro k hk
      unfold look
      split
      · exact List.mem_append_right _ hk
      · exact hk
    refine ⟨merge (merge [] doc) (mkVar nm ts cg sc).getTypes, (if name = b!"$this" then .relative cls else sc), ?_, ?_, ?_, ?_⟩
    · rw [← hfun]
      congr 1
      unfold mergeWith? mergeWith newVariable
      by_cases hn : name = b!"$this"
      · simp [hn, Expr.isNil, mkVar]
      · simp [hn, Expr.isNil, mkVar]
    · intro k hk
      rcases within_merge _ _ k hk with h | h
      · rcases within_merge _ _ k h with h | h
        · cases h
        · exact List.mem_append_right _ h
      · exact List.mem_append_left _ (hprev k h)
    · split
      · rename_i hn
        unfold look
        rw [if_pos hn]
        exact ⟨fun k hk => List.mem_append_left _ hk, fun k hk => List.mem_append_left _ hk⟩
      · exact hs.mono hlook
    · intro S L hS hin hl k hk
      have hdoc : ∀ k ∈ kinds doc, k ∈ S := fun k h => hin k (List.mem_append_right _ h)
      have hold : ∀ k ∈ H.types name, k ∈ S := fun k h => hin k (List.mem_append_left _ (hlook k h))
      have h0 : ∀ k ∈ kinds (merge [] doc), k ∈ S := by
        intro k hk
        rcases within_merge _ _ k hk with h | h
        · cases h
        · exact hdoc k h
      have hts : ∀ k, k ∈ kinds (merge [] doc) ∨ k ∈ kinds (mkVar nm ts cg sc).getTypes →
          k ∈ kinds (merge (merge [] doc) (mkVar nm ts cg sc).getTypes) :=
        adds_merge hS _ _ h0 (fun k h => hold k (hprev k h))
      rcases List.mem_append.1 hk with h | h
      · unfold look at h
        by_cases hn : name = b!"$this"
        · rw [if_pos hn] at h
          right
          rw [if_pos hn]
          show k ∈ kinds cls
          simpa using h
        · rw [if_neg hn] at h
          obtain ⟨nm', ts', cg', sc', e, h⟩ := hl k h
          have e := Option.some.inj e
          unfold mkVar at e
          injection e with _ e2 _ _ e5
          subst e2 e5
          rw [if_neg hn]
          rcases h with h | h
          · left
            exact hts k (Or.inr (getTypes_var_of hS _ _ _ _ _ (fun k h => hold k (ht k h)) (fun k h => hold k (hs.1 k h)) k
              (Or.inl h)))
          · exact Or.inr h
      · left
        exact hts k (Or.inl (adds_merge hS _ _ (by simp [kinds_nil]) hdoc k (Or.inr h)))

/-- The types of a doc comment are in the types of the variable itself. -/
theorem merged_doc {w : World} {st : St} {cls : Union} {name : Bytes} {doc : Union} {pos : Pos} {prev : Option Expr}
    {Hn : List Kind} (hp : st.find name pos = prev) (hv : HiVar w prev Hn) {S : List Kind} (hS : Clean S)
    (hd : ∀ k ∈ kinds doc, k ∈ S) (hh : ∀ k ∈ Hn, k ∈ S) {ts : Union} {cg : Bool} {sc : Expr}
    (he : st.merged name (newVariable cls name doc) pos = mkVar name ts cg sc) (k : Kind) (hk : k ∈ kinds doc) :
    k ∈ kinds ts := by
  rw [merged_eq st cls name doc pos prev hp] at he
  have hfun : ∀ ts' sc', (if st.top || st.globals.contains name then allowGlobal else id)
      (Expr.variable name ts' false false sc') = mkVar name ts cg sc → ts' = ts := by
    intro ts' sc' h
    split at h
    · injection h
    · injection h
  have h0 : ∀ k ∈ kinds (merge [] doc), k ∈ S := by
    intro k hk
    rcases within_merge _ _ k hk with h | h
    · cases h
    · exact hd k h
  have h1 : k ∈ kinds (merge [] doc) := adds_merge hS _ _ (by simp [kinds_nil]) hd k (Or.inr hk)
  cases prev with
  | none =>
    rw [← hfun _ _ he]
    exact h1
  | some x =>
    obtain ⟨nm, ts0, cg0, sc0, rfl, ht, hs⟩ := hv x rfl
    rw [← hfun _ _ he]
    refine adds_merge hS _ _ h0 ?_ k (Or.inl h1)
    intro k hk
    rcases getTypes_var _ _ _ _ _ k hk with h | h
    · exact hh k (ht k h)
    · exact hh k (hs.1 k h)

end Verif.Infer
