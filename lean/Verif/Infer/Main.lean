import Verif.Infer.Inv
import Verif.Types.Props
import Mathlib.Data.List.Forall2

/-! The analysis and the evaluation on types go together. -/

namespace Verif.Infer
open Verif.Types (Ty Union add merge mergeWithArrayLevel hasFQN)
open Verif.Symbols (Var VarTable Rec record IsLatest Recorded)
open Verif.Position (Before)

def HiEnv (w : World) (m : Bytes → Option Expr) (H : Env) : Prop := ∀ n, HiVar w (m n) (H.types n)
def LoEnv (w : World) (m : Bytes → Option Expr) (L : Env) : Prop := ∀ n, LoVar w (m n) (L.types n)

/-- What is seen at a place is under what evaluation says of it. -/
def UnderAt (w : World) (p : Rng × Expr) (q : Rng × List Kind) : Prop := p.1 = q.1 ∧ Under w p.2 q.2

/-- See `UnderAt`. -/
def OverAt (w : World) (p : Rng × Expr) (q : Rng × List Kind) : Prop := p.1 = q.1 ∧ Over w p.2 q.2

/-- A piece of the analysis goes together with two evaluations. -/
structure Step (w : World) (st st' : St) (e : Expr) (m m' : Bytes → Option Expr) (b : Pos) (H L : Env) (rh rl : Out)
    (new : List (Rng × Expr)) : Prop where
  table : Table st' m' b
  seen : st'.seen = st.seen ++ new
  objects : st.objects <+: st'.objects
  isGlobal : ∀ n, (st'.top || st'.globals.contains n) = rh.env.isGlobal n
  hiEnv : HiEnv w m' rh.env
  under : Under w e rh.types
  hiSeen : List.Forall₂ (UnderAt w) new rh.trace
  low : (∀ q ∈ rh.trace, Clean q.2) → LoEnv w m L → (∀ n, L.isGlobal n = H.isGlobal n) →
    LoEnv w m' rl.env ∧ (∀ n, rl.env.isGlobal n = rh.env.isGlobal n) ∧ Over w e rl.types ∧
      List.Forall₂ (OverAt w) new rl.trace

theorem forall₂_append {α β : Type} {R : α → β → Prop} {a c : List α} {b d : List β} (h : List.Forall₂ R a b)
    (h' : List.Forall₂ R c d) : List.Forall₂ R (a ++ c) (b ++ d) := by
  induction h with
  | nil => exact h'
  | cons h _ ih => exact List.Forall₂.cons h ih

section
variable {w : World} {hi lo : Outside} {cls : Union}

theorem Step.refl {st : St} {m : Bytes → Option Expr} {a b : Pos} {H L : Env} (ht : Table st m a) (hab : Upto a b)
    (hg : ∀ n, (st.top || st.globals.contains n) = H.isGlobal n) (hh : HiEnv w m H) :
    Step w st st .nothing m m b H L { env := H } { env := L } [] :=
  ⟨ht.mono hab, by simp, List.prefix_rfl, hg, hh, under_nothing _ _, List.Forall₂.nil,
    fun _ h1 h2 => ⟨h1, h2, over_nil _ _, List.Forall₂.nil⟩⟩

/-- The result is dropped. -/
theorem Step.drop {st st' : St} {e : Expr} {m m' : Bytes → Option Expr} {b : Pos} {H L : Env} {rh rl : Out}
    {new : List (Rng × Expr)} (h : Step w st st' e m m' b H L rh rl new) :
    Step w st st' .nothing m m' b H L { env := rh.env, trace := rh.trace } { env := rl.env, trace := rl.trace } new :=
  ⟨h.table, h.seen, h.objects, h.isGlobal, h.hiEnv, under_nothing _ _, h.hiSeen, fun h1 h2 h3 =>
    have ⟨a, b, _, d⟩ := h.low h1 h2 h3
    ⟨a, b, over_nil _ _, d⟩⟩

/-- An expression is seen. -/
theorem Step.see {st st' : St} {s : Expr} {m m' : Bytes → Option Expr} {b : Pos} {H L : Env} {rh rl : Out}
    {new : List (Rng × Expr)} (h : Step w st st' s m m' b H L rh rl new) (range : Rng) (e : Expr) (U P : List Kind)
    (hu : Under w e U) (ho : Clean U → Over w s rl.types → Over w e P) :
    Step w st (st'.see range e) e m m' b H L { env := rh.env, types := U, trace := rh.trace ++ [(range, U)] }
      { env := rl.env, types := P, trace := rl.trace ++ [(range, P)] } (new ++ [(range, e)]) := by
  refine ⟨h.table.more rfl List.prefix_rfl, ?_, h.objects, h.isGlobal, h.hiEnv, hu,
    forall₂_append h.hiSeen (List.Forall₂.cons ⟨rfl, hu⟩ List.Forall₂.nil), ?_⟩
  · show st'.seen ++ _ = _
    rw [h.seen, List.append_assoc]
  · intro h1 h2 h3
    obtain ⟨x, y, z, v⟩ := h.low (fun q hq => h1 q (List.mem_append_left _ hq)) h2 h3
    have := ho (h1 (range, U) (List.mem_append_right _ (by simp))) z
    exact ⟨x, y, this, forall₂_append v (List.Forall₂.cons ⟨rfl, this⟩ List.Forall₂.nil)⟩

/-- One after the other; the result is that of the first. -/
theorem Step.thenSide {st st1 st2 : St} {e e2 : Expr} {m m1 m2 : Bytes → Option Expr} {b c : Pos} {H L : Env}
    {rh rl rh2 rl2 : Out} {new new2 : List (Rng × Expr)} (h : Step w st st1 e m m1 b H L rh rl new)
    (h2 : Step w st1 st2 e2 m1 m2 c rh.env rl.env rh2 rl2 new2) :
    Step w st st2 e m m2 c H L { env := rh2.env, types := rh.types, trace := rh.trace ++ rh2.trace }
      { env := rl2.env, types := rl.types, trace := rl.trace ++ rl2.trace } (new ++ new2) := by
  refine ⟨h2.table, ?_, h.objects.trans h2.objects, h2.isGlobal, h2.hiEnv, h.under,
    forall₂_append h.hiSeen h2.hiSeen, ?_⟩
  · rw [h2.seen, h.seen, List.append_assoc]
  · intro c1 c2 c3
    obtain ⟨x, y, z, v⟩ := h.low (fun q hq => c1 q (List.mem_append_left _ hq)) c2 c3
    obtain ⟨x', y', _, v'⟩ := h2.low (fun q hq => c1 q (List.mem_append_right _ hq)) x y
    exact ⟨x', y', z, forall₂_append v v'⟩

/-- A variable is recorded and seen. -/
theorem Step.push (hc : Covers w hi) (hgv : Gives w lo) {st st1 : St} {e0 : Expr} {m m1 : Bytes → Option Expr} {a s : Pos}
    {H L : Env} {rh rl : Out} {new : List (Rng × Expr)} (h : Step w st st1 e0 m m1 a H L rh rl new) (hs : Upto a s)
    (name : Bytes) (range : Rng) (d : Bool) (ts : Union) (sc : Expr) (O P : List Kind) (ht : ∀ k ∈ kinds ts, k ∈ O)
    (hsc : Under w sc O)
    (hP : Clean (O ++ fromGlobal hi rh.env name) → LoEnv w m1 rl.env → Over w e0 rl.types →
      ∀ k ∈ P, k ∈ kinds ts ∨ k ∈ kinds (sc.typesIn w)) :
    Step w st ((st1.add name range (mkVar name ts (rh.env.isGlobal name) sc) s d).see range
        (mkVar name ts (rh.env.isGlobal name) sc)) (mkVar name ts (rh.env.isGlobal name) sc) m
      (upd m1 name (mkVar name ts (rh.env.isGlobal name) sc)) s H L
      { env := rh.env.put name O, types := O ++ fromGlobal hi rh.env name,
        trace := rh.trace ++ [(range, O ++ fromGlobal hi rh.env name)] }
      { env := rl.env.put name P, types := P ++ fromGlobal lo rl.env name,
        trace := rl.trace ++ [(range, P ++ fromGlobal lo rl.env name)] }
      (new ++ [(range, mkVar name ts (rh.env.isGlobal name) sc)]) := by
  have hun := under_var hc (H := rh.env) (name := name) ht hsc
  refine ⟨h.table.push name range _ s d hs rfl rfl, ?_, ?_, ?_, ?_, hun,
    forall₂_append h.hiSeen (List.Forall₂.cons ⟨rfl, hun⟩ List.Forall₂.nil), ?_⟩
  · show st1.seen ++ _ = _
    rw [h.seen, List.append_assoc]
  · exact h.objects.trans ⟨[_], rfl⟩
  · exact h.isGlobal
  · intro n x hx
    unfold upd at hx
    unfold Env.put
    by_cases hn : n = name
    · simp only [hn, if_true] at hx ⊢
      exact ⟨name, ts, _, sc, (Option.some.inj hx).symm, ht, hsc⟩
    · simp only [hn, if_false] at hx ⊢
      exact h.hiEnv n x hx
  · intro c1 c2 c3
    obtain ⟨x, y, z, v⟩ := h.low (fun q hq => c1 q (List.mem_append_left _ hq)) c2 c3
    have hcl := c1 _ (List.mem_append_right _ (List.mem_singleton.2 rfl))
    have hall := hP hcl x z
    have hov := over_var hc hgv (y name) ht hsc hcl hall
    refine ⟨?_, y, hov, forall₂_append v (List.Forall₂.cons ⟨rfl, hov⟩ List.Forall₂.nil)⟩
    intro n k hk
    unfold upd
    unfold Env.put at hk
    by_cases hn : n = name
    · simp only [hn, if_true] at hk ⊢
      exact ⟨name, ts, _, sc, rfl, hall k hk⟩
    · simp only [hn, if_false] at hk ⊢
      exact x n k hk

/-! ### members -/

theorem offered_under {o : Bytes → List Union} {on : Union} {ks : List Kind} {f : Bytes → List Ty}
    (hon : ∀ k ∈ kinds on, k ∈ ks) (hf : ∀ c, ∀ u ∈ o c, ∀ t ∈ u, t ∈ f c) (k : Kind) (h : k ∈ offered o on) :
    k ∈ ks.flatMap fun k => (f k.1).map kind := by
  obtain ⟨t, ht, h⟩ := List.mem_flatMap.1 h
  obtain ⟨u, hu, h⟩ := List.mem_flatMap.1 h
  obtain ⟨t', ht', rfl⟩ := List.mem_map.1 h
  exact List.mem_flatMap.2 ⟨kind t, hon _ (List.mem_map_of_mem ht), List.mem_map_of_mem (hf _ u hu t' ht')⟩

theorem offered_over {o : Bytes → List Union} {on : Union} {ks : List Kind} {f : Bytes → List Ty}
    (hon : ∀ k ∈ ks, k ∈ kinds on) (hf : ∀ c, ∀ t ∈ f c, ∃ u ∈ o c, t ∈ u) (k : Kind)
    (h : k ∈ ks.flatMap fun k => (f k.1).map kind) : k ∈ offered o on := by
  obtain ⟨k0, hk0, h⟩ := List.mem_flatMap.1 h
  obtain ⟨t', ht', rfl⟩ := List.mem_map.1 h
  obtain ⟨t, ht, rfl⟩ := List.mem_map.1 (hon k0 hk0)
  obtain ⟨u, hu, htu⟩ := hf _ t' ht'
  exact List.mem_flatMap.2 ⟨t, ht, List.mem_flatMap.2 ⟨u, hu, List.mem_map_of_mem htu⟩⟩

theorem one_mono {a b : List Kind} (h : ∀ k ∈ a, k ∈ b) (t : Ty) (k : Kind) (hk : k ∈ one a t) : k ∈ one b t := by
  unfold one at hk ⊢
  split at hk
  · obtain ⟨k', hk', rfl⟩ := List.mem_map.1 hk
    rw [if_pos (by assumption)]
    exact List.mem_map_of_mem (h k' hk')
  · rw [if_neg (by assumption)]
    exact hk

theorem offeredRet_under {o : Bytes → List Union} {on : Union} {ks : List Kind} {f : Bytes → List Ty}
    (hon : ∀ k ∈ kinds on, k ∈ ks) (hf : ∀ c, ∀ u ∈ o c, ∀ t ∈ u, t ∈ f c) (k : Kind) (h : k ∈ offeredRet o on) :
    k ∈ ks.flatMap fun k => returned ks (f k.1) := by
  obtain ⟨t, ht, h⟩ := List.mem_flatMap.1 h
  obtain ⟨u, hu, h⟩ := List.mem_flatMap.1 h
  rw [returned_eq] at h
  obtain ⟨t', ht', h⟩ := List.mem_flatMap.1 h
  exact List.mem_flatMap.2 ⟨kind t, hon _ (List.mem_map_of_mem ht),
    List.mem_flatMap.2 ⟨t', hf _ u hu t' ht', one_mono hon t' k h⟩⟩

theorem offeredRet_over {o : Bytes → List Union} {on : Union} {ks : List Kind} {f : Bytes → List Ty}
    (hon : ∀ k ∈ ks, k ∈ kinds on) (hf : ∀ c, ∀ t ∈ f c, ∃ u ∈ o c, t ∈ u) (k : Kind)
    (h : k ∈ ks.flatMap fun k => returned ks (f k.1)) : k ∈ offeredRet o on := by
  obtain ⟨k0, hk0, h1⟩ := List.mem_flatMap.1 h
  rw [returned_eq] at h1
  obtain ⟨t', ht', h2⟩ := List.mem_flatMap.1 h1
  obtain ⟨t, ht, rfl⟩ := List.mem_map.1 (hon k0 hk0)
  obtain ⟨u, hu, htu⟩ := hf _ t' ht'
  refine List.mem_flatMap.2 ⟨t, ht, List.mem_flatMap.2 ⟨u, hu, ?_⟩⟩
  rw [returned_eq]
  exact List.mem_flatMap.2 ⟨t', htu, one_mono hon t' k h2⟩

/-- The name before an operator is that of the expression. -/
theorem scopeName_scan (p : Src) (st : St) : (scan cls p st).2.scopeName = nameOf p := by
  cases p with
  | var name range doc =>
    show (St.merged _ _ _ _).scopeName = name
    unfold St.merged mergeWith? newVariable
    cases st.find name range.stop with
    | none => simp only []; split <;> rfl
    | some x => simp only [mergeWith]; split <;> rfl
  | _ => rfl

theorem fits_upto (p : Src) (a b : Pos) (h : Fits p a b) : Upto a b := by
  have hio : ∀ (us : List (Bytes × Rng × Union)) a b, Fits.InOrder us a b → Upto a b := by
    intro us
    induction us with
    | nil => exact fun _ _ h => h
    | cons u us ih =>
      rintro a b ⟨h1, h2, h3⟩
      exact upto_trans h1 (upto_trans (upto_of_before h2) (ih _ _ h3))
  induction p generalizing a b with
  | skip | constant _ | global _ => exact h
  | both x y ihx ihy => obtain ⟨m, h1, h2⟩ := h; exact upto_trans (ihx _ _ h1) (ihy _ _ h2)
  | var n r d => exact upto_trans h.1 (upto_trans (upto_of_before h.2.1) h.2.2)
  | property r here s n ih => exact ih _ _ h
  | method r here s n args ih1 ih2 => obtain ⟨m, h1, h2⟩ := h; exact upto_trans (ih1 _ _ h1) (ih2 _ _ h2)
  | cls r n t s ih => exact ih _ _ h
  | staticProperty r here s n ih => exact ih _ _ h
  | staticMethod r here s n args ih1 ih2 => obtain ⟨m, h1, h2⟩ := h; exact upto_trans (ih1 _ _ h1) (ih2 _ _ h2)
  | staticConstant r s ih => exact ih _ _ h
  | call r n c args ih1 ih2 => obtain ⟨m, h1, h2⟩ := h; exact upto_trans (ih1 _ _ h1) (ih2 _ _ h2)
  | create r t c args ih1 ih2 => obtain ⟨m, h1, h2⟩ := h; exact upto_trans (ih1 _ _ h1) (ih2 _ _ h2)
  | derived r s ih => exact ih _ _ h
  | assign n r d v stop ih =>
    exact upto_trans h.1 (upto_trans (upto_of_before h.2.1) (upto_trans (ih _ _ h.2.2.1) h.2.2.2))
  | each c n r d body ih1 ih2 =>
    obtain ⟨m, h1, h2, h3, h4⟩ := h
    exact upto_trans (ih1 _ _ h1) (upto_trans h2 (upto_trans (upto_of_before h3) (ih2 _ _ h4)))
  | test i r n t ih => exact ih _ _ h
  | closure uses params header body ih =>
    obtain ⟨m, h1, h2, h3⟩ := h
    exact upto_trans (hio _ _ _ h1) (upto_trans h2 (ih _ _ h3))

/-! ### closures -/

theorem newVariable_merge_twice (name : Bytes) (doc : Union) (nm : Bytes) (ts : Union) (cg : Bool) (sc : Expr) :
    mergeWith (mergeWith (newVariable cls name doc) (mkVar nm ts cg sc)) (mkVar nm ts cg sc) =
      mergeWith (newVariable cls name doc) (mkVar nm ts cg sc) := by
  unfold newVariable mergeWith mkVar
  simp only [(Types.C25_merge_idempotent _ _).1]
  by_cases hn : name = b!"$this"
  · simp [hn, Expr.isNil]
  · simp [hn, Expr.isNil]

/-- A variable recorded after a place is not found there. -/
theorem Table.find_later {st : St} {m : Bytes → Option Expr} {a : Pos} (h : Table st m a) (name : Bytes) (range : Rng)
    (d : Bool) (h1 : Upto a range.start) (h2 : Before range.start range.stop) :
    St.find { st with table := st.table.add ⟨name, range, st.objects.length⟩ range.stop d } name range.start = m name := by
  rw [← h.find name range.start h1]
  obtain ⟨rs, e1, e2, e3, e4, e5⟩ := h
  have er : (record rs).add ⟨name, range, st.objects.length⟩ range.stop d =
      record (rs ++ [⟨⟨name, range, st.objects.length⟩, range.stop, d⟩]) := by
    unfold record
    rw [List.foldl_append]
    rfl
  unfold St.find
  simp only [e1]
  rw [er, find_sorted, find_sorted rs e3]
  · unfold lastOf
    rw [List.filter_append, List.filter_cons_of_neg, List.filter_nil, List.append_nil]
    unfold Before at h2
    simp [h2]
  · rw [List.pairwise_append]
    refine ⟨e3, List.pairwise_singleton _ _, ?_⟩
    intro r hr r' hr'
    rw [List.mem_singleton] at hr'
    subst hr'
    exact upto_trans (e4 r hr) (upto_trans h1 (upto_of_before h2))

/-- The states outside and inside of a closure, after some of the variables of the use clause. -/
structure Uses (w : World) (st : St) (outer inner : St) (m m' mi : Bytes → Option Expr) (b : Pos) (H L : Env)
    (rh rl : Out × Env) (new : List (Rng × Expr)) : Prop where
  step : Step w st outer .nothing m m' b H L rh.1 rl.1 new
  tableIn : Table inner mi b
  objects : inner.objects = outer.objects
  seen : inner.seen = outer.seen
  top : inner.top = false
  globals : inner.globals = []
  same : ∀ n x, mi n = some x → m' n = some x
  hiIn : HiEnv w mi rh.2
  hiGlobal : ∀ n, rh.2.isGlobal n = false
  low : (∀ q ∈ rh.1.trace, Clean q.2) → LoEnv w m L → (∀ n, L.isGlobal n = H.isGlobal n) →
    LoEnv w mi rl.2 ∧ ∀ n, rl.2.isGlobal n = false

theorem uses_one (hc : Covers w hi) (hgv : Gives w lo) {st outer inner : St} {m m' mi : Bytes → Option Expr} {a : Pos}
    {H L : Env} {rh rl : Out × Env} {new : List (Rng × Expr)} (h : Uses w st outer inner m m' mi a H L rh rl new)
    (u : Bytes × Rng × Union) (h1 : Upto a u.2.1.start) (h2 : Before u.2.1.start u.2.1.stop) :
    ∃ v, Uses w st (useVariable cls (outer, inner) u).1 (useVariable cls (outer, inner) u).2 m (upd m' u.1 v)
      (upd mi u.1 v) u.2.1.stop H L (evalUse (kinds cls) true rh u) (evalUse (kinds cls) false rl u)
      (new ++ [(u.2.1, v)]) := by
  obtain ⟨name, range, doc⟩ := u
  simp only at h1 h2 ⊢
  have h12 : Upto a range.stop := upto_trans h1 (upto_of_before h2)
  -- the variable is what merging with the outer one makes of it
  have hv : mergeWith? (inner.merged name (newVariable cls name doc) range.stop)
      (St.find { outer with table := outer.table.add ⟨name, range, outer.objects.length⟩ range.stop false } name range.start) =
      mergeWith? (newVariable cls name doc) (m' name) := by
    rw [h.step.table.find_later name range false h1 h2]
    rw [merged_eq inner cls name doc range.stop (mi name) (h.tableIn.find name range.stop h12), h.top, h.globals]
    simp only [List.contains_nil, Bool.or_false, Bool.false_eq_true, if_false, id]
    cases hmi : mi name with
    | none => rfl
    | some x =>
      have hm := h.same name x hmi
      obtain ⟨nm, ts, cg, sc, rfl, _, _⟩ := h.step.hiEnv name x hm
      rw [hm]
      exact newVariable_merge_twice name doc nm ts cg sc
  -- which a table at a lower level would make of it
  let st0 : St := { outer with top := false, globals := [] }
  have hst0 : Table st0 m' a := h.step.table.more rfl List.prefix_rfl
  let H0 : Env := { types := rh.1.env.types, isGlobal := fun _ => false }
  obtain ⟨ts, sc, e1, e2, e3, e4⟩ := merged_spec (cls := cls) (doc := doc) (H := H0)
    (hst0.find name range.stop h12) rfl (h.step.hiEnv name)
  have e0 : mergeWith? (newVariable cls name doc) (m' name) = mkVar name ts false sc := by
    rw [← e1, merged_eq st0 cls name doc range.stop (m' name) (hst0.find name range.stop h12)]
    rfl
  refine ⟨mkVar name ts false sc, ?_⟩
  have hres : useVariable cls (outer, inner) (name, range, doc) =
      ({ outer with
          table := outer.table.add ⟨name, range, outer.objects.length⟩ range.stop false
          objects := outer.objects ++ [mkVar name ts false sc]
          seen := outer.seen ++ [(range, mkVar name ts false sc)] },
       { inner with
          table := inner.table.add ⟨name, range, outer.objects.length⟩ range.stop true
          objects := outer.objects ++ [mkVar name ts false sc]
          seen := outer.seen ++ [(range, mkVar name ts false sc)] }) := by
    unfold useVariable
    simp only [hv, e0]
  rw [hres]
  have hlook : ∀ k ∈ rh.1.env.types name, k ∈ look (kinds cls) true rh.1.env name := by
    intro k hk
    unfold look
    split
    · exact List.mem_append_right _ hk
    · exact hk
  have ht : ∀ k ∈ kinds ts, k ∈ look (kinds cls) true rh.1.env name ++ kinds doc := by
    intro k hk
    rcases List.mem_append.1 (e2 k hk) with h | h
    · exact List.mem_append_left _ (hlook k h)
    · exact List.mem_append_right _ h
  have hs : Under w sc (look (kinds cls) true rh.1.env name ++ kinds doc) :=
    Under.mono e3 fun k hk => List.mem_append_left _ hk
  have hun : Under w (mkVar name ts false sc) (look (kinds cls) true rh.1.env name ++ kinds doc) := by
    have := under_var hc (H := H0) (name := name) ht hs
    simpa [fromGlobal, H0] using this
  have hall : Clean (look (kinds cls) true rh.1.env name ++ kinds doc) → LoEnv w m' rl.1.env →
      ∀ k ∈ look (kinds cls) false rl.1.env name ++ kinds doc, k ∈ kinds ts ∨ k ∈ kinds (sc.typesIn w) :=
    fun hcl hl => e4 _ rl.1.env hcl (fun k hk => hk) (hl name)
  have hlow : ∀ L' mm, LoEnv w mm L' → (∀ k ∈ look (kinds cls) false rl.1.env name ++ kinds doc,
      k ∈ kinds ts ∨ k ∈ kinds (sc.typesIn w)) →
      LoEnv w (upd mm name (mkVar name ts false sc))
        (L'.put name (look (kinds cls) false rl.1.env name ++ kinds doc)) := by
    intro L' mm hL hk n k hkk
    unfold upd
    unfold Env.put at hkk
    by_cases hn : n = name
    · simp only [hn, if_true] at hkk ⊢
      exact ⟨name, ts, _, sc, rfl, hk k hkk⟩
    · simp only [hn, if_false] at hkk ⊢
      exact hL n k hkk
  have hhi : ∀ H' mm, HiEnv w mm H' → HiEnv w (upd mm name (mkVar name ts false sc))
      (H'.put name (look (kinds cls) true rh.1.env name ++ kinds doc)) := by
    intro H' mm hH n x hx
    unfold upd at hx
    unfold Env.put
    by_cases hn : n = name
    · simp only [hn, if_true] at hx ⊢
      exact ⟨name, ts, _, sc, (Option.some.inj hx).symm, ht, hs⟩
    · simp only [hn, if_false] at hx ⊢
      exact hH n x hx
  refine ⟨⟨?_, ?_, ?_, ?_, ?_, ?_, ?_, ?_⟩, ?_, rfl, rfl, h.top, h.globals, ?_, ?_, ?_, ?_⟩
  · exact h.step.table.push name range _ range.stop false h12 rfl rfl
  · show outer.seen ++ _ = _
    rw [h.step.seen, List.append_assoc]
  · exact h.step.objects.trans ⟨[_], rfl⟩
  · exact h.step.isGlobal
  · exact hhi _ _ h.step.hiEnv
  · exact under_nothing _ _
  · exact forall₂_append h.step.hiSeen (List.Forall₂.cons ⟨rfl, hun⟩ List.Forall₂.nil)
  · intro c1 c2 c3
    obtain ⟨x, y, z, v⟩ := h.step.low (fun q hq => c1 q (List.mem_append_left _ hq)) c2 c3
    have hcl := c1 _ (List.mem_append_right _ (List.mem_singleton.2 rfl))
    have hk := hall hcl x
    refine ⟨hlow _ _ x hk, y, over_nil _ _, forall₂_append v (List.Forall₂.cons ⟨rfl, ?_⟩ List.Forall₂.nil)⟩
    have hcl' : Clean ((look (kinds cls) true rh.1.env name ++ kinds doc) ++ fromGlobal hi H0 name) := by
      simpa [fromGlobal, H0] using hcl
    have := over_var hc hgv (H := H0) (L := { types := rl.1.env.types, isGlobal := fun _ => false }) (name := name) rfl ht hs hcl' hk
    simpa [fromGlobal, H0] using this
  · exact h.tableIn.push name range _ range.stop true h12 (by rw [h.objects]) (by rw [h.objects])
  · intro n x hx
    unfold upd at hx ⊢
    by_cases hn : n = name
    · simpa only [hn, if_true] using hx
    · simp only [hn, if_false] at hx ⊢
      exact h.same n x hx
  · exact hhi _ _ h.hiIn
  · exact h.hiGlobal
  · intro c1 c2 c3
    obtain ⟨x, y, z, v⟩ := h.step.low (fun q hq => c1 q (List.mem_append_left _ hq)) c2 c3
    obtain ⟨x', y'⟩ := h.low (fun q hq => c1 q (List.mem_append_left _ hq)) c2 c3
    have hcl := c1 _ (List.mem_append_right _ (List.mem_singleton.2 rfl))
    exact ⟨hlow _ _ x' (hall hcl x), y'⟩

theorem uses_all (hc : Covers w hi) (hgv : Gives w lo) {st : St} {m : Bytes → Option Expr} {H L : Env}
    (us : List (Bytes × Rng × Union)) {outer inner : St} {m' mi : Bytes → Option Expr} {a b : Pos} {rh rl : Out × Env}
    {new : List (Rng × Expr)} (h : Uses w st outer inner m m' mi a H L rh rl new) (hf : Fits.InOrder us a b) :
    ∃ m'' mi' new', Uses w st (us.foldl (useVariable cls) (outer, inner)).1 (us.foldl (useVariable cls) (outer, inner)).2
      m m'' mi' b H L (us.foldl (evalUse (kinds cls) true) rh) (us.foldl (evalUse (kinds cls) false) rl) new' := by
  induction us generalizing outer inner m' mi a rh rl new with
  | nil =>
    have hf : Upto a b := hf
    refine ⟨m', mi, new, ?_⟩
    exact { h with
      step := { h.step with table := h.step.table.mono hf }
      tableIn := h.tableIn.mono hf }
  | cons u us ih =>
    obtain ⟨h1, h2, h3⟩ := hf
    obtain ⟨v, hv⟩ := uses_one (cls := cls) hc hgv h u h1 h2
    exact ih hv h3

theorem params_all (header : Pos) (ps : List (Bytes × Rng × Union)) {st : St} {m : Bytes → Option Expr} {H : Env}
    (ht : Table st m header) (hh : HiEnv w m H) :
    ∃ m', Table (ps.foldl (addParam header) st) m' header ∧ HiEnv w m' (ps.foldl evalParam H) ∧
      (ps.foldl evalParam H).isGlobal = H.isGlobal ∧
      (ps.foldl (addParam header) st).top = st.top ∧ (ps.foldl (addParam header) st).globals = st.globals ∧
      (ps.foldl (addParam header) st).seen = st.seen ∧ st.objects <+: (ps.foldl (addParam header) st).objects ∧
      ∀ L, LoEnv w m L → LoEnv w m' (ps.foldl evalParam L) ∧ (ps.foldl evalParam L).isGlobal = L.isGlobal := by
  induction ps generalizing st m H with
  | nil => exact ⟨m, ht, hh, rfl, rfl, rfl, rfl, List.prefix_rfl, fun L h => ⟨h, rfl⟩⟩
  | cons p ps ih =>
    have h1 : Table (addParam header st p) (upd m p.1 (mkVar p.1 p.2.2 false .nothing)) header :=
      ht.push p.1 p.2.1 _ header true (upto_refl _) rfl rfl
    have h2 : HiEnv w (upd m p.1 (mkVar p.1 p.2.2 false .nothing)) (evalParam H p) := by
      intro n x hx
      unfold upd at hx
      unfold evalParam Env.put
      by_cases hn : n = p.1
      · simp only [hn, if_true] at hx ⊢
        exact ⟨p.1, p.2.2, false, .nothing, (Option.some.inj hx).symm, fun k hk => hk, under_nothing _ _⟩
      · simp only [hn, if_false] at hx ⊢
        exact hh n x hx
    obtain ⟨m', a1, a2, a3, a4, a5, a6, a7, a8⟩ := ih h1 h2
    refine ⟨m', a1, a2, a3, a4, a5, a6, List.IsPrefix.trans ⟨[_], rfl⟩ a7, fun L hL => ?_⟩
    refine a8 (evalParam L p) ?_
    intro n k hk
    unfold upd
    unfold evalParam Env.put at hk
    by_cases hn : n = p.1
    · simp only [hn, if_true] at hk ⊢
      exact ⟨p.1, p.2.2, false, .nothing, rfl, Or.inl hk⟩
    · simp only [hn, if_false] at hk ⊢
      exact hL n k hk

end

end Verif.Infer
