import Verif.Analyser.Closed

/-!
The analysis only adds: symbols and recorded variables stay, the open blocks and scopes stay open. Without a class or a
namespace in the code the current class and the namespace stay, too.
-/

namespace Verif.Analyser
open Verif.Symbols (Tree Var Rec)

/-- A scope has grown. -/
structure ScopeLe (v v' : Scope) : Prop where
  range : v'.range = v.range
  recs : ∃ rs, v'.recs = v.recs ++ rs
  kids : ∃ ts, v'.kids = v.kids ++ ts

theorem ScopeLe.refl (v : Scope) : ScopeLe v v := ⟨rfl, ⟨[], by simp⟩, ⟨[], by simp⟩⟩

theorem ScopeLe.trans {u v w : Scope} (h : ScopeLe u v) (h' : ScopeLe v w) : ScopeLe u w := by
  obtain ⟨h1, ⟨rs, h2⟩, ⟨ts, h3⟩⟩ := h
  obtain ⟨g1, ⟨rs', g2⟩, ⟨ts', g3⟩⟩ := h'
  exact ⟨g1.trans h1, ⟨rs ++ rs', by rw [g2, h2, List.append_assoc]⟩, ⟨ts ++ ts', by rw [g3, h3, List.append_assoc]⟩⟩

/-- Scopes have grown. -/
def ScopesLe : List Scope → List Scope → Prop
  | [], [] => True
  | v :: vs, v' :: vs' => ScopeLe v v' ∧ ScopesLe vs vs'
  | _, _ => False

theorem ScopesLe.refl : ∀ vs, ScopesLe vs vs
  | [] => trivial
  | v :: vs => ⟨.refl v, ScopesLe.refl vs⟩

theorem ScopesLe.trans : ∀ {us vs ws}, ScopesLe us vs → ScopesLe vs ws → ScopesLe us ws
  | [], [], [], _, _ => trivial
  | _ :: _, _ :: _, _ :: _, h, h' => ⟨h.1.trans h'.1, ScopesLe.trans h.2 h'.2⟩
  | [], _ :: _, _, h, _ => h.elim
  | _ :: _, [], _, h, _ => h.elim
  | [], [], _ :: _, _, h => h.elim
  | _ :: _, _ :: _, [], _, h => h.elim

/-- What holds while a block is open: its name may change. -/
structure Within (C N : Prop) (st st' : St) : Prop where
  kind : st'.top.sym.kind = st.top.sym.kind
  range : st'.top.sym.range = st.top.sym.range
  kids : ∃ ts, st'.top.kids = st.top.kids ++ ts
  below : st'.below = st.below
  vars : ScopeLe st.vars st'.vars
  varsBelow : ScopesLe st.varsBelow st'.varsBelow
  classes : ¬ C → st'.classes = st.classes
  ns : ¬ N → st'.ns = st.ns

/-- What holds at every node. -/
structure Grow (C N : Prop) (st st' : St) : Prop extends Within C N st st' where
  sym : st'.top.sym = st.top.sym
  kept : Kept st st'

theorem Within.refl {C N : Prop} (st : St) : Within C N st st :=
  ⟨rfl, rfl, ⟨[], by simp⟩, rfl, .refl _, .refl _, fun _ => rfl, fun _ => rfl⟩

theorem Within.trans {C N : Prop} {st st' st'' : St} (h : Within C N st st') (h' : Within C N st' st'') :
    Within C N st st'' := by
  obtain ⟨ts, e⟩ := h.kids
  obtain ⟨ts', e'⟩ := h'.kids
  exact ⟨h'.kind.trans h.kind, h'.range.trans h.range, ⟨ts ++ ts', by rw [e', e, List.append_assoc]⟩,
    h'.below.trans h.below, h.vars.trans h'.vars, h.varsBelow.trans h'.varsBelow,
    fun hc => (h'.classes hc).trans (h.classes hc), fun hn => (h'.ns hn).trans (h.ns hn)⟩

theorem Grow.refl {C N : Prop} (st : St) : Grow C N st st := ⟨.refl st, rfl, .refl st⟩

theorem Grow.trans {C N : Prop} {st st' st'' : St} (h : Grow C N st st') (h' : Grow C N st' st'') : Grow C N st st'' :=
  ⟨h.toWithin.trans h'.toWithin, h'.sym.trans h.sym, h.kept.trans h'.kept⟩

theorem Grow.add {C N : Prop} (st : St) (s : Sym) : Grow C N st (st.add s) :=
  ⟨⟨rfl, rfl, ⟨[.node s []], rfl⟩, rfl, .refl _, .refl _, fun _ => rfl, fun _ => rfl⟩, rfl, .refl _⟩

theorem Grow.record {C N : Prop} (st : St) (name r p d) : Grow C N st (st.record name r p d) :=
  ⟨⟨rfl, rfl, ⟨[], by simp [St.record]⟩, rfl, ⟨rfl, ⟨_, rfl⟩, ⟨[], by simp [St.record]⟩⟩, .refl _, fun _ => rfl, fun _ => rfl⟩, rfl, .refl _⟩

theorem Grow.recordBelow {C N : Prop} (st : St) (name r p d) : Grow C N st (st.recordBelow name r p d) := by
  unfold St.recordBelow
  split
  · exact ⟨⟨rfl, rfl, ⟨[], by simp⟩, rfl, .refl _, .refl _, fun _ => rfl, fun _ => rfl⟩, rfl, .refl _⟩
  · next v vs e =>
    refine ⟨⟨rfl, rfl, ⟨[], by simp⟩, rfl, .refl _, ?_, fun _ => rfl, fun _ => rfl⟩, rfl, .refl _⟩
    rw [e]
    exact ⟨⟨rfl, ⟨_, rfl⟩, ⟨[], by simp⟩⟩, .refl _⟩

theorem Within.onTop {C N : Prop} (st : St) (f : Sym → Sym) (h : (f st.top.sym).kind = st.top.sym.kind)
    (h' : (f st.top.sym).range = st.top.sym.range) : Within C N st (st.onTop f) :=
  ⟨h, h', ⟨[], by simp [St.onTop]⟩, rfl, .refl _, .refl _, fun _ => rfl, fun _ => rfl⟩

theorem Within.nameClass {C N : Prop} (hc : C) (st : St) (i : Nat) (name : Types.Ty) : Within C N st (st.nameClass i name) :=
  ⟨rfl, rfl, ⟨[], by simp [St.nameClass]⟩, rfl, .refl _, .refl _, fun h => absurd hc h, fun _ => rfl⟩

/-- A class is begun. -/
theorem Within.pushClass {C N : Prop} (hc : C) (st : St) (k : Kind) (name : Types.Ty) (s : Sym) :
    Within C N (st.pushBlock s) ((st.addClass k name).1.pushBlock s) :=
  ⟨rfl, rfl, ⟨[], by simp [St.addClass, St.pushBlock]⟩, rfl, .refl _, .refl _, fun h => absurd hc h, fun _ => rfl⟩

/-- A block is closed. -/
theorem Within.popBlock {C N : Prop} {st st' : St} {s : Sym} (h : Within C N (st.pushBlock s) st') :
    (Kept st st' → Grow C N st st'.popBlock) ∧
      st'.popBlock.top.kids = st.top.kids ++ [.node st'.top.sym st'.top.kids] := by
  have hb : st'.below = st.top :: st.below := h.below
  have e : st'.popBlock = { st' with top := { st.top with kids := st.top.kids ++ [.node st'.top.sym st'.top.kids] }, below := st.below } := by
    unfold St.popBlock; rw [hb]
  rw [e]
  exact ⟨fun hk => ⟨⟨rfl, rfl, ⟨_, rfl⟩, rfl, h.vars, h.varsBelow, h.classes, h.ns⟩, rfl, hk⟩, rfl⟩

/-- A function is closed. -/
theorem Within.popScope {C N : Prop} {st st' : St} {s : Sym} {r : Rng}
    (h : Within C N ((st.pushVars r).pushBlock s) st') :
    (Kept st st' → Grow C N st st'.popVars.popBlock) ∧
      st'.popVars.popBlock.top.kids = st.top.kids ++ [.node st'.top.sym st'.top.kids] ∧
      ∃ v, ScopeLe st.vars v ∧ st'.popVars.popBlock.vars = { v with kids := v.kids ++ [.node (st'.vars.range, st'.vars.recs) st'.vars.kids] } ∧
        ∃ vs, st'.varsBelow = v :: vs ∧ st'.popVars.popBlock.varsBelow = vs := by
  have hb : st'.below = st.top :: st.below := h.below
  have hv := h.varsBelow
  have e1 : ((st.pushVars r).pushBlock s).varsBelow = st.vars :: st.varsBelow := rfl
  rw [e1] at hv
  match hvs : st'.varsBelow, hv with
  | v :: vs, hv =>
    have e : st'.popVars.popBlock = { st' with
        top := { st.top with kids := st.top.kids ++ [.node st'.top.sym st'.top.kids] }
        below := st.below
        vars := { v with kids := v.kids ++ [.node (st'.vars.range, st'.vars.recs) st'.vars.kids] }
        varsBelow := vs } := by
      simp only [St.popVars, hvs, St.popBlock, hb]
    rw [e]
    refine ⟨fun hk => ⟨⟨rfl, rfl, ⟨_, rfl⟩, rfl, ?_, hv.2, h.classes, h.ns⟩, rfl, hk⟩, rfl, v, hv.1, rfl, vs, rfl, rfl⟩
    exact hv.1.trans ⟨rfl, ⟨[], by simp⟩, ⟨_, rfl⟩⟩

/-- The analysis only adds. -/
theorem closed_grow (c : Ctx) (C N : Prop) : Closed c C N (Grow C N) (Within C N) where
  pre := ⟨.refl, .trans⟩
  qpre := ⟨.refl, .trans⟩
  lift h := h.toWithin
  frame h := ⟨h.sym, h.kept⟩
  add st s _ _ _ := .add st s
  const st s _ _ _ := .add st s
  property s h _ _ _ _ := h.trans (.add _ s)
  classConst s h _ _ _ _ := h.trans (.add _ s)
  docMember _ _ _ _ _ _ _ h _ _ _ := h.trans (Grow.add _ _).toWithin
  record st name r p d _ := .record st name r p d
  recordBelow st n p d _ _ := .recordBelow st _ _ p d
  block _ _ _ _ h hk _ := h.popBlock.1 hk
  classBlock hc _ _ _ k name _ _ _ _ h hk _ :=
    (Within.trans (Within.pushClass hc _ k name _) h).popBlock.1 hk
  scope _ _ _ _ _ _ _ h hk _ := h.popScope.1 hk
  method _ _ _ _ _ _ _ h hk _ := (h.trans (.onTop _ _ rfl rfl)).popScope.1 hk
  onTop st f h := .onTop st f (h _).1 (h _).2.1
  crash st := ⟨⟨rfl, rfl, ⟨[], by simp⟩, rfl, .refl _, .refl _, fun _ => rfl, fun _ => rfl⟩, rfl, .refl _⟩
  doc st _ _ _ _ _ := ⟨⟨rfl, rfl, ⟨[], by simp⟩, rfl, .refl _, .refl _, fun _ => rfl, fun _ => rfl⟩, rfl, .refl _⟩
  ns hn _ st x := ⟨⟨rfl, rfl, ⟨[], by simp⟩, rfl, .refl _, .refl _, fun _ => rfl, fun h => absurd hn h⟩, rfl, .refl _⟩
  nameClass hc _ st i name := .nameClass hc st i name

/-- Recorded parameters. -/
theorem Grow.recordParameters {C N : Prop} (ps : List (Bytes × Rng)) (p : Pos) (st : St) :
    Grow C N st (recordParameters ps p st) := by
  unfold Analyser.recordParameters
  induction ps generalizing st with
  | nil => exact .refl st
  | cons x ps ih => rw [List.foldl_cons]; exact (Grow.record ..).trans (ih _)

theorem Grow.recordParametersAt {C N : Prop} (c : Ctx) (ps : List (Bytes × Rng)) (h : Item) (st : St) :
    Grow C N st (recordParametersAt c ps h st) := by
  unfold Analyser.recordParametersAt
  split
  · exact .refl st
  · exact (closed_grow c C N).crash (σ := ()) st
  · exact .recordParameters ..

section
variable {C N : Prop} (c : Ctx)

theorem Grow.parameterList (ks : List Item) (r : St × List (Bytes × Rng)) : Grow C N r.1 (parameterList c ks r).1 := by
  refine PreOrder.fold ⟨Grow.refl, Grow.trans⟩ (fun k _ r => ?_) r
  dsimp only
  split
  · refine PreOrder.each ⟨Grow.refl, Grow.trans⟩ (fun k _ st => ?_) r.1
    split
    · exact .add _ _
    · exact .add _ _
    · exact .refl _
  · exact .refl _

theorem Within.functionHeader (ks : List Item) (r : St × List (Bytes × Rng)) : Within C N r.1 (functionHeader c ks r).1 := by
  refine PreOrder.fold ⟨Within.refl, Within.trans⟩ (fun k _ r => ?_) r
  split
  · split
    · exact (closed_grow c C N).onName (σ := ()) r.1 fun _ => _
    · exact .refl _
  · exact (Grow.parameterList c _ r).toWithin
  · exact (closed_grow c C N).onName (σ := ()) r.1 fun _ => _
  · exact .refl _

theorem Within.methodHeader (ks : List Item) (r : St × List (Bytes × Rng)) : Within C N r.1 (methodHeader c ks r).1 := by
  refine PreOrder.fold ⟨Within.refl, Within.trans⟩ (fun k _ r => ?_) r
  split
  · split
    · exact (closed_grow c C N).onName (σ := ()) r.1 fun _ => _
    · exact .refl _
  · exact (Grow.parameterList c _ r).toWithin
  · exact (closed_grow c C N).onName (σ := ()) r.1 fun _ => _
  · exact .refl _

theorem Grow.closureUse (ks : List Item) (st : St) : Grow C N st (closureUse c ks st) := by
  refine PreOrder.each ⟨Grow.refl, Grow.trans⟩ (fun k _ st => ?_) st
  refine PreOrder.ite ⟨Grow.refl, Grow.trans⟩ fun _ => PreOrder.each ⟨Grow.refl, Grow.trans⟩ (fun x _ st => ?_) st
  dsimp only
  split
  · exact (Grow.record ..).trans ((Grow.recordBelow ..).trans (.add _ _))
  · exact .refl _

theorem Grow.anonymousHeader (ks : List Item) (r : St × List (Bytes × Rng)) : Grow C N r.1 (anonymousHeader c ks r).1 := by
  refine PreOrder.fold ⟨Grow.refl, Grow.trans⟩ (fun k _ r => ?_) r
  split
  · exact .parameterList c _ r
  · exact .closureUse c _ _
  · exact .refl _

end

end Verif.Analyser
