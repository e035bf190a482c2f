import Verif.Server.RacesValid
import Verif.Server.RacesSpec

/-! The text of an open document stays in memory, whatever the workers do. -/

namespace Verif.Server.Races

def TextAt (c : RState) (u : Bytes) (id : Nat) (t : Bytes) : Prop :=
  ∃ o : Obj, c.heap[id]? = some o ∧ o.uri = u ∧ o.text = t

def OpenAt (c : RState) (u : Bytes) (id : Nat) : Prop :=
  ∃ o : Obj, c.heap[id]? = some o ∧ o.uri = u ∧ o.isOpen = true

/-- The document in memory is open and has this text. -/
def Kept (c : RState) (u t : Bytes) : Prop := ∃ id, c.docs u = some id ∧ TextAt c u id t ∧ OpenAt c u id

/-- No worker is about to replace or drop the document. -/
def TamePC (c : RState) (u : Bytes) (pc : PC) : Prop :=
  pc ≠ .miss ∧ (∀ x, pc ≠ .read x) ∧ (∀ i, pc ≠ .drop i) ∧ ∀ i, pc.id? = some i → OpenAt c u i

def Tame (c : RState) (u : Bytes) : Prop := ∀ w ∈ c.workers, w.uri = u → TamePC c u w.pc

/-- While the document is opened with the text `t`. -/
def Opening (c : RState) (u t : Bytes) : PC → Prop
  | .look => True
  | .miss => c.docs u = none
  | .read x => x = t
  | .got i | .locked i => c.docs u = some i ∧ TextAt c u i t
  | .unsynced _ | .drop _ | .cloned _ | .stored _ | .del => False
  | .toLoad i | .loading i | .ready i | .written i | .unlocked i =>
    c.docs u = some i ∧ TextAt c u i t ∧ OpenAt c u i

/-- While it is changed to `t`. -/
def Editing (c : RState) (u : Bytes) (f : Bytes → Bytes) (t : Bytes) : PC → Prop
  | .look => ∃ t0, f t0 = t ∧ Kept c u t0
  | .got i => ∃ t0, f t0 = t ∧ c.docs u = some i ∧ TextAt c u i t0 ∧ OpenAt c u i
  | .cloned n | .stored n => (∃ t0, Kept c u t0) ∧ TextAt c u n t ∧ OpenAt c u n
  | _ => False

/-- While the handler is at work on `u`. -/
def Handled (c : RState) (u t : Bytes) (j : Job) (pc : PC) : Prop :=
  match j with
  | .openDoc x => x = t ∧ Opening c u t pc
  | .change f => Tame c u ∧ Editing c u f t pc
  | .request => Tame c u ∧ Kept c u t ∧ pc ≠ .miss ∧ ∀ x, pc ≠ .read x
  | _ => False

/-- The invariant for a file that is open in the editor with the text `t`. -/
structure Mirror (u : Bytes) (c : RState) (t : Bytes) : Prop where
  other : ¬ c.handling u → Tame c u ∧ Kept c u t
  own : ∀ j pc, c.front = some ⟨u, j, pc⟩ → Handled c u t j pc

/-- What concerns `u` is not touched. -/
structure Steady (u : Bytes) (c c' : RState) : Prop where
  docs : c'.docs u = c.docs u
  text : ∀ id t, TextAt c u id t → TextAt c' u id t
  isOpen : ∀ id, OpenAt c u id → OpenAt c' u id

theorem Steady.kept {u t : Bytes} {c c' : RState} (h : Steady u c c') (hk : Kept c u t) : Kept c' u t := by
  obtain ⟨id, h1, h2, h3⟩ := hk
  exact ⟨id, h.docs.trans h1, h.text _ _ h2, h.isOpen _ h3⟩

theorem Steady.tamePC {u : Bytes} {c c' : RState} {pc : PC} (h : Steady u c c') (ht : TamePC c u pc) : TamePC c' u pc :=
  ⟨ht.1, ht.2.1, ht.2.2.1, fun i hi => h.isOpen i (ht.2.2.2 i hi)⟩

theorem Steady.opening {u t : Bytes} {c c' : RState} {pc : PC} (h : Steady u c c') (ho : Opening c u t pc) :
    Opening c' u t pc := by
  cases pc <;> simp only [Opening] at ho ⊢ <;> try exact ho
  all_goals first
    | exact h.docs.trans ho
    | exact ⟨h.docs.trans ho.1, h.text _ _ ho.2⟩
    | exact ⟨h.docs.trans ho.1, h.text _ _ ho.2.1, h.isOpen _ ho.2.2⟩

theorem Steady.editing {u t : Bytes} {f : Bytes → Bytes} {c c' : RState} {pc : PC} (h : Steady u c c')
    (ho : Editing c u f t pc) : Editing c' u f t pc := by
  cases pc <;> simp only [Editing] at ho ⊢ <;> try exact ho
  · obtain ⟨t0, h1, h2⟩ := ho; exact ⟨t0, h1, h.kept h2⟩
  · obtain ⟨t0, h1, h2, h3, h4⟩ := ho
    exact ⟨t0, h1, h.docs.trans h2, h.text _ _ h3, h.isOpen _ h4⟩
  all_goals
    obtain ⟨⟨t0, h1⟩, h2, h3⟩ := ho
    exact ⟨⟨t0, h.kept h1⟩, h.text _ _ h2, h.isOpen _ h3⟩

theorem Steady.handled {u t : Bytes} {c c' : RState} {j : Job} {pc : PC} (h : Steady u c c') (ht : Tame c u → Tame c' u)
    (hh : Handled c u t j pc) : Handled c' u t j pc := by
  cases j <;> simp only [Handled] at hh ⊢
  · exact ⟨hh.1, h.opening hh.2⟩
  · exact ⟨ht hh.1, h.editing hh.2⟩
  · exact ⟨ht hh.1, h.kept hh.2.1, hh.2.2⟩

/-- A state in which the handler is where it was, and what concerns `u` is as before. -/
theorem Mirror.steady {u t : Bytes} {c c' : RState} (hm : Mirror u c t) (hf : c'.front = c.front) (h : Steady u c c')
    (ht : Tame c u → Tame c' u) : Mirror u c' t := by
  refine ⟨fun hn => ?_, fun j pc hj => ?_⟩
  · obtain ⟨h1, h2⟩ := hm.other (by unfold RState.handling at hn ⊢; rwa [hf] at hn)
    exact ⟨ht h1, h.kept h2⟩
  · exact h.handled ht (hm.own j pc (by rw [← hf, hj]))

/-- A step of a call for another file. -/
theorem Framed.steady_other {u : Bytes} {t : Call} {c c' : RState} {pc' : Option PC} (fr : Framed t c c' pc')
    (hne : t.uri ≠ u) : Steady u c c' := by
  refine ⟨fr.docs u (Ne.symm hne), ?_, ?_⟩
  · rintro id x ⟨o, h1, h2, h3⟩
    obtain ⟨o', h4, h5, h6, -⟩ := fr.heap id o h1
    exact ⟨o', h4, h5.trans h2, h6.trans h3⟩
  · rintro id ⟨o, h1, h2, h3⟩
    obtain ⟨o', h4, h5, h6, h7, -⟩ := fr.heap id o h1
    exact ⟨o', h4, h5.trans h2, by rw [h7 (by rw [h2]; exact Ne.symm hne)]; exact h3⟩

/-- A step of a call that neither opens nor closes, and leaves the map alone. -/
theorem Framed.steady_own {u : Bytes} {t : Call} {c c' : RState} {pc' : Option PC} (fr : Framed t c c' pc')
    (hd : c'.docs u = c.docs u) (hs : t.job.setsOpen = false) : Steady u c c' := by
  refine ⟨hd, ?_, ?_⟩
  · rintro id x ⟨o, h1, h2, h3⟩
    obtain ⟨o', h4, h5, h6, -⟩ := fr.heap id o h1
    exact ⟨o', h4, h5.trans h2, h6.trans h3⟩
  · rintro id ⟨o, h1, h2, h3⟩
    obtain ⟨o', h4, h5, h6, -, h8, -⟩ := fr.heap id o h1
    exact ⟨o', h4, h5.trans h2, (h8 hs).trans h3⟩

/-- A step of a tame worker. -/
theorem worker_next {w : Call} {c c1 : RState} {pc' : Option PC} (hj : w.job.ofEditor = false) (hfit : Fits w.job w.pc)
    (ht : TamePC c w.uri w.pc) (hd : ∃ id, c.docs w.uri = some id)
    (hn : w.next c = some (c1, pc')) : c1.docs = c.docs ∧ ∀ pc, pc' = some pc → pc ≠ .miss ∧ (∀ x, pc ≠ .read x) ∧
      (∀ i, pc ≠ .drop i) ∧ ∀ i, pc.id? = some i → w.pc.id? = some i ∨ c.docs w.uri = some i := by
  obtain ⟨u, j, pc⟩ := w
  obtain ⟨t1, t2, t3, t4⟩ := ht
  simp only at hj hfit t1 t2 t3 t4 hd
  have hj : j = .create ∨ j = .delete := by cases j <;> simp_all [Job.ofEditor]
  cases pc with
  | miss => exact absurd rfl t1
  | read x => exact absurd rfl (t2 x)
  | drop i => exact absurd rfl (t3 i)
  | look =>
    obtain ⟨id, hid⟩ := hd
    simp only [Call.next, hid] at hn
    cases hn
    refine ⟨rfl, fun pc e => ?_⟩
    cases e
    exact ⟨by simp, by simp, by simp, fun i hi => .inr (by cases hi; exact hid)⟩
  | got id =>
    obtain ⟨o, ho, -, -⟩ := t4 id rfl
    rcases hj with rfl | rfl
    · simp only [Call.next, ho] at hn
      split at hn <;> cases hn
      refine ⟨rfl, fun pc e => ?_⟩
      cases e
      exact ⟨by simp, by simp, by simp, fun i hi => .inl hi⟩
    · exact hfit.elim
  | locked id =>
    obtain ⟨o, ho, -, -⟩ := t4 id rfl
    rcases hj with rfl | rfl
    · simp only [Call.next, ho] at hn
      cases hs : c.synced u with
      | some h =>
        simp only [hs] at hn
        cases hn
        refine ⟨rfl, fun pc e => ?_⟩
        cases e
        unfold compare
        split <;> exact ⟨by simp, by simp, by simp, fun i hi => .inl hi⟩
      | none =>
        simp only [hs] at hn
        cases hn
        refine ⟨rfl, fun pc e => ?_⟩
        cases e
        exact ⟨by simp, by simp, by simp, fun i hi => .inl hi⟩
    · exact hfit.elim
  | unsynced id =>
    obtain ⟨o, ho, -, -⟩ := t4 id rfl
    simp only [Call.next, ho] at hn
    cases hn
    refine ⟨rfl, fun pc e => ?_⟩
    cases e
    unfold compare
    split <;> exact ⟨by simp, by simp, by simp, fun i hi => .inl hi⟩
  | toLoad id =>
    obtain ⟨o, ho, -, -⟩ := t4 id rfl
    simp only [Call.next, ho] at hn
    cases hp : o.phase <;> simp only [hp] at hn <;> cases hn <;> refine ⟨rfl, fun pc e => ?_⟩ <;> cases e <;>
      exact ⟨by simp, by simp, by simp, fun i hi => .inl hi⟩
  | loading id =>
    simp only [Call.next] at hn
    cases hn
    refine ⟨rfl, fun pc e => ?_⟩
    cases e
    exact ⟨by simp, by simp, by simp, fun i hi => .inl hi⟩
  | ready id =>
    obtain ⟨o, ho, -, -⟩ := t4 id rfl
    rcases hj with rfl | rfl
    · simp only [Call.next, ho] at hn
      cases hn
      refine ⟨rfl, fun pc e => ?_⟩
      cases e
      exact ⟨by simp, by simp, by simp, fun i hi => .inl hi⟩
    · exact hfit.elim
  | written id =>
    simp only [Call.next] at hn
    cases hn
    refine ⟨rfl, fun pc e => ?_⟩
    cases e
    exact ⟨by simp, by simp, by simp, fun i hi => .inl hi⟩
  | unlocked id =>
    obtain ⟨o, ho, -, hop⟩ := t4 id rfl
    simp only [Call.next, ho, hop, if_true] at hn
    cases hn
    exact ⟨rfl, fun pc e => by cases e⟩
  | cloned id => rcases hj with rfl | rfl <;> exact hfit.elim
  | stored id => rcases hj with rfl | rfl <;> exact hfit.elim
  | del =>
    simp only [Call.next] at hn
    cases hn
    exact ⟨rfl, fun pc e => by cases e⟩

theorem Mirror.docs {u t : Bytes} {c : RState} (hm : Mirror u c t) (hf : ∀ x pc, c.front ≠ some ⟨u, .openDoc x, pc⟩) :
    Tame c u ∧ ∃ id, c.docs u = some id ∧ OpenAt c u id := by
  by_cases hh : c.handling u
  · obtain ⟨⟨v, j, pc⟩, h1, rfl⟩ := hh
    have h2 := hm.own j pc h1
    cases j with
    | openDoc x => exact absurd h1 (hf x pc)
    | change f =>
      obtain ⟨h3, h4⟩ := h2
      refine ⟨h3, ?_⟩
      cases pc <;> simp only [Editing] at h4
      · obtain ⟨t0, -, id, a, -, b⟩ := h4; exact ⟨id, a, b⟩
      · obtain ⟨t0, -, a, -, b⟩ := h4; exact ⟨_, a, b⟩
      · obtain ⟨⟨t0, id, a, -, b⟩, -⟩ := h4; exact ⟨id, a, b⟩
      · obtain ⟨⟨t0, id, a, -, b⟩, -⟩ := h4; exact ⟨id, a, b⟩
    | request => obtain ⟨h3, ⟨id, a, -, b⟩, -⟩ := h2; exact ⟨h3, id, a, b⟩
    | close => exact h2.elim
    | create => exact h2.elim
    | delete => exact h2.elim
  · obtain ⟨h3, id, a, -, b⟩ := hm.other hh
    exact ⟨h3, id, a, b⟩

/-- A step of the handler on `u`. -/
theorem handler_next {u t : Bytes} {c c1 : RState} {j : Job} {pc : PC} {pc' : Option PC} (hv : Valid c)
    (hm : Mirror u c t) (hf : c.front = some ⟨u, j, pc⟩) (hal : OpensAlone u c)
    (hn : Call.next c ⟨u, j, pc⟩ = some (c1, pc')) :
    match (generalizing := false) pc' with
    | some p => Handled c1 u t j p
    | none => Tame c1 u ∧ Kept c1 u t := by
  have hmem : (⟨u, j, pc⟩ : Call) ∈ c.calls := by simp [RState.calls, hf]
  have fr := hv.framed hmem hn
  have h := hm.own j pc hf
  have tame_same : Steady u c c1 → Tame c u → Tame c1 u := fun hs ht w hw hu =>
    hs.tamePC (ht w (by rw [← fr.workers]; exact hw) hu)
  cases j with
  | close => exact h.elim
  | create => exact h.elim
  | delete => exact h.elim
  | request =>
    obtain ⟨h1, ⟨id, k1, k2, k3⟩, h2, h3⟩ := h
    have key : c1.docs = c.docs ∧ ∀ p, pc' = some p → p ≠ .miss ∧ ∀ x, p ≠ .read x := by
      have hfit := hv.fits _ hmem
      have hid := hv.holds _ hmem
      simp only at hfit hid
      cases pc <;> first | exact hfit.elim | skip
      · simp only [Call.next, k1] at hn
        cases hn
        exact ⟨rfl, fun p e => by cases e; simp⟩
      · exact absurd rfl h2
      · exact absurd rfl (h3 _)
      · obtain ⟨o, ho, -⟩ := hid _ rfl
        simp only [Call.next, ho] at hn
        cases hn
        exact ⟨rfl, fun p e => by cases e; simp⟩
      · obtain ⟨o, ho, -⟩ := hid _ rfl
        simp only [Call.next, ho] at hn
        cases hp : o.phase <;> simp only [hp] at hn <;> cases hn <;> exact ⟨rfl, fun p e => by cases e; simp⟩
      · simp only [Call.next] at hn
        cases hn
        exact ⟨rfl, fun p e => by cases e; simp⟩
      · obtain ⟨o, ho, -⟩ := hid _ rfl
        simp only [Call.next, ho] at hn
        cases hn
        exact ⟨rfl, fun p e => by cases e⟩
    have hs : Steady u c c1 := fr.steady_own (by rw [key.1]) rfl
    cases pc' with
    | none => exact ⟨tame_same hs h1, hs.kept ⟨id, k1, k2, k3⟩⟩
    | some p => exact ⟨tame_same hs h1, hs.kept ⟨id, k1, k2, k3⟩, key.2 p rfl⟩
  | change f =>
    obtain ⟨h1, h2⟩ := h
    cases pc <;> simp only [Editing] at h2
    · -- look
      obtain ⟨t0, e0, id, k1, k2, k3⟩ := h2
      simp only [Call.next, k1] at hn
      cases hn
      exact ⟨h1, t0, e0, k1, k2, k3⟩
    · -- got
      obtain ⟨t0, e0, k1, ⟨o, k2, k3, k4⟩, ⟨o', k5, -, k6⟩⟩ := h2
      rw [k2] at k5
      cases k5
      simp only [Call.next, k2] at hn
      cases hn
      have hs : Steady u c { c with heap := c.heap ++ [⟨u, f o.text, .loaded, o.isOpen, false⟩] } := fr.steady_own rfl rfl
      have hlast : (c.heap ++ [⟨u, f o.text, .loaded, o.isOpen, false⟩])[c.heap.length]? =
          some (⟨u, f o.text, .loaded, o.isOpen, false⟩ : Obj) := by simp
      refine ⟨tame_same hs h1, ⟨t0, hs.kept ⟨_, k1, ⟨o, k2, k3, k4⟩, ⟨o, k2, k3, k6⟩⟩⟩, ?_, ?_⟩
      · exact ⟨_, hlast, rfl, by rw [k4, e0]⟩
      · exact ⟨_, hlast, rfl, k6⟩
    · -- cloned
      obtain ⟨k, ⟨o, k2, k3, k4⟩, k5⟩ := h2
      simp only [Call.next, k2] at hn
      cases hn
      have hs : Steady u c (c.sync u o) := fr.steady_own rfl rfl
      obtain ⟨t0, k⟩ := k
      exact ⟨tame_same hs h1, ⟨t0, hs.kept k⟩, ⟨o, k2, k3, k4⟩, k5⟩
    · -- stored
      obtain ⟨-, ⟨o, k2, k3, k4⟩, k5⟩ := h2
      simp only [Call.next] at hn
      cases hn
      refine ⟨h1, ?_⟩
      exact ⟨_, by simp [upd], ⟨o, k2, k3, k4⟩, k5⟩
  | openDoc x =>
    obtain ⟨rfl, h2⟩ := h
    obtain ⟨hq, hvw⟩ := hal x pc hf
    have tame_quiet : ∀ {c' : RState}, c'.workers = c.workers → Tame c' u := by
      intro c' e w hw hu
      have := hq w (by rw [← e]; exact hw) hu
      unfold Call.busy at this
      obtain ⟨v, jj, p⟩ := w
      cases p <;> simp only [not_true, not_false_eq_true] at this
      · exact ⟨by simp, by simp, by simp, by simp [PC.id?]⟩
      · exact ⟨by simp, by simp, by simp, by simp [PC.id?]⟩
    cases pc <;> simp only [Opening] at h2
    · -- look
      have hvw := hvw (.inl rfl)
      cases hd : c.docs u with
      | none => simp only [Call.next, hd] at hn; cases hn; exact ⟨rfl, hd⟩
      | some id =>
        simp only [Call.next, hd] at hn
        cases hn
        obtain ⟨o, h3, h4⟩ := hv.docs u id hd
        simp only [RState.view, hd, h3, Option.map_some, Option.some.injEq] at hvw
        exact ⟨rfl, hd, o, h3, h4, hvw⟩
    · -- miss
      have hvw := hvw (.inr rfl)
      simp only [RState.view, h2] at hvw
      simp only [Call.next, hvw] at hn
      cases hn
      exact ⟨rfl, rfl⟩
    · -- read
      subst h2
      simp only [Call.next] at hn
      cases hn
      refine ⟨rfl, by simp [upd], ?_⟩
      exact ⟨⟨u, _, .fresh, false, false⟩, by simp, rfl, rfl⟩
    · -- got
      obtain ⟨k1, o, k2, k3, k4⟩ := h2
      simp only [Call.next, k2] at hn
      split at hn <;> cases hn
      exact ⟨rfl, k1, _, getElem?_modify_same k2, k3, k4⟩
    · -- locked
      obtain ⟨k1, o, k2, k3, k4⟩ := h2
      simp only [Call.next] at hn
      cases hn
      exact ⟨rfl, k1, ⟨_, getElem?_modify_same k2, k3, k4⟩, ⟨_, getElem?_modify_same k2, k3, rfl⟩⟩
    · -- toLoad
      obtain ⟨k1, ⟨o, k2, k3, k4⟩, ⟨o', k5, -, k6⟩⟩ := h2
      rw [k2] at k5
      cases k5
      simp only [Call.next, k2] at hn
      cases hp : o.phase <;> simp only [hp] at hn <;> cases hn
      · exact ⟨rfl, k1, ⟨_, getElem?_modify_same k2, k3, k4⟩, ⟨_, getElem?_modify_same k2, k3, k6⟩⟩
      · exact ⟨rfl, k1, ⟨_, k2, k3, k4⟩, ⟨_, k2, k3, k6⟩⟩
      · exact ⟨rfl, k1, ⟨_, k2, k3, k4⟩, ⟨_, k2, k3, k6⟩⟩
    · -- loading
      obtain ⟨k1, ⟨o, k2, k3, k4⟩, ⟨o', k5, -, k6⟩⟩ := h2
      rw [k2] at k5
      cases k5
      simp only [Call.next] at hn
      cases hn
      exact ⟨rfl, k1, ⟨_, getElem?_modify_same k2, k3, k4⟩, ⟨_, getElem?_modify_same k2, k3, k6⟩⟩
    · -- ready
      obtain ⟨k1, ⟨o, k2, k3, k4⟩, k5⟩ := h2
      simp only [Call.next, k2] at hn
      cases hn
      exact ⟨rfl, k1, ⟨o, k2, k3, k4⟩, k5⟩
    · -- written
      obtain ⟨k1, ⟨o, k2, k3, k4⟩, ⟨o', k5, -, k6⟩⟩ := h2
      rw [k2] at k5
      cases k5
      simp only [Call.next] at hn
      cases hn
      exact ⟨rfl, k1, ⟨_, getElem?_modify_same k2, k3, k4⟩, ⟨_, getElem?_modify_same k2, k3, k6⟩⟩
    · -- unlocked
      obtain ⟨k1, ⟨o, k2, k3, k4⟩, ⟨o', k5, -, k6⟩⟩ := h2
      rw [k2] at k5
      cases k5
      simp only [Call.next, k2, k6, if_true] at hn
      cases hn
      exact ⟨tame_quiet rfl, _, k1, ⟨o, k2, k3, k4⟩, ⟨o, k2, k3, k6⟩⟩

/-- What a step of a worker does to the state. -/
theorem work_step {c c' : RState} {i : Nat} (hv : Valid c) (h : c.step (.work i) = some c') :
    ∃ w c1 pc', w ∈ c.workers ∧ w.next c = some (c1, pc') ∧ Framed w c c1 pc' ∧ c'.front = c.front ∧ c'.docs = c1.docs ∧
      c'.heap = c1.heap ∧ (c'.index = c1.index ∧ c'.synced = c1.synced ∧ c'.disk = c1.disk) ∧
      (∀ x ∈ c'.workers, x ∈ c.workers ∨ ∃ pc, pc' = some pc ∧ x = { w with pc }) ∧
      ∀ pc, pc' = some pc → { w with pc } ∈ c'.workers := by
  simp only [RState.step] at h
  cases hf : c.workers[i]? with
  | none => rw [hf] at h; cases h
  | some w =>
    simp only [hf] at h
    have hww : w ∈ c.workers := List.mem_of_getElem? hf
    have hwc : w ∈ c.calls := by simp [RState.calls, hww]
    cases hn : w.next c with
    | none => rw [hn] at h; cases h
    | some r =>
      obtain ⟨c1, pc'⟩ := r
      simp only [hn] at h
      have fr := hv.framed hwc hn
      cases pc' with
      | none =>
        simp only [Option.some.injEq] at h
        subst h
        refine ⟨w, c1, none, hww, hn, fr, fr.front, rfl, rfl, ⟨rfl, rfl, rfl⟩, fun x hx => ?_, by simp⟩
        left; rw [← fr.workers]; exact List.mem_of_mem_eraseIdx hx
      | some pc =>
        simp only [Option.some.injEq] at h
        subst h
        refine ⟨w, c1, some pc, hww, hn, fr, fr.front, rfl, rfl, ⟨rfl, rfl, rfl⟩, fun x hx => ?_, fun p hp => ?_⟩
        · rcases List.mem_or_eq_of_mem_set hx with h | h
          · left; rw [← fr.workers]; exact h
          · exact .inr ⟨pc, rfl, h⟩
        · cases hp
          have hlt : i < c.workers.length := (List.getElem?_eq_some_iff.mp hf).1
          rw [← fr.workers] at hlt
          exact List.mem_set hlt _

theorem Mirror.step {u : Bytes} {e : Option Bytes} {c c' : RState} {ev : REv} (hv : Valid c)
    (hm : ∀ t, e = some t → Mirror u c t) (hal : OpensAlone u c) (hal' : OpensAlone u c') (h : c.step ev = some c') :
    ∀ t, typedStep u e ev = some t → Mirror u c' t := by
  intro t ht
  cases ev with
  | message v j =>
    simp only [RState.step] at h
    split at h
    · next hc =>
      simp only [Bool.and_eq_true, Option.isNone_iff_eq_none] at hc
      cases h
      by_cases hvu : v = u
      · subst hvu
        refine ⟨fun hn => absurd ⟨_, rfl, rfl⟩ hn, fun j' pc hj => ?_⟩
        simp only [Option.some.injEq, Call.mk.injEq, true_and] at hj
        obtain ⟨rfl, rfl⟩ := hj
        have idle : ∀ t, e = some t → Tame c v ∧ Kept c v t := fun t he =>
          (hm t he).other (by rintro ⟨x, hx, -⟩; rw [hc.2] at hx; cases hx)
        cases j with
        | openDoc x =>
          simp only [typedStep, if_true, Option.some.injEq] at ht
          exact ⟨ht, trivial⟩
        | change f =>
          simp only [typedStep, if_true, Option.map_eq_some_iff] at ht
          obtain ⟨t0, h1, h2⟩ := ht
          obtain ⟨k1, k2⟩ := idle t0 h1
          exact ⟨k1, t0, h2, k2⟩
        | close => simp [typedStep] at ht
        | request =>
          obtain ⟨k1, k2⟩ := idle t ht
          exact ⟨k1, k2, by simp [Job.start], by simp [Job.start]⟩
        | create => cases hc.1
        | delete => cases hc.1
      · have he : typedStep u e (.message v j) = e := by cases j <;> simp [typedStep, hvu]
        rw [he] at ht
        have hi := (hm t ht).other (by rintro ⟨x, hx, -⟩; rw [hc.2] at hx; cases hx)
        refine ⟨fun _ => hi, fun j' pc hj => ?_⟩
        simp only [Option.some.injEq, Call.mk.injEq] at hj
        exact absurd hj.1 hvu
    · cases h
  | worker v j =>
    simp only [RState.step] at h
    split at h
    · cases h
    · cases h
      refine (hm t ht).steady rfl ⟨rfl, fun _ _ h => h, fun _ h => h⟩ fun htm w hw hu => ?_
      rcases List.mem_append.1 hw with hw | hw
      · exact htm w hw hu
      · rw [List.mem_singleton] at hw
        subst hw
        cases j <;> exact ⟨by simp [Job.start], by simp [Job.start], by simp [Job.start], by simp [Job.start, PC.id?]⟩
  | handler =>
    have ht : e = some t := ht
    have hm := hm t ht
    simp only [RState.step] at h
    cases hf : c.front with
    | none => rw [hf] at h; cases h
    | some x =>
      simp only [hf] at h
      cases hn : x.next c with
      | none => rw [hn] at h; cases h
      | some r =>
        obtain ⟨c1, pc'⟩ := r
        simp only [hn] at h
        cases h
        have hx : x ∈ c.calls := by simp [RState.calls, hf]
        have fr := hv.framed hx hn
        by_cases hxu : x.uri = u
        · obtain ⟨v, j, pc⟩ := x
          subst hxu
          have hh := handler_next hv hm hf hal hn
          cases pc' with
          | none =>
            refine ⟨fun _ => hh, fun j' p hj => by simp at hj⟩
          | some p =>
            refine ⟨fun hn => absurd ⟨_, rfl, rfl⟩ hn, fun j' p' hj => ?_⟩
            simp only [Option.map_some, Option.some.injEq, Call.mk.injEq, true_and] at hj
            obtain ⟨rfl, rfl⟩ := hj
            exact (Steady.mk rfl (fun _ _ h => h) (fun _ h => h) :
              Steady v c1 { c1 with front := some ⟨v, j, p⟩ }).handled (fun h => h) hh
        · have hs := fr.steady_other hxu
          have hi := hm.other (by rintro ⟨y, hy, hy'⟩; rw [hf] at hy; cases hy; exact hxu hy')
          have hs' : Steady u c { c1 with front := pc'.map fun pc => { x with pc } } := ⟨hs.1, hs.2, hs.3⟩
          refine ⟨fun _ => ⟨fun w hw hu => hs'.tamePC (hi.1 w (by rw [← fr.workers]; exact hw) hu), hs'.kept hi.2⟩,
            fun j p hj => ?_⟩
          simp only [Option.map_eq_some_iff] at hj
          obtain ⟨pc, -, h2⟩ := hj
          obtain ⟨v, j', pc2⟩ := x
          simp only [Call.mk.injEq] at h2
          exact absurd h2.1 hxu
  | work i =>
    have ht : e = some t := ht
    have hm := hm t ht
    obtain ⟨w, c1, pc', hww, hn, fr, hfront, hdocs, hheap, -, hmem, hown⟩ := work_step hv h
    have hwc : w ∈ c.calls := by simp [RState.calls, hww]
    have lift : Steady u c c1 → Steady u c c' := fun hs => ⟨by rw [hdocs]; exact hs.docs, fun id x hx => by
      have := hs.text id x hx; unfold TextAt at this ⊢; rwa [hheap], fun id hx => by
      have := hs.isOpen id hx; unfold OpenAt at this ⊢; rwa [hheap]⟩
    by_cases hwu : w.uri = u
    · by_cases hop : ∃ x pc, c.front = some ⟨u, .openDoc x, pc⟩
      · obtain ⟨x, pc, hop⟩ := hop
        have q1 := (hal x pc hop).1 w hww hwu
        have q2 := (hal' x pc (hfront.trans hop)).1
        obtain ⟨v, j, p⟩ := w
        unfold Call.busy at q1
        cases p <;> simp only [not_true, not_false_eq_true] at q1
        · exfalso
          cases hd : c.docs v with
          | none =>
            simp only [Call.next, hd] at hn
            cases hn
            exact q2 _ (hown _ rfl) hwu trivial
          | some id =>
            simp only [Call.next, hd] at hn
            cases hn
            exact q2 _ (hown _ rfl) hwu trivial
        · simp only [Call.next] at hn
          cases hn
          refine hm.steady hfront (lift ⟨rfl, fun _ _ h => h, fun _ h => h⟩) fun htm y hy hu => ?_
          rcases hmem y hy with hy | ⟨pc, e, -⟩
          · exact (lift ⟨rfl, fun _ _ h => h, fun _ h => h⟩).tamePC (htm y hy hu)
          · cases e
      · obtain ⟨htm, id, hid, hio⟩ := hm.docs (fun x pc h => hop ⟨x, pc, h⟩)
        obtain ⟨k1, k2⟩ := worker_next (hv.workers w hww) (hv.fits w hwc) (by rw [hwu]; exact htm w hww hwu)
          (by rw [hwu]; exact ⟨id, hid⟩) hn
        have hset : w.job.setsOpen = false := by
          have := hv.workers w hww
          cases hj : w.job <;> simp_all [Job.ofEditor, Job.setsOpen]
        have hs := lift (fr.steady_own (by rw [k1]) hset)
        refine hm.steady hfront hs fun _ y hy hu => ?_
        rcases hmem y hy with hy | ⟨pc, e, rfl⟩
        · exact hs.tamePC (htm y hy hu)
        · obtain ⟨a1, a2, a3, a4⟩ := k2 pc e
          refine ⟨a1, a2, a3, fun i hi => hs.isOpen i ?_⟩
          rcases a4 i hi with a | a
          · exact (htm w hww hwu).2.2.2 i a
          · rw [hwu, hid] at a
            cases a
            exact hio
    · have hs := lift (fr.steady_other hwu)
      refine hm.steady hfront hs fun htm y hy hu => ?_
      rcases hmem y hy with hy | ⟨pc, e, rfl⟩
      · exact hs.tamePC (htm y hy hu)
      · exact absurd hu hwu
  | write v x =>
    simp only [RState.step] at h; cases h
    exact (hm t ht).steady rfl ⟨rfl, fun _ _ h => h, fun _ h => h⟩ fun h => h
  | prepare =>
    simp only [RState.step] at h; cases h
    exact (hm t ht).steady rfl ⟨rfl, fun _ _ h => h, fun _ h => h⟩ fun h => h
  | finish =>
    simp only [RState.step] at h; cases h
    exact (hm t ht).steady rfl ⟨rfl, fun _ _ h => h, fun _ h => h⟩ fun h => h

/-- The invariant, for a whole schedule. -/
theorem mirror_run {u : Bytes} (es : List REv) (e : Option Bytes) (c c' : RState) (hv : Valid c)
    (hm : ∀ t, e = some t → Mirror u c t) (hal : Always (OpensAlone u) c es) (h : c.run es = some c') :
    Valid c' ∧ ∀ t, es.foldl (typedStep u) e = some t → Mirror u c' t := by
  induction es generalizing e c with
  | nil => cases h; exact ⟨hv, hm⟩
  | cons ev es ih =>
    simp only [RState.run, Option.bind_eq_some_iff] at h
    obtain ⟨c1, h1, h2⟩ := h
    obtain ⟨a1, a2⟩ := hal
    have a2 := a2 c1 h1
    have a3 : OpensAlone u c1 := by cases es <;> first | exact a2 | exact a2.1
    exact ih (typedStep u e ev) c1 (hv.step h1) (Mirror.step hv hm a1 a3 h1) a2 h2

end Verif.Server.Races
