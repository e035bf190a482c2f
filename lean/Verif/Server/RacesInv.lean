import Verif.Server.Races
import Verif.Common.Tactics

/-!
What every step of a call leaves alone, and what holds in every schedule.
-/

namespace Verif.Server.Races

/-- The object a call holds. -/
def PC.id? : PC → Option Nat
  | .look | .miss | .read _ | .del => none
  | .got i | .locked i | .unsynced i | .toLoad i | .loading i | .ready i | .written i | .unlocked i | .drop i
  | .cloned i | .stored i => some i

def Job.setsOpen : Job → Bool
  | .openDoc _ | .close => true
  | _ => false

/-- Where a call can be. -/
def Fits : Job → PC → Prop
  | .change _, .look | .change _, .miss | .change _, .read _ | .change _, .got _ | .change _, .cloned _
  | .change _, .stored _ => True
  | .change _, _ => False
  | .request, .look | .request, .miss | .request, .read _ | .request, .got _ | .request, .toLoad _
  | .request, .loading _ | .request, .ready _ => True
  | .request, _ => False
  | .delete, .del => True
  | .delete, _ => False
  | _, .cloned _ | _, .stored _ | _, .del => False
  | .openDoc _, .unsynced _ | .close, .unsynced _ => False
  | _, _ => True

def RState.calls (c : RState) : List Call := c.front.toList ++ c.workers

/-- Objects only grow: `j` is done to the file `u`. -/
def Grows (u : Bytes) (j : Job) (h h' : List Obj) : Prop :=
  ∀ (id : Nat) (o : Obj), h[id]? = some o → ∃ o' : Obj, h'[id]? = some o' ∧ o'.uri = o.uri ∧ o'.text = o.text ∧ (o.uri ≠ u → o' = o) ∧
    (j.setsOpen = false → o'.isOpen = o.isOpen) ∧ (o.phase = .loaded → o'.phase = .loaded)

theorem Grows.same (u j h) : Grows u j h h := fun _ o ho => ⟨o, ho, rfl, rfl, fun _ => rfl, fun _ => rfl, fun h => h⟩

theorem Grows.append (u j h x) : Grows u j h (h ++ [x]) := fun id o ho =>
  ⟨o, by
    have := (List.getElem?_eq_some_iff.mp ho).1
    rw [List.getElem?_append_left this, ho], rfl, rfl, fun _ => rfl, fun _ => rfl, fun h => h⟩

theorem Grows.modify {u : Bytes} {j : Job} {h : List Obj} {i : Nat} {f : Obj → Obj} {x : Obj} (hx : h[i]? = some x)
    (hu : x.uri = u)
    (hf : (f x).uri = x.uri ∧ (f x).text = x.text ∧ (j.setsOpen = false → (f x).isOpen = x.isOpen) ∧
      (x.phase = .loaded → (f x).phase = .loaded)) : Grows u j h (h.modify i f) := by
  intro id o ho
  rw [List.getElem?_modify]
  by_cases hi : i = id
  · subst hi
    rw [hx] at ho
    cases ho
    simp only [hx, if_true, Option.map_some]
    obtain ⟨h1, h2, h3, h4⟩ := hf
    exact ⟨f x, rfl, h1, h2, fun hne => absurd hu hne, h3, h4⟩
  · simp only [hi, if_false, ho]
    exact ⟨o, rfl, rfl, rfl, fun _ => rfl, fun _ => rfl, fun h => h⟩

/-- What a step of a call leaves alone. -/
structure Framed (t : Call) (c c' : RState) (pc' : Option PC) : Prop where
  disk : c'.disk = c.disk
  front : c'.front = c.front
  workers : c'.workers = c.workers
  heap : Grows t.uri t.job c.heap c'.heap
  docs : ∀ v, v ≠ t.uri → c'.docs v = c.docs v
  index : ∀ v, v ≠ t.uri → c'.index v = c.index v
  own : ∀ id, c'.docs t.uri = some id → ∃ o : Obj, c'.heap[id]? = some o ∧ o.uri = t.uri
  fits : ∀ pc, pc' = some pc → Fits t.job pc
  holds : ∀ pc id, pc' = some pc → pc.id? = some id → ∃ o : Obj, c'.heap[id]? = some o ∧ o.uri = t.uri
  loading : ∀ (id : Nat) (o : Obj), c'.heap[id]? = some o → o.phase = .loading → pc' = some (.loading id) ∨
    (t.pc ≠ .loading id ∧ ∃ o' : Obj, c.heap[id]? = some o' ∧ o'.phase = .loading)

theorem getElem?_modify_same {h : List Obj} {i : Nat} {o : Obj} {f : Obj → Obj} (ho : h[i]? = some o) :
    (h.modify i f)[i]? = some (f o) := by
  rw [List.getElem?_modify]; simp [ho]

/-- A step that changes nothing but where the call is. -/
theorem Framed.stay {t : Call} {c : RState} {pc : PC}
    (hd : ∀ id, c.docs t.uri = some id → ∃ o : Obj, c.heap[id]? = some o ∧ o.uri = t.uri)
    (hf : Fits t.job pc) (hh : ∀ id, pc.id? = some id → ∃ o : Obj, c.heap[id]? = some o ∧ o.uri = t.uri)
    (hl : ∀ id, t.pc ≠ .loading id) : Framed t c c (some pc) where
  disk := rfl
  front := rfl
  workers := rfl
  heap := .same _ _ _
  docs _ _ := rfl
  index _ _ := rfl
  own := hd
  fits pc e := by cases e; exact hf
  holds pc id e h := by cases e; exact hh id h
  loading id o ho hp := .inr ⟨hl id, o, ho, hp⟩

theorem Framed.done {t : Call} {c : RState}
    (hd : ∀ id, c.docs t.uri = some id → ∃ o : Obj, c.heap[id]? = some o ∧ o.uri = t.uri)
    (hl : ∀ id, t.pc ≠ .loading id) : Framed t c c none where
  disk := rfl
  front := rfl
  workers := rfl
  heap := .same _ _ _
  docs _ _ := rfl
  index _ _ := rfl
  own := hd
  fits pc e := by cases e
  holds pc id e h := by cases e
  loading id o ho hp := .inr ⟨hl id, o, ho, hp⟩

/-- A step that changes the object the call holds. -/
theorem Framed.modify {t : Call} {c : RState} {i : Nat} {o : Obj} {f : Obj → Obj} {pc : PC}
    (hd : ∀ id, c.docs t.uri = some id → ∃ o : Obj, c.heap[id]? = some o ∧ o.uri = t.uri)
    (ho : c.heap[i]? = some o) (hu : o.uri = t.uri) (hpc : pc.id? = some i) (hf : Fits t.job pc)
    (hfo : (f o).uri = o.uri ∧ (f o).text = o.text ∧ (t.job.setsOpen = false → (f o).isOpen = o.isOpen) ∧
      (o.phase = .loaded → (f o).phase = .loaded))
    (hph : ∀ id, (f o).phase = .loading → pc = .loading i ∨ (o.phase = .loading ∧ t.pc ≠ .loading id))
    (hl : ∀ id, t.pc = .loading id → id = i) :
    Framed t c (c.setObj i f) (some pc) where
  disk := rfl
  front := rfl
  workers := rfl
  heap := .modify ho hu hfo
  docs _ _ := rfl
  index _ _ := rfl
  own id h := by
    obtain ⟨x, h1, h2⟩ := hd id h
    obtain ⟨x', h3, h4, -⟩ := Grows.modify (j := t.job) ho hu hfo id x h1
    exact ⟨x', h3, h4.trans h2⟩
  fits pc e := by cases e; exact hf
  holds pc' id e h := by
    cases e
    rw [hpc] at h
    cases h
    exact ⟨f o, getElem?_modify_same ho, hfo.1.trans hu⟩
  loading id x hx hp := by
    change (c.heap.modify i f)[id]? = some x at hx
    by_cases hi : i = id
    · subst hi
      rw [getElem?_modify_same ho] at hx
      cases hx
      rcases hph i hp with h | ⟨h, h'⟩
      · exact .inl (by rw [h])
      · exact .inr ⟨h', o, ho, h⟩
    · rw [List.getElem?_modify] at hx
      simp only [hi, if_false] at hx
      have hx : c.heap[id]? = some x := by cases hh : c.heap[id]? <;> simp_all
      exact .inr ⟨fun h => hi (hl id h).symm, x, hx, hp⟩

theorem next_framed {t : Call} {c c' : RState} {pc' : Option PC}
    (hd : ∀ id, c.docs t.uri = some id → ∃ o : Obj, c.heap[id]? = some o ∧ o.uri = t.uri)
    (hfit : Fits t.job t.pc) (hid : ∀ id, t.pc.id? = some id → ∃ o : Obj, c.heap[id]? = some o ∧ o.uri = t.uri)
    (hn : t.next c = some (c', pc')) : Framed t c c' pc' := by
  obtain ⟨u, j, pc⟩ := t
  simp only at hd hfit hid
  cases pc with
  | look =>
    simp only [Call.next] at hn
    cases hdu : c.docs u with
    | some id =>
      simp only [hdu] at hn
      cases hn
      refine .stay hd ?_ ?_ (by simp)
      · cases j <;> first | trivial | exact hfit
      · intro i hi; cases hi; exact hd id hdu
    | none =>
      simp only [hdu] at hn
      cases hn
      refine .stay hd ?_ (by simp [PC.id?]) (by simp)
      cases j <;> first | trivial | exact hfit
  | miss =>
    simp only [Call.next] at hn
    cases hdu : c.disk u with
    | none => simp only [hdu] at hn; cases hn; exact .done hd (by simp)
    | some x =>
      simp only [hdu] at hn
      cases hn
      refine .stay hd ?_ (by simp [PC.id?]) (by simp)
      cases j <;> first | trivial | exact hfit
  | read x =>
    simp only [Call.next] at hn
    cases hn
    have hlast : (c.heap ++ [⟨u, x, .fresh, false, false⟩])[c.heap.length]? =
        some (⟨u, x, .fresh, false, false⟩ : Obj) := by simp
    refine ⟨rfl, rfl, rfl, .append _ _ _ _, fun v hv => by simp only [upd]; rw [if_neg hv], fun _ _ => rfl, ?_, ?_, ?_, ?_⟩
    · intro id h
      simp only [upd, if_true] at h
      cases h
      exact ⟨_, hlast, rfl⟩
    · intro pc e
      cases e
      cases j <;> first | trivial | exact hfit
    · intro pc id e h
      cases e
      cases h
      exact ⟨_, hlast, rfl⟩
    · intro id o ho hp
      right
      refine ⟨by simp, ?_⟩
      by_cases hlt : id < c.heap.length
      · rw [List.getElem?_append_left hlt] at ho
        exact ⟨o, ho, hp⟩
      · rw [List.getElem?_append_right (by omega)] at ho
        have h1 : ([⟨u, x, .fresh, false, false⟩] : List Obj)[id - c.heap.length]? = some o := ho
        rw [List.getElem?_singleton] at h1
        split at h1
        · cases h1; cases hp
        · cases h1
  | got id =>
    obtain ⟨o, ho, hu⟩ := hid id rfl
    simp only [Call.next, ho] at hn
    have lockIt : Fits j (.locked id) → (if o.locked then none
        else some (c.setObj id fun o => { o with locked := true }, some (PC.locked id))) = some (c', pc') →
        Framed ⟨u, j, .got id⟩ c c' pc' := by
      intro hfj hn
      split at hn
      · cases hn
      · cases hn
        exact .modify hd ho hu rfl hfj (⟨rfl, rfl, fun _ => rfl, fun h => h⟩)
          (fun _ h => .inr ⟨h, by simp⟩) (by simp)
    cases j with
    | change f =>
      simp only at hn
      cases hn
      have hlast : (c.heap ++ [⟨u, f o.text, .loaded, o.isOpen, false⟩])[c.heap.length]? =
          some (⟨u, f o.text, .loaded, o.isOpen, false⟩ : Obj) := by simp
      refine ⟨rfl, rfl, rfl, .append _ _ _ _, fun _ _ => rfl, fun _ _ => rfl, ?_, ?_, ?_, ?_⟩
      · intro i h
        obtain ⟨x, h1, h2⟩ := hd i h
        obtain ⟨x', h3, h4, -⟩ := Grows.append u (.change f) c.heap ⟨u, f o.text, .loaded, o.isOpen, false⟩ i x h1
        exact ⟨x', h3, h4.trans h2⟩
      · intro pc e
        cases e
        trivial
      · intro pc i e h
        cases e
        cases h
        exact ⟨_, hlast, rfl⟩
      · intro i x hx hp
        right
        refine ⟨by simp, ?_⟩
        by_cases hlt : i < c.heap.length
        · rw [List.getElem?_append_left hlt] at hx
          exact ⟨x, hx, hp⟩
        · rw [List.getElem?_append_right (by omega), List.getElem?_singleton] at hx
          split at hx
          · cases hx; cases hp
          · cases hx
    | request =>
      simp only at hn
      cases hn
      exact .stay hd trivial (fun i hi => by cases hi; exact ⟨o, ho, hu⟩) (by simp)
    | openDoc x => exact lockIt trivial hn
    | close => exact lockIt trivial hn
    | create => exact lockIt trivial hn
    | delete => exact hfit.elim
  | locked id =>
    obtain ⟨o, ho, hu⟩ := hid id rfl
    simp only [Call.next] at hn
    cases j with
    | openDoc x =>
      simp only at hn
      cases hn
      exact .modify hd ho hu rfl trivial (⟨rfl, rfl, by simp [Job.setsOpen], fun h => h⟩)
        (fun _ h => .inr ⟨h, by simp⟩) (by simp)
    | close =>
      simp only at hn
      cases hn
      exact .modify hd ho hu rfl trivial (⟨rfl, rfl, by simp [Job.setsOpen], fun h => h⟩)
        (fun _ h => .inr ⟨h, by simp⟩) (by simp)
    | create =>
      simp only [ho] at hn
      have hcmp : ∀ h : Option Bytes, Fits .create (compare id o h) ∧ (compare id o h).id? = some id := by
        intro h
        unfold compare
        split <;> exact ⟨trivial, rfl⟩
      cases hs : c.synced u with
      | some h =>
        simp only [hs] at hn
        cases hn
        obtain ⟨f1, f2⟩ := hcmp (some h)
        have := Framed.stay (t := ⟨u, .create, .locked id⟩) (pc := compare id o (some h)) hd f1
          (fun i hi => by rw [f2] at hi; cases hi; exact ⟨o, ho, hu⟩) (by simp)
        exact ⟨rfl, rfl, rfl, this.heap, fun _ _ => rfl, fun _ _ => rfl, this.own, this.fits, this.holds, this.loading⟩
      | none =>
        simp only [hs] at hn
        cases hn
        exact .stay hd trivial (fun i hi => by cases hi; exact ⟨o, ho, hu⟩) (by simp)
    | request => exact hfit.elim
    | change f => exact hfit.elim
    | delete => exact hfit.elim
  | unsynced id =>
    obtain ⟨o, ho, hu⟩ := hid id rfl
    simp only [Call.next, ho] at hn
    cases hn
    cases j <;> first | exact hfit.elim | skip
    unfold compare
    split
    all_goals exact .stay hd trivial (fun i hi => by cases hi; exact ⟨o, ho, hu⟩) (by simp)
  | toLoad id =>
    obtain ⟨o, ho, hu⟩ := hid id rfl
    simp only [Call.next, ho] at hn
    cases hp : o.phase with
    | fresh =>
      simp only [hp] at hn
      cases hn
      refine .modify hd ho hu rfl ?_ (⟨rfl, rfl, fun _ => rfl, ?_⟩) (fun _ h => .inl rfl) (by simp)
      · cases j <;> first | exact hfit.elim | trivial
      · intro h; rw [hp] at h; cases h
    | loading =>
      simp only [hp] at hn
      cases hn
      refine .stay hd ?_ (fun i hi => by cases hi; exact ⟨o, ho, hu⟩) (by simp)
      cases j <;> first | exact hfit.elim | trivial
    | loaded =>
      simp only [hp] at hn
      cases hn
      refine .stay hd ?_ (fun i hi => by cases hi; exact ⟨o, ho, hu⟩) (by simp)
      cases j <;> first | exact hfit.elim | trivial
  | loading id =>
    obtain ⟨o, ho, hu⟩ := hid id rfl
    simp only [Call.next] at hn
    cases hn
    refine .modify hd ho hu rfl ?_ (⟨rfl, rfl, fun _ => rfl, fun _ => rfl⟩) (fun _ h => by cases h) (by simp [eq_comm])
    cases j <;> first | exact hfit.elim | trivial
  | ready id =>
    obtain ⟨o, ho, hu⟩ := hid id rfl
    simp only [Call.next, ho] at hn
    have wr : Fits j (.written id) → some (c.sync u o, some (PC.written id)) = some (c', pc') →
        Framed ⟨u, j, .ready id⟩ c c' pc' := by
      intro hfj hn
      cases hn
      have := Framed.stay (t := ⟨u, j, .ready id⟩) (pc := .written id) hd hfj
        (fun i hi => by cases hi; exact ⟨o, ho, hu⟩) (by simp)
      exact ⟨rfl, rfl, rfl, this.heap, fun _ _ => rfl, fun v hv => by simp only [RState.sync, upd]; rw [if_neg hv],
        this.own, this.fits, this.holds, this.loading⟩
    cases j with
    | request => simp only at hn; cases hn; exact .done hd (by simp)
    | openDoc x => exact wr trivial hn
    | close => exact wr trivial hn
    | create => exact wr trivial hn
    | change f => exact hfit.elim
    | delete => exact hfit.elim
  | written id =>
    obtain ⟨o, ho, hu⟩ := hid id rfl
    simp only [Call.next] at hn
    cases hn
    refine .modify hd ho hu rfl ?_ (⟨rfl, rfl, fun _ => rfl, fun h => h⟩) (fun _ h => .inr ⟨h, by simp⟩) (by simp)
    cases j <;> first | exact hfit.elim | trivial
  | unlocked id =>
    obtain ⟨o, ho, hu⟩ := hid id rfl
    simp only [Call.next, ho] at hn
    split at hn
    · cases hn; exact .done hd (by simp)
    · cases hn
      refine .stay hd ?_ (fun i hi => by cases hi; exact ⟨o, ho, hu⟩) (by simp)
      cases j <;> first | exact hfit.elim | trivial
  | drop id =>
    simp only [Call.next] at hn
    cases hn
    have := Framed.done (t := ⟨u, j, .drop id⟩) hd (by simp)
    exact ⟨rfl, rfl, rfl, this.heap, fun v hv => by simp only [upd]; rw [if_neg hv], fun _ _ => rfl,
      fun i h => (by simp only [upd, if_true] at h; cases h), this.fits, this.holds, this.loading⟩
  | cloned id =>
    obtain ⟨o, ho, hu⟩ := hid id rfl
    simp only [Call.next, ho] at hn
    cases hn
    have hfj : Fits j (.stored id) := by cases j <;> first | exact hfit.elim | trivial
    have := Framed.stay (t := ⟨u, j, .cloned id⟩) (pc := .stored id) hd hfj
      (fun i hi => by cases hi; exact ⟨o, ho, hu⟩) (by simp)
    exact ⟨rfl, rfl, rfl, this.heap, fun _ _ => rfl, fun v hv => by simp only [RState.sync, upd]; rw [if_neg hv],
      this.own, this.fits, this.holds, this.loading⟩
  | stored id =>
    obtain ⟨o, ho, hu⟩ := hid id rfl
    simp only [Call.next] at hn
    cases hn
    have := Framed.done (t := ⟨u, j, .stored id⟩) hd (by simp)
    exact ⟨rfl, rfl, rfl, this.heap, fun v hv => by simp only [upd]; rw [if_neg hv], fun _ _ => rfl,
      fun i h => (by simp only [upd, if_true] at h; cases h; exact ⟨o, ho, hu⟩), this.fits, this.holds, this.loading⟩
  | del =>
    simp only [Call.next] at hn
    cases hn
    have := Framed.done (t := ⟨u, j, .del⟩) hd (by simp)
    exact ⟨rfl, rfl, rfl, this.heap, fun _ _ => rfl, fun v hv => by simp only [upd]; rw [if_neg hv],
      this.own, this.fits, this.holds, this.loading⟩

end Verif.Server.Races
