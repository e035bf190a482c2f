import Verif.Server.RacesKept

/-! Two calls never hold the lock of the same document, and what the workers write to the index is complete. -/

namespace Verif.Server.Races

/-- Not both calls hold the lock of one document. -/
def Exclusive (a b : Call) : Prop := ∀ id, ¬ (Holding a.job a.pc id ∧ Holding b.job b.pc id)

theorem Exclusive.symm {a b : Call} (h : Exclusive a b) : Exclusive b a := fun id ⟨h1, h2⟩ => h id ⟨h2, h1⟩

def LockedAt (c : RState) (id : Nat) : Prop := ∃ o : Obj, c.heap[id]? = some o ∧ o.locked = true

structure Locks (c : RState) : Prop where
  pair : c.calls.Pairwise Exclusive
  held : ∀ t ∈ c.calls, ∀ id, Holding t.job t.pc id → LockedAt c id

theorem locked_modify {c : RState} {id i : Nat} {f : Obj → Obj} (hf : ∀ o, o.locked = true → (f o).locked = true)
    (h : LockedAt c id) : LockedAt (c.setObj i f) id := by
  obtain ⟨o, h1, h2⟩ := h
  by_cases hi : i = id
  · subst hi; exact ⟨f o, getElem?_modify_same h1, hf o h2⟩
  · refine ⟨o, ?_, h2⟩
    change (c.heap.modify i f)[id]? = some o
    rw [List.getElem?_modify]; simp [hi, h1]

/-- What a step does to locks: a call gets the lock of a document only when nobody has it; it gives back only its own. -/
structure Fair (t : Call) (c c' : RState) (pc' : Option PC) : Prop where
  gets : ∀ pc, pc' = some pc → ∀ id, Holding t.job pc id → LockedAt c' id ∧ (Holding t.job t.pc id ∨ ¬ LockedAt c id)
  keeps : ∀ id, LockedAt c id → LockedAt c' id ∨ Holding t.job t.pc id

theorem Fair.same {t : Call} {c c' : RState} {pc' : Option PC} (hh : c'.heap = c.heap)
    (hl : ∀ id, Holding t.job t.pc id → LockedAt c id)
    (hp : ∀ pc, pc' = some pc → ∀ id, Holding t.job pc id → Holding t.job t.pc id) : Fair t c c' pc' := by
  have e : ∀ id, LockedAt c' id ↔ LockedAt c id := fun id => by unfold LockedAt; rw [hh]
  exact ⟨fun pc h id hi => ⟨(e id).2 (hl id (hp pc h id hi)), .inl (hp pc h id hi)⟩, fun id h => .inl ((e id).2 h)⟩

theorem Fair.append {t : Call} {c c' : RState} {pc' : Option PC} {x : Obj} (hh : c'.heap = c.heap ++ [x])
    (hp : ∀ pc, pc' = some pc → ∀ id, ¬ Holding t.job pc id) : Fair t c c' pc' := by
  refine ⟨fun pc h id hi => absurd hi (hp pc h id), fun id ⟨o, h1, h2⟩ => .inl ⟨o, ?_, h2⟩⟩
  rw [hh, List.getElem?_append_left (List.getElem?_eq_some_iff.mp h1).1, h1]

theorem Fair.modify {t : Call} {c : RState} {pc : PC} {i : Nat} {f : Obj → Obj}
    (hf : ∀ o, o.locked = true → (f o).locked = true) (hl : ∀ id, Holding t.job t.pc id → LockedAt c id)
    (hp : ∀ id, Holding t.job pc id → Holding t.job t.pc id) : Fair t c (c.setObj i f) (some pc) :=
  ⟨fun pc h id hi => by cases h; exact ⟨locked_modify hf (hl id (hp id hi)), .inl (hp id hi)⟩,
    fun id h => .inl (locked_modify hf h)⟩

theorem next_fair {t : Call} {c c' : RState} {pc' : Option PC} (hfit : Fits t.job t.pc)
    (hid : ∀ id, t.pc.id? = some id → ∃ o : Obj, c.heap[id]? = some o ∧ o.uri = t.uri)
    (hl : ∀ id, Holding t.job t.pc id → LockedAt c id)
    (hn : t.next c = some (c', pc')) : Fair t c c' pc' := by
  obtain ⟨u, j, pc⟩ := t
  simp only at hfit hid hl
  cases pc with
  | look =>
    simp only [Call.next] at hn
    cases hdu : c.docs u <;> simp only [hdu] at hn <;> cases hn <;>
      exact .same rfl hl (fun pc e => by cases e; cases j <;> simp [Holding])
  | miss =>
    simp only [Call.next] at hn
    cases hdu : c.disk u <;> simp only [hdu] at hn <;> cases hn
    · exact .same rfl hl (fun pc e => by cases e)
    · exact .same rfl hl (fun pc e => by cases e; cases j <;> simp [Holding])
  | read x =>
    simp only [Call.next] at hn
    cases hn
    exact .append rfl (fun pc e => by cases e; cases j <;> simp [Holding])
  | got id =>
    obtain ⟨o, ho, hu⟩ := hid id rfl
    simp only [Call.next, ho] at hn
    have lockIt : (if o.locked then none
        else some (c.setObj id fun o => { o with locked := true }, some (PC.locked id))) = some (c', pc') →
        Fair ⟨u, j, .got id⟩ c c' pc' := by
      intro hn
      split at hn
      · cases hn
      · next hlk =>
        cases hn
        refine ⟨fun pc e i hi => ?_, fun i h => .inl (locked_modify (fun _ _ => rfl) h)⟩
        cases e
        have : id = i := by cases j <;> first | exact hi | exact hi.elim
        subst this
        refine ⟨⟨_, getElem?_modify_same ho, rfl⟩, .inr ?_⟩
        rintro ⟨o', h1, h2⟩
        rw [ho] at h1
        cases h1
        exact hlk h2
    cases j with
    | change f => simp only at hn; cases hn; exact .append rfl (fun pc e => by cases e; simp [Holding])
    | request => simp only at hn; cases hn; exact .same rfl hl (fun pc e => by cases e; simp [Holding])
    | delete => exact hfit.elim
    | openDoc x => exact lockIt hn
    | close => exact lockIt hn
    | create => exact lockIt hn
  | locked id =>
    obtain ⟨o, ho, hu⟩ := hid id rfl
    simp only [Call.next] at hn
    cases j with
    | openDoc x => simp only at hn; cases hn; exact .modify (fun _ h => h) hl (fun _ h => h)
    | close => simp only at hn; cases hn; exact .modify (fun _ h => h) hl (fun _ h => h)
    | create =>
      simp only [ho] at hn
      have hc : ∀ h i, Holding .create (compare id o h) i → Holding .create (.locked id) i := by
        intro h i; unfold compare; split <;> exact fun h => h
      cases hs : c.synced u with
      | some h => simp only [hs] at hn; cases hn; exact .same rfl hl (fun pc e => by cases e; exact hc _)
      | none => simp only [hs] at hn; cases hn; exact .same rfl hl (fun pc e => by cases e; exact fun _ h => h)
    | request => exact hfit.elim
    | change f => exact hfit.elim
    | delete => exact hfit.elim
  | unsynced id =>
    obtain ⟨o, ho, hu⟩ := hid id rfl
    simp only [Call.next, ho] at hn
    cases hn
    cases j <;> first | exact hfit.elim | skip
    refine .same rfl hl (fun pc e => ?_)
    cases e
    intro i
    unfold compare
    split <;> exact fun h => h
  | toLoad id =>
    obtain ⟨o, ho, hu⟩ := hid id rfl
    simp only [Call.next, ho] at hn
    cases hp : o.phase <;> simp only [hp] at hn <;> cases hn
    · exact .modify (fun _ h => h) hl (by cases j <;> exact fun _ h => h)
    · exact .same rfl hl (fun pc e => by cases e; cases j <;> exact fun _ h => h)
    · exact .same rfl hl (fun pc e => by cases e; cases j <;> exact fun _ h => h)
  | loading id =>
    simp only [Call.next] at hn
    cases hn
    exact .modify (fun _ h => h) hl (by cases j <;> exact fun _ h => h)
  | ready id =>
    obtain ⟨o, ho, hu⟩ := hid id rfl
    simp only [Call.next, ho] at hn
    cases j <;> simp only at hn <;> cases hn
    all_goals first
      | exact .same rfl hl (fun pc e => by cases e; exact fun _ h => h)
      | exact .same rfl hl (fun pc e => by cases e)
  | written id =>
    simp only [Call.next] at hn
    cases hn
    refine ⟨fun pc e i hi => ?_, fun i h => ?_⟩
    · cases e; cases j <;> exact hi.elim
    · by_cases e : id = i
      · subst e; right; cases j <;> first | rfl | exact hfit.elim
      · left
        obtain ⟨o, h1, h2⟩ := h
        refine ⟨o, ?_, h2⟩
        change (c.heap.modify id _)[i]? = some o
        rw [List.getElem?_modify]; simp [e, h1]
  | unlocked id =>
    obtain ⟨o, ho, hu⟩ := hid id rfl
    simp only [Call.next, ho] at hn
    split at hn <;> cases hn
    · exact .same rfl hl (fun pc e => by cases e)
    · exact .same rfl hl (fun pc e => by cases e; cases j <;> exact fun _ h => h)
  | drop id => simp only [Call.next] at hn; cases hn; exact .same rfl hl (fun pc e => by cases e)
  | cloned id =>
    obtain ⟨o, ho, hu⟩ := hid id rfl
    simp only [Call.next, ho] at hn
    cases hn
    exact .same rfl hl (fun pc e => by cases e; cases j <;> exact fun _ h => h)
  | stored id => simp only [Call.next] at hn; cases hn; exact .same rfl hl (fun pc e => by cases e)
  | del => simp only [Call.next] at hn; cases hn; exact .same rfl hl (fun pc e => by cases e)

theorem pairwise_set {l : List Call} {i : Nat} {t' : Call} (h : l.Pairwise Exclusive)
    (hx : ∀ k x, k ≠ i → l[k]? = some x → Exclusive x t') : (l.set i t').Pairwise Exclusive := by
  induction l generalizing i with
  | nil => simp
  | cons a l ih =>
    rw [List.pairwise_cons] at h
    cases i with
    | zero =>
      rw [List.set_cons_zero, List.pairwise_cons]
      refine ⟨fun b hb => ?_, h.2⟩
      obtain ⟨k, hk⟩ := List.getElem?_of_mem hb
      exact (hx (k + 1) b (by omega) (by simpa using hk)).symm
    | succ i =>
      rw [List.set_cons_succ, List.pairwise_cons]
      refine ⟨fun b hb => ?_, ih h.2 fun k x hk hkx => hx (k + 1) x (by omega) (by simpa using hkx)⟩
      rcases List.mem_or_eq_of_mem_set hb with hb | rfl
      · exact h.1 b hb
      · exact hx 0 a (by omega) rfl

/-- Among the calls, one makes a step: it stays apart from a call it was apart from. -/
theorem Fair.apart {t x : Call} {c c' : RState} {pc : PC} (hf : Fair t c c' (some pc)) (hx : Exclusive x t)
    (hh : ∀ id, Holding x.job x.pc id → LockedAt c id) : Exclusive x { t with pc } := by
  rintro id ⟨h1, h2⟩
  rcases (hf.gets pc rfl id h2).2 with h | h
  · exact hx id ⟨h1, h⟩
  · exact h (hh id h1)

theorem Fair.others {t x : Call} {c c' : RState} {pc' : Option PC} (hf : Fair t c c' pc') (hx : Exclusive x t)
    (hh : ∀ id, Holding x.job x.pc id → LockedAt c id) (id : Nat) (h : Holding x.job x.pc id) : LockedAt c' id := by
  rcases hf.keeps id (hh id h) with h' | h'
  · exact h'
  · exact absurd ⟨h, h'⟩ (hx id)

theorem pairwise_at {l : List Call} {i k : Nat} {t x : Call} (h : l.Pairwise Exclusive) (hk : k ≠ i) (ht : l[i]? = some t)
    (hx : l[k]? = some x) : Exclusive x t := by
  rw [List.pairwise_iff_getElem] at h
  obtain ⟨h1, e1⟩ := List.getElem?_eq_some_iff.mp ht
  obtain ⟨h2, e2⟩ := List.getElem?_eq_some_iff.mp hx
  rcases Nat.lt_or_gt_of_ne hk with hlt | hlt
  · have := h k i h2 h1 hlt; rwa [e1, e2] at this
  · have := h i k h1 h2 hlt; rw [e1, e2] at this; exact this.symm

theorem Locks.init : Locks .init := by
  constructor <;> simp [RState.init, RState.calls]

theorem start_holds (j : Job) (id : Nat) : ¬ Holding j j.start id := by
  cases j <;> simp [Job.start, Holding]

theorem Locks.step {c c' : RState} {e : REv} (hv : Valid c) (hk : Locks c) (h : c.step e = some c') : Locks c' := by
  cases e with
  | message u j =>
    simp only [RState.step] at h
    split at h
    · next hc =>
      simp only [Bool.and_eq_true, Option.isNone_iff_eq_none] at hc
      cases h
      have hcalls : c.calls = c.workers := by simp [RState.calls, hc.2]
      refine ⟨?_, fun t ht id hh => ?_⟩
      · simp only [RState.calls, Option.toList_some, List.singleton_append, List.pairwise_cons]
        exact ⟨fun x _ id hh => start_holds j id hh.1, hcalls ▸ hk.pair⟩
      · simp only [RState.calls, Option.toList_some, List.singleton_append, List.mem_cons] at ht
        rcases ht with rfl | ht
        · exact absurd hh (start_holds j id)
        · exact hk.held t (hcalls ▸ ht) id hh
    · cases h
  | worker u j =>
    simp only [RState.step] at h
    split at h
    · cases h
    · cases h
      have hcalls : RState.calls { c with workers := c.workers ++ [⟨u, j, j.start⟩] } = c.calls ++ [⟨u, j, j.start⟩] := by
        simp [RState.calls]
      refine ⟨?_, fun t ht id hh => ?_⟩
      · rw [hcalls, List.pairwise_append]
        refine ⟨hk.pair, by simp, fun a _ b hb id hh => ?_⟩
        rw [List.mem_singleton] at hb
        subst hb
        exact start_holds j id hh.2
      · rw [hcalls] at ht
        rcases List.mem_append.1 ht with ht | ht
        · exact hk.held t ht id hh
        · rw [List.mem_singleton] at ht
          subst ht
          exact absurd hh (start_holds j id)
  | handler =>
    simp only [RState.step] at h
    cases hf : c.front with
    | none => rw [hf] at h; cases h
    | some t =>
      simp only [hf] at h
      cases hn : t.next c with
      | none => rw [hn] at h; cases h
      | some r =>
        obtain ⟨c1, pc'⟩ := r
        simp only [hn] at h
        cases h
        have ht : t ∈ c.calls := by simp [RState.calls, hf]
        have fr := hv.framed ht hn
        have fa := next_fair (hv.fits t ht) (hv.holds t ht) (hk.held t ht) hn
        have hp := hk.pair
        simp only [RState.calls, hf, Option.toList_some, List.singleton_append, List.pairwise_cons] at hp
        have hw : ∀ x ∈ c.workers, ∀ id, Holding x.job x.pc id → LockedAt c id := fun x hx =>
          hk.held x (by simp [RState.calls, hx])
        have lift : ∀ id, LockedAt c1 id → LockedAt { c1 with front := pc'.map fun pc => { t with pc } } id := fun _ h => h
        cases pc' with
        | none =>
          refine ⟨?_, fun x hx id hh => ?_⟩
          · simp only [RState.calls, Option.map_none, Option.toList_none, List.nil_append, fr.workers]; exact hp.2
          · simp only [RState.calls, Option.map_none, Option.toList_none, List.nil_append, fr.workers] at hx
            exact lift _ (fa.others (hp.1 x hx).symm (hw x hx) id hh)
        | some pc =>
          refine ⟨?_, fun x hx id hh => ?_⟩
          · simp only [RState.calls, Option.map_some, Option.toList_some, List.singleton_append, fr.workers,
              List.pairwise_cons]
            exact ⟨fun x hx => (fa.apart (hp.1 x hx).symm (hw x hx)).symm, hp.2⟩
          · simp only [RState.calls, Option.map_some, Option.toList_some, List.singleton_append, fr.workers,
              List.mem_cons] at hx
            rcases hx with rfl | hx
            · exact lift _ (fa.gets pc rfl id hh).1
            · exact lift _ (fa.others (hp.1 x hx).symm (hw x hx) id hh)
  | work i =>
    simp only [RState.step] at h
    cases hf : c.workers[i]? with
    | none => rw [hf] at h; cases h
    | some t =>
      simp only [hf] at h
      have htw : t ∈ c.workers := List.mem_of_getElem? hf
      have ht : t ∈ c.calls := by simp [RState.calls, htw]
      cases hn : t.next c with
      | none => rw [hn] at h; cases h
      | some r =>
        obtain ⟨c1, pc'⟩ := r
        simp only [hn] at h
        have fr := hv.framed ht hn
        have fa := next_fair (hv.fits t ht) (hv.holds t ht) (hk.held t ht) hn
        have hp := hk.pair
        simp only [RState.calls, List.pairwise_append] at hp
        obtain ⟨p1, p2, p3⟩ := hp
        have hw : ∀ x ∈ c.calls, ∀ id, Holding x.job x.pc id → LockedAt c id := fun x hx => hk.held x hx
        have hfx : ∀ x ∈ c.front.toList, Exclusive x t := fun x hx => p3 x hx t htw
        have hfm : ∀ x ∈ c.front.toList, x ∈ c.calls := fun x hx => by
          simp only [RState.calls, List.mem_append]; exact .inl hx
        have hwm : ∀ x ∈ c.workers, x ∈ c.calls := fun x hx => by
          simp only [RState.calls, List.mem_append]; exact .inr hx
        cases pc' with
        | none =>
          simp only [Option.some.injEq] at h
          subst h
          refine ⟨?_, fun x hx id hh => ?_⟩
          · simp only [RState.calls, fr.front, fr.workers, List.pairwise_append]
            exact ⟨p1, p2.sublist (List.eraseIdx_sublist ..), fun a ha b hb => p3 a ha b (List.mem_of_mem_eraseIdx hb)⟩
          · simp only [RState.calls, fr.front, fr.workers, List.mem_append] at hx
            have : LockedAt c1 id := by
              rcases hx with hx | hx
              · exact fa.others (hfx x hx) (hw x (hfm x hx)) id hh
              · have hxw := List.mem_of_mem_eraseIdx hx
                obtain ⟨k, hki, hk'⟩ := List.mem_eraseIdx_iff_getElem?.1 hx
                exact fa.others (pairwise_at p2 hki hf hk') (hw x (hwm x hxw)) id hh
            exact this
        | some pc =>
          simp only [Option.some.injEq] at h
          subst h
          refine ⟨?_, fun x hx id hh => ?_⟩
          · simp only [RState.calls, fr.front, fr.workers, List.pairwise_append]
            refine ⟨p1, pairwise_set p2 fun k x hki hkx => fa.apart (pairwise_at p2 hki hf hkx)
              (hw x (hwm x (List.mem_of_getElem? hkx))), fun a ha b hb => ?_⟩
            rcases List.mem_or_eq_of_mem_set hb with hb | rfl
            · exact p3 a ha b hb
            · exact fa.apart (hfx a ha) (hw a (hfm a ha))
          · simp only [RState.calls, fr.front, fr.workers, List.mem_append] at hx
            have : LockedAt c1 id := by
              rcases hx with hx | hx
              · exact fa.others (hfx x hx) (hw x (hfm x hx)) id hh
              · obtain ⟨k, hk'⟩ := List.getElem?_of_mem hx
                rw [List.getElem?_set] at hk'
                split at hk'
                · split at hk'
                  · cases hk'; exact (fa.gets pc rfl id hh).1
                  · cases hk'
                · next hne =>
                  exact fa.others (pairwise_at p2 (Ne.symm hne) hf hk') (hw x (hwm x (List.mem_of_getElem? hk'))) id hh
            exact this
  | write u x => simp only [RState.step] at h; cases h; exact ⟨hk.1, hk.2⟩
  | prepare => simp only [RState.step] at h; cases h; exact ⟨hk.1, hk.2⟩
  | finish => simp only [RState.step] at h; cases h; exact ⟨hk.1, hk.2⟩

theorem locks_run (es : List REv) (c c' : RState) (hv : Valid c) (hk : Locks c) (h : c.run es = some c') :
    Valid c' ∧ Locks c' := by
  induction es generalizing c with
  | nil => cases h; exact ⟨hv, hk⟩
  | cons e es ih =>
    simp only [RState.run, Option.bind_eq_some_iff] at h
    obtain ⟨c1, h1, h2⟩ := h
    exact ih c1 (hv.step h1) (hk.step hv h1) h2

end Verif.Server.Races
