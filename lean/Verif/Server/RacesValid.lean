import Verif.Server.RacesInv

/-!
What holds in every state that a schedule reaches: calls and the map of documents refer to documents of their file, the
handler does the editor's jobs and the workers theirs, and a document that is being analysed or is locked has a call
that does so.
-/

namespace Verif.Server.Races

/-- The call has the lock of the object. -/
def Holding : Job → PC → Nat → Prop
  | .request, _, _ => False
  | _, .locked i, id | _, .unsynced i, id | _, .toLoad i, id | _, .loading i, id | _, .ready i, id
  | _, .written i, id => i = id
  | _, _, _ => False

structure Valid (c : RState) : Prop where
  docs : ∀ v id, c.docs v = some id → ∃ o : Obj, c.heap[id]? = some o ∧ o.uri = v
  fits : ∀ t ∈ c.calls, Fits t.job t.pc
  holds : ∀ t ∈ c.calls, ∀ id, t.pc.id? = some id → ∃ o : Obj, c.heap[id]? = some o ∧ o.uri = t.uri
  front : ∀ t, c.front = some t → t.job.ofEditor = true
  workers : ∀ t ∈ c.workers, t.job.ofEditor = false
  loading : ∀ (id : Nat) (o : Obj), c.heap[id]? = some o → o.phase = .loading → ∃ t ∈ c.calls, t.pc = .loading id
  lock : ∀ (id : Nat) (o : Obj), c.heap[id]? = some o → o.locked = true → ∃ t ∈ c.calls, Holding t.job t.pc id

/-- What a step of a call does to locks. -/
def LockFrame (t : Call) (c c' : RState) (pc' : Option PC) : Prop :=
  ∀ (id : Nat) (o : Obj), c'.heap[id]? = some o → o.locked = true → (∃ pc, pc' = some pc ∧ Holding t.job pc id) ∨
    (¬ Holding t.job t.pc id ∧ ∃ o' : Obj, c.heap[id]? = some o' ∧ o'.locked = true)

theorem LockFrame.same {t : Call} {c c' : RState} {pc' : Option PC} (hh : c'.heap = c.heap)
    (hp : ∀ id, Holding t.job t.pc id → ∃ pc, pc' = some pc ∧ Holding t.job pc id) : LockFrame t c c' pc' := by
  intro id o ho hl
  rw [hh] at ho
  by_cases h : Holding t.job t.pc id
  · exact .inl (hp id h)
  · exact .inr ⟨h, o, ho, hl⟩

theorem LockFrame.append {t : Call} {c c' : RState} {pc' : Option PC} {x : Obj} (hh : c'.heap = c.heap ++ [x])
    (hx : x.locked = false) (hp : ∀ id, ¬ Holding t.job t.pc id) : LockFrame t c c' pc' := by
  intro id o ho hl
  rw [hh] at ho
  right
  refine ⟨hp id, ?_⟩
  by_cases hlt : id < c.heap.length
  · rw [List.getElem?_append_left hlt] at ho
    exact ⟨o, ho, hl⟩
  · rw [List.getElem?_append_right (by omega), List.getElem?_singleton] at ho
    split at ho
    · cases ho; rw [hx] at hl; cases hl
    · cases ho

theorem LockFrame.modify {t : Call} {c c' : RState} {pc : PC} {i : Nat} {o : Obj} {f : Obj → Obj}
    (ho : c.heap[i]? = some o) (hh : c'.heap = c.heap.modify i f)
    (hm : ∀ id, Holding t.job t.pc id → id = i)
    (hp : (f o).locked = false ∨ Holding t.job pc i ∨ (¬ Holding t.job t.pc i ∧ ((f o).locked = true → o.locked = true))) :
    LockFrame t c c' (some pc) := by
  intro id x hx hl
  rw [hh] at hx
  by_cases hi : i = id
  · subst hi
    rw [getElem?_modify_same ho] at hx
    cases hx
    rcases hp with h | h | ⟨h1, h2⟩
    · rw [h] at hl; cases hl
    · exact .inl ⟨pc, rfl, h⟩
    · exact .inr ⟨h1, o, ho, h2 hl⟩
  · rw [List.getElem?_modify] at hx
    simp only [hi, if_false] at hx
    have hx : c.heap[id]? = some x := by cases hh : c.heap[id]? <;> simp_all
    exact .inr ⟨fun h => hi (hm id h).symm, x, hx, hl⟩

theorem next_lock {t : Call} {c c' : RState} {pc' : Option PC} (hfit : Fits t.job t.pc)
    (hid : ∀ id, t.pc.id? = some id → ∃ o : Obj, c.heap[id]? = some o ∧ o.uri = t.uri)
    (hn : t.next c = some (c', pc')) : LockFrame t c c' pc' := by
  obtain ⟨u, j, pc⟩ := t
  simp only at hfit hid
  cases pc with
  | look =>
    simp only [Call.next] at hn
    cases hdu : c.docs u <;> simp only [hdu] at hn <;> cases hn <;>
      exact .same rfl (by cases j <;> simp [Holding])
  | miss =>
    simp only [Call.next] at hn
    cases hdu : c.disk u <;> simp only [hdu] at hn <;> cases hn <;>
      exact .same rfl (by cases j <;> simp [Holding])
  | read x =>
    simp only [Call.next] at hn
    cases hn
    exact .append rfl rfl (by cases j <;> simp [Holding])
  | got id =>
    obtain ⟨o, ho, hu⟩ := hid id rfl
    simp only [Call.next, ho] at hn
    cases j with
    | change f =>
      simp only at hn
      cases hn
      exact .append rfl rfl (by simp [Holding])
    | request => simp only at hn; cases hn; exact .same rfl (by simp [Holding])
    | delete => exact hfit.elim
    | openDoc x =>
      simp only at hn
      split at hn <;> cases hn
      exact .modify ho rfl (by simp [Holding]) (.inr (.inl rfl))
    | close =>
      simp only at hn
      split at hn <;> cases hn
      exact .modify ho rfl (by simp [Holding]) (.inr (.inl rfl))
    | create =>
      simp only at hn
      split at hn <;> cases hn
      exact .modify ho rfl (by simp [Holding]) (.inr (.inl rfl))
  | locked id =>
    obtain ⟨o, ho, hu⟩ := hid id rfl
    simp only [Call.next] at hn
    cases j with
    | openDoc x => simp only at hn; cases hn; exact .modify ho rfl (by simp [Holding]) (.inr (.inl rfl))
    | close => simp only at hn; cases hn; exact .modify ho rfl (by simp [Holding]) (.inr (.inl rfl))
    | create =>
      simp only [ho] at hn
      cases hs : c.synced u with
      | some h =>
        simp only [hs] at hn
        cases hn
        refine .same rfl (fun i hi => ⟨_, rfl, ?_⟩)
        have : id = i := hi
        subst this
        unfold compare
        split <;> rfl
      | none =>
        simp only [hs] at hn
        cases hn
        exact .same rfl (fun i hi => ⟨_, rfl, hi⟩)
    | request => exact hfit.elim
    | change f => exact hfit.elim
    | delete => exact hfit.elim
  | unsynced id =>
    obtain ⟨o, ho, hu⟩ := hid id rfl
    simp only [Call.next, ho] at hn
    cases hn
    cases j <;> first | exact hfit.elim | skip
    refine .same rfl (fun i hi => ⟨_, rfl, ?_⟩)
    have : id = i := hi
    subst this
    unfold compare
    split <;> rfl
  | toLoad id =>
    obtain ⟨o, ho, hu⟩ := hid id rfl
    simp only [Call.next, ho] at hn
    cases hp : o.phase with
    | fresh =>
      simp only [hp] at hn
      cases hn
      refine .modify ho rfl ?_ ?_
      · cases j <;> simp [Holding]
      · cases j <;> first | exact hfit.elim | (exact .inr (.inl rfl)) | exact .inr (.inr ⟨fun h => h, fun h => h⟩)
    | loading =>
      simp only [hp] at hn
      cases hn
      refine .same rfl (fun i hi => ⟨_, rfl, ?_⟩)
      cases j <;> first | exact hfit.elim | exact hi
    | loaded =>
      simp only [hp] at hn
      cases hn
      refine .same rfl (fun i hi => ⟨_, rfl, ?_⟩)
      cases j <;> first | exact hfit.elim | exact hi
  | loading id =>
    obtain ⟨o, ho, hu⟩ := hid id rfl
    simp only [Call.next] at hn
    cases hn
    refine .modify ho rfl ?_ ?_
    · cases j <;> simp [Holding]
    · cases j <;> first | exact hfit.elim | (exact .inr (.inl rfl)) | exact .inr (.inr ⟨fun h => h, fun h => h⟩)
  | ready id =>
    obtain ⟨o, ho, hu⟩ := hid id rfl
    simp only [Call.next, ho] at hn
    cases j with
    | request => simp only at hn; cases hn; exact .same rfl (fun i hi => hi.elim)
    | openDoc x => simp only at hn; cases hn; exact .same rfl (fun i hi => ⟨_, rfl, hi⟩)
    | close => simp only at hn; cases hn; exact .same rfl (fun i hi => ⟨_, rfl, hi⟩)
    | create => simp only at hn; cases hn; exact .same rfl (fun i hi => ⟨_, rfl, hi⟩)
    | change f => exact hfit.elim
    | delete => exact hfit.elim
  | written id =>
    obtain ⟨o, ho, hu⟩ := hid id rfl
    simp only [Call.next] at hn
    cases hn
    refine .modify ho rfl ?_ (.inl rfl)
    cases j <;> simp [Holding]
  | unlocked id =>
    obtain ⟨o, ho, hu⟩ := hid id rfl
    simp only [Call.next, ho] at hn
    split at hn <;> cases hn <;> exact .same rfl (by cases j <;> simp [Holding])
  | drop id =>
    simp only [Call.next] at hn
    cases hn
    exact .same rfl (by cases j <;> simp [Holding])
  | cloned id =>
    obtain ⟨o, ho, hu⟩ := hid id rfl
    simp only [Call.next, ho] at hn
    cases hn
    exact .same rfl (by cases j <;> simp [Holding])
  | stored id =>
    simp only [Call.next] at hn
    cases hn
    exact .same rfl (by cases j <;> simp [Holding])
  | del =>
    simp only [Call.next] at hn
    cases hn
    exact .same rfl (by cases j <;> simp [Holding])

theorem Valid.init : Valid .init := by
  constructor <;> simp [RState.init, RState.calls]

theorem Valid.framed {c c' : RState} {t : Call} {pc' : Option PC} (hv : Valid c) (ht : t ∈ c.calls)
    (hn : t.next c = some (c', pc')) : Framed t c c' pc' :=
  next_framed (hv.docs t.uri) (hv.fits t ht) (hv.holds t ht) hn

/-- Validity after a step of the call `t`, given how the list of calls changes. -/
theorem Valid.moved {c c1 c' : RState} {t : Call} {pc' : Option PC} (hv : Valid c) (ht : t ∈ c.calls)
    (hn : t.next c = some (c1, pc')) (hheap : c'.heap = c1.heap) (hdocs : c'.docs = c1.docs)
    (hnew : ∀ x ∈ c'.calls, x ∈ c.calls ∨ ∃ pc, pc' = some pc ∧ x = { t with pc })
    (hold : ∀ x ∈ c.calls, x.pc ≠ t.pc ∨ x.job ≠ t.job → x ∈ c'.calls)
    (hown : ∀ pc, pc' = some pc → { t with pc } ∈ c'.calls)
    (hfront : ∀ t, c'.front = some t → t.job.ofEditor = true) (hworkers : ∀ t ∈ c'.workers, t.job.ofEditor = false) :
    Valid c' := by
  have fr := hv.framed ht hn
  refine ⟨?_, ?_, ?_, hfront, hworkers, ?_, ?_⟩
  · intro v id h
    rw [hdocs] at h
    rw [hheap]
    by_cases hvu : v = t.uri
    · subst hvu; exact fr.own id h
    · rw [fr.docs v hvu] at h
      obtain ⟨o, h1, h2⟩ := hv.docs v id h
      obtain ⟨o', h3, h4, -⟩ := fr.heap id o h1
      exact ⟨o', h3, h4.trans h2⟩
  · intro x hx
    rcases hnew x hx with h | ⟨pc, h, rfl⟩
    · exact hv.fits x h
    · exact fr.fits pc h
  · intro x hx id hid
    rw [hheap]
    rcases hnew x hx with h | ⟨pc, h, rfl⟩
    · obtain ⟨o, h1, h2⟩ := hv.holds x h id hid
      obtain ⟨o', h3, h4, -⟩ := fr.heap id o h1
      exact ⟨o', h3, h4.trans h2⟩
    · exact fr.holds pc id h hid
  · intro id o ho hp
    rw [hheap] at ho
    rcases fr.loading id o ho hp with h | ⟨h, o', h1, h2⟩
    · exact ⟨_, hown _ h, rfl⟩
    · obtain ⟨x, hx, hx2⟩ := hv.loading id o' h1 h2
      exact ⟨x, hold x hx (.inl fun e => h (by rw [← e, hx2])), hx2⟩
  · intro id o ho hp
    rw [hheap] at ho
    rcases next_lock (hv.fits t ht) (hv.holds t ht) hn id o ho hp with ⟨pc, h, h'⟩ | ⟨h, o', h1, h2⟩
    · exact ⟨_, hown _ h, h'⟩
    · obtain ⟨x, hx, hx2⟩ := hv.lock id o' h1 h2
      refine ⟨x, hold x hx ?_, hx2⟩
      by_cases e : x.pc = t.pc
      · right; intro e'; rw [e, e'] at hx2; exact h hx2
      · exact .inl e

theorem Valid.step {c c' : RState} {e : REv} (hv : Valid c) (h : c.step e = some c') : Valid c' := by
  have start : ∀ (j : Job) (u : Bytes), Fits j j.start ∧ ∀ id, j.start.id? ≠ some id := by
    intro j u; cases j <;> simp [Job.start, Fits, PC.id?]
  cases e with
  | message u j =>
    simp only [RState.step] at h
    split at h
    · next hc =>
      simp only [Bool.and_eq_true, Option.isNone_iff_eq_none] at hc
      cases h
      have hcalls : c.calls = c.workers := by simp [RState.calls, hc.2]
      refine ⟨hv.docs, ?_, ?_, ?_, hv.workers, ?_, ?_⟩
      · intro t ht
        simp only [RState.calls, Option.toList_some, List.singleton_append, List.mem_cons] at ht
        rcases ht with rfl | ht
        · exact (start j u).1
        · exact hv.fits t (hcalls ▸ ht)
      · intro t ht id hid
        simp only [RState.calls, Option.toList_some, List.singleton_append, List.mem_cons] at ht
        rcases ht with rfl | ht
        · exact absurd hid ((start j u).2 id)
        · exact hv.holds t (hcalls ▸ ht) id hid
      · intro t ht; cases ht; exact hc.1
      · intro id o ho hp
        obtain ⟨x, hx, hx2⟩ := hv.loading id o ho hp
        exact ⟨x, by simp only [RState.calls, List.mem_append]; exact .inr (hcalls ▸ hx), hx2⟩
      · intro id o ho hp
        obtain ⟨x, hx, hx2⟩ := hv.lock id o ho hp
        exact ⟨x, by simp only [RState.calls, List.mem_append]; exact .inr (hcalls ▸ hx), hx2⟩
    · cases h
  | worker u j =>
    simp only [RState.step] at h
    split at h
    · cases h
    · next hc =>
      cases h
      have hcalls : ∀ t, t ∈ RState.calls { c with workers := c.workers ++ [⟨u, j, j.start⟩] } ↔
          t ∈ c.calls ∨ t = ⟨u, j, j.start⟩ := by
        intro t; simp [RState.calls, or_assoc]
      refine ⟨hv.docs, ?_, ?_, hv.front, ?_, ?_, ?_⟩
      · intro t ht
        rcases (hcalls t).1 ht with ht | rfl
        · exact hv.fits t ht
        · exact (start j u).1
      · intro t ht id hid
        rcases (hcalls t).1 ht with ht | rfl
        · exact hv.holds t ht id hid
        · exact absurd hid ((start j u).2 id)
      · intro t ht
        rcases List.mem_append.1 ht with ht | ht
        · exact hv.workers t ht
        · rw [List.mem_singleton] at ht; subst ht; simpa using hc
      · intro id o ho hp
        obtain ⟨x, hx, hx2⟩ := hv.loading id o ho hp
        exact ⟨x, (hcalls x).2 (.inl hx), hx2⟩
      · intro id o ho hp
        obtain ⟨x, hx, hx2⟩ := hv.lock id o ho hp
        exact ⟨x, (hcalls x).2 (.inl hx), hx2⟩
  | handler =>
    simp only [RState.step] at h
    cases hf : c.front with
    | none => rw [hf] at h; cases h
    | some t =>
      simp only [hf] at h
      cases hn : t.next c with
      | none => rw [hn] at h; cases h
      | some r =>
        obtain ⟨c1, pc'⟩ := r
        simp only [hn] at h
        cases h
        have ht : t ∈ c.calls := by simp [RState.calls, hf]
        have fr := hv.framed ht hn
        refine hv.moved ht hn rfl rfl ?_ ?_ ?_ ?_ ?_
        · intro x hx
          simp only [RState.calls, List.mem_append, Option.mem_toList, Option.mem_def, fr.workers] at hx
          rcases hx with hx | hx
          · simp only [Option.map_eq_some_iff] at hx
            obtain ⟨pc, h1, h2⟩ := hx
            exact .inr ⟨pc, h1, h2.symm⟩
          · exact .inl (by simp [RState.calls, hx])
        · intro x hx hne
          simp only [RState.calls, hf, Option.toList_some, List.singleton_append, List.mem_cons] at hx
          rcases hx with rfl | hx
          · rcases hne with h | h <;> exact absurd rfl h
          · simp [RState.calls, fr.workers, hx]
        · intro pc hpc
          simp [RState.calls, hpc]
        · intro x hx
          simp only [Option.map_eq_some_iff] at hx
          obtain ⟨pc, -, rfl⟩ := hx
          exact hv.front t hf
        · intro x hx
          rw [show ({ c1 with front := Option.map (fun pc => { t with pc }) pc' } : RState).workers = c1.workers from rfl,
            fr.workers] at hx
          exact hv.workers x hx
  | work i =>
    simp only [RState.step] at h
    cases hf : c.workers[i]? with
    | none => rw [hf] at h; cases h
    | some t =>
      simp only [hf] at h
      have htw : t ∈ c.workers := List.mem_of_getElem? hf
      have ht : t ∈ c.calls := by simp [RState.calls, htw]
      cases hn : t.next c with
      | none => rw [hn] at h; cases h
      | some r =>
        obtain ⟨c1, pc'⟩ := r
        simp only [hn] at h
        have fr := hv.framed ht hn
        cases pc' with
        | none =>
          simp only at h
          cases h
          refine hv.moved ht hn rfl rfl ?_ ?_ (by simp) ?_ ?_
          · intro x hx
            simp only [RState.calls, List.mem_append, fr.front, fr.workers] at hx
            rcases hx with hx | hx
            · exact .inl (by simp only [RState.calls, List.mem_append]; exact .inl hx)
            · exact .inl (by simp only [RState.calls, List.mem_append]; exact .inr (List.mem_of_mem_eraseIdx hx))
          · intro x hx hne
            simp only [RState.calls, List.mem_append, fr.front, fr.workers] at hx ⊢
            rcases hx with hx | hx
            · exact .inl hx
            · right
              obtain ⟨k, hk⟩ := List.getElem?_of_mem hx
              rw [List.mem_eraseIdx_iff_getElem?]
              refine ⟨k, ?_, hk⟩
              rintro rfl
              rw [hf] at hk
              cases hk
              rcases hne with h | h <;> exact absurd rfl h
          · intro x hx
            exact hv.front x (by rw [← fr.front]; exact hx)
          · intro x hx
            simp only [fr.workers] at hx
            exact hv.workers x (List.mem_of_mem_eraseIdx hx)
        | some pc =>
          simp only at h
          cases h
          have hset : ∀ x, x ∈ c1.workers.set i { t with pc } → x ∈ c.workers ∨ x = { t with pc } := by
            intro x hx
            rw [fr.workers] at hx
            exact List.mem_or_eq_of_mem_set hx
          refine hv.moved ht hn rfl rfl ?_ ?_ ?_ ?_ ?_
          · intro x hx
            simp only [RState.calls, List.mem_append, fr.front] at hx
            rcases hx with hx | hx
            · exact .inl (by simp only [RState.calls, List.mem_append]; exact .inl hx)
            · rcases hset x hx with hx | rfl
              · exact .inl (by simp only [RState.calls, List.mem_append]; exact .inr hx)
              · exact .inr ⟨pc, rfl, rfl⟩
          · intro x hx hne
            simp only [RState.calls, List.mem_append, fr.front, fr.workers] at hx ⊢
            rcases hx with hx | hx
            · exact .inl hx
            · right
              obtain ⟨k, hk⟩ := List.getElem?_of_mem hx
              refine List.mem_of_getElem? (i := k) ?_
              rw [List.getElem?_set_ne, hk]
              rintro rfl
              rw [hf] at hk
              cases hk
              rcases hne with h | h <;> exact absurd rfl h
          · intro pc2 hpc
            cases hpc
            have hlt : i < c.workers.length := (List.getElem?_eq_some_iff.mp hf).1
            simp only [RState.calls, List.mem_append, fr.workers]
            exact .inr (List.mem_set hlt _)
          · intro x hx
            exact hv.front x (by rw [← fr.front]; exact hx)
          · intro x hx
            rcases hset x hx with hx | rfl
            · exact hv.workers x hx
            · exact hv.workers t htw
  | write u x => simp only [RState.step] at h; cases h; exact ⟨hv.1, hv.2, hv.3, hv.4, hv.5, hv.6, hv.7⟩
  | prepare => simp only [RState.step] at h; cases h; exact ⟨hv.1, hv.2, hv.3, hv.4, hv.5, hv.6, hv.7⟩
  | finish => simp only [RState.step] at h; cases h; exact ⟨hv.1, hv.2, hv.3, hv.4, hv.5, hv.6, hv.7⟩

end Verif.Server.Races
