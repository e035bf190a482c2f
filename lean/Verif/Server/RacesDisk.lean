import Verif.Server.RacesLock
import Verif.Server.RacesIndex

/-! What the workers write to the index about a file that the editor has not opened. -/

namespace Verif.Server.Races

/-- Nothing but the workers deals with `u`; `W`: the texts its file has had. -/
structure Whole (u : Bytes) (W : Bytes → Prop) (c : RState) : Prop where
  front : ∀ t, c.front = some t → t.uri ≠ u
  disk : ∀ x, c.disk u = some x → W x
  heap : ∀ (id : Nat) (o : Obj), c.heap[id]? = some o → o.uri = u → W o.text
  read : ∀ w ∈ c.workers, w.uri = u → ∀ x, w.pc = .read x → W x
  ready : ∀ w ∈ c.workers, w.uri = u → ∀ id, w.pc = .ready id → LoadedAt c u id
  index : ∀ r : Rec, c.index u = some r → r.symbols = .loaded ∧ W r.text

/-- What a step of a call does to this. -/
structure WholeStep (u : Bytes) (W : Bytes → Prop) (c' : RState) (pc' : Option PC) : Prop where
  heap : ∀ (id : Nat) (o : Obj), c'.heap[id]? = some o → o.uri = u → W o.text
  read : ∀ x, pc' = some (.read x) → W x
  ready : ∀ id, pc' = some (.ready id) → LoadedAt c' u id
  index : ∀ r : Rec, c'.index u = some r → r.symbols = .loaded ∧ W r.text

theorem heap_texts {u : Bytes} {W : Bytes → Prop} {c c' : RState} {t : Call} {pc' : Option PC} (hu : t.uri ≠ u)
    (hfit : Fits t.job t.pc) (hid : ∀ id, t.pc.id? = some id → ∃ o : Obj, c.heap[id]? = some o ∧ o.uri = t.uri)
    (hw : ∀ (id : Nat) (o : Obj), c.heap[id]? = some o → o.uri = u → W o.text) (h : t.next c = some (c', pc')) :
    ∀ (id : Nat) (o : Obj), c'.heap[id]? = some o → o.uri = u → W o.text := by
  have app : ∀ x : Obj, x.uri = t.uri → ∀ (id : Nat) (o : Obj), (c.heap ++ [x])[id]? = some o → o.uri = u → W o.text := by
    intro x hx id o ho hou
    by_cases hlt : id < c.heap.length
    · rw [List.getElem?_append_left hlt] at ho; exact hw id o ho hou
    · rw [List.getElem?_append_right (by omega), List.getElem?_singleton] at ho
      split at ho
      · cases ho; exact absurd (hx.symm.trans hou) hu
      · cases ho
  have mod : ∀ (i : Nat) (f : Obj → Obj), (∀ o, (f o).uri = o.uri ∧ (f o).text = o.text) →
      ∀ (id : Nat) (o : Obj), (c.heap.modify i f)[id]? = some o → o.uri = u → W o.text := by
    intro i f hf id o ho hou
    rw [List.getElem?_modify] at ho
    cases ha : c.heap[id]? with
    | none => rw [ha] at ho; cases ho
    | some a =>
      rw [ha] at ho
      by_cases hi : i = id
      · simp only [hi, if_true, Option.map_eq_map, Option.map_some, Option.some.injEq] at ho
        subst ho
        rw [(hf a).2]
        exact hw id a ha ((hf a).1 ▸ hou)
      · simp only [hi, if_false] at ho
        cases ho
        exact hw id _ ha hou
  obtain ⟨v, j, pc⟩ := t
  simp only at hu hfit hid app
  cases pc with
  | look => simp only [Call.next] at h; cases hd : c.docs v <;> simp only [hd] at h <;> cases h <;> exact hw
  | miss => simp only [Call.next] at h; cases hd : c.disk v <;> simp only [hd] at h <;> cases h <;> exact hw
  | read x => simp only [Call.next] at h; cases h; exact app _ rfl
  | got id =>
    obtain ⟨o, ho, -⟩ := hid id rfl
    simp only [Call.next, ho] at h
    cases j with
    | change f => simp only at h; cases h; exact app _ rfl
    | request => simp only at h; cases h; exact hw
    | delete => exact hfit.elim
    | openDoc x => simp only at h; split at h <;> cases h; exact mod _ _ fun _ => ⟨rfl, rfl⟩
    | close => simp only at h; split at h <;> cases h; exact mod _ _ fun _ => ⟨rfl, rfl⟩
    | create => simp only at h; split at h <;> cases h; exact mod _ _ fun _ => ⟨rfl, rfl⟩
  | locked id =>
    obtain ⟨o, ho, -⟩ := hid id rfl
    simp only [Call.next] at h
    cases j with
    | openDoc x => simp only at h; cases h; exact mod _ _ fun _ => ⟨rfl, rfl⟩
    | close => simp only at h; cases h; exact mod _ _ fun _ => ⟨rfl, rfl⟩
    | create => simp only [ho] at h; cases hs : c.synced v <;> simp only [hs] at h <;> cases h <;> exact hw
    | request => exact hfit.elim
    | change f => exact hfit.elim
    | delete => exact hfit.elim
  | unsynced id => obtain ⟨o, ho, -⟩ := hid id rfl; simp only [Call.next, ho] at h; cases h; exact hw
  | toLoad id =>
    obtain ⟨o, ho, -⟩ := hid id rfl
    simp only [Call.next, ho] at h
    cases hp : o.phase <;> simp only [hp] at h <;> cases h
    · exact mod _ _ fun _ => ⟨rfl, rfl⟩
    · exact hw
    · exact hw
  | loading id => simp only [Call.next] at h; cases h; exact mod _ _ fun _ => ⟨rfl, rfl⟩
  | ready id =>
    obtain ⟨o, ho, -⟩ := hid id rfl
    simp only [Call.next, ho] at h
    cases j <;> simp only at h <;> cases h <;> exact hw
  | written id => simp only [Call.next] at h; cases h; exact mod _ _ fun _ => ⟨rfl, rfl⟩
  | unlocked id => obtain ⟨o, ho, -⟩ := hid id rfl; simp only [Call.next, ho] at h; split at h <;> cases h <;> exact hw
  | drop id => simp only [Call.next] at h; cases h; exact hw
  | cloned id => obtain ⟨o, ho, -⟩ := hid id rfl; simp only [Call.next, ho] at h; cases h; exact hw
  | stored id => simp only [Call.next] at h; cases h; exact hw
  | del => simp only [Call.next] at h; cases h; exact hw

/-- A step of a worker that deals with `u`. -/
theorem worker_whole {u : Bytes} {W : Bytes → Prop} {c c' : RState} {j : Job} {pc : PC} {pc' : Option PC}
    (hv : Valid c) (hk : Locks c) (hm : Whole u W c) (hmem : (⟨u, j, pc⟩ : Call) ∈ c.workers)
    (h : Call.next c ⟨u, j, pc⟩ = some (c', pc')) : WholeStep u W c' pc' := by
  have ht : (⟨u, j, pc⟩ : Call) ∈ c.calls := by simp [RState.calls, hmem]
  have hfit := hv.fits _ ht
  have hid := hv.holds _ ht
  have hj := hv.workers _ hmem
  simp only at hfit hid hj
  have hw := hm.heap
  have mod : ∀ (i : Nat) (f : Obj → Obj), (∀ o, (f o).uri = o.uri ∧ (f o).text = o.text) →
      ∀ (id : Nat) (o : Obj), (c.heap.modify i f)[id]? = some o → o.uri = u → W o.text := by
    intro i f hf id o ho hou
    rw [List.getElem?_modify] at ho
    cases ha : c.heap[id]? with
    | none => rw [ha] at ho; cases ho
    | some a =>
      rw [ha] at ho
      by_cases hi : i = id
      · simp only [hi, if_true, Option.map_eq_map, Option.map_some, Option.some.injEq] at ho
        subst ho
        rw [(hf a).2]
        exact hw id a ha ((hf a).1 ▸ hou)
      · simp only [hi, if_false] at ho
        cases ho
        exact hw id _ ha hou
  cases pc with
  | look =>
    simp only [Call.next] at h
    cases hd : c.docs u <;> simp only [hd] at h <;> cases h <;>
      exact ⟨hw, (fun x e => by cases e), (fun x e => by cases e), hm.index⟩
  | miss =>
    simp only [Call.next] at h
    cases hd : c.disk u <;> simp only [hd] at h <;> cases h
    · exact ⟨hw, (fun x e => by cases e), (fun x e => by cases e), hm.index⟩
    · exact ⟨hw, (fun x e => by cases e; exact hm.disk _ hd), (fun x e => by cases e), hm.index⟩
  | read x =>
    simp only [Call.next] at h
    cases h
    refine ⟨fun id o ho hou => ?_, (fun x e => by cases e), (fun x e => by cases e), hm.index⟩
    by_cases hlt : id < c.heap.length
    · rw [show (c.heap ++ _)[id]? = c.heap[id]? from List.getElem?_append_left hlt] at ho; exact hw id o ho hou
    · change (c.heap ++ _)[id]? = _ at ho
      rw [List.getElem?_append_right (by omega), List.getElem?_singleton] at ho
      split at ho
      · cases ho; exact hm.read _ hmem rfl x rfl
      · cases ho
  | got id =>
    obtain ⟨o, ho, -⟩ := hid id rfl
    simp only [Call.next, ho] at h
    cases j <;> first | exact hfit.elim | (simp only [Job.ofEditor] at hj; cases hj; done) | skip
    simp only at h
    split at h <;> cases h
    exact ⟨mod _ _ fun _ => ⟨rfl, rfl⟩, (fun x e => by cases e), (fun x e => by cases e), hm.index⟩
  | locked id =>
    obtain ⟨o, ho, -⟩ := hid id rfl
    simp only [Call.next] at h
    have hc : ∀ h, (∀ x, some (compare id o h) ≠ some (.read x)) ∧ ∀ i, some (compare id o h) ≠ some (.ready i) := by
      intro h; unfold compare; split <;> exact ⟨(fun x e => by cases e), (fun x e => by cases e)⟩
    cases j <;> first | exact hfit.elim | (simp only [Job.ofEditor] at hj; cases hj; done) | skip
    simp only [ho] at h
    cases hs : c.synced u with
    | some z =>
      simp only [hs] at h; cases h
      exact ⟨hw, fun x e => absurd e ((hc _).1 x), fun x e => absurd e ((hc _).2 x), hm.index⟩
    | none =>
      simp only [hs] at h; cases h
      exact ⟨hw, (fun x e => by cases e), (fun x e => by cases e), hm.index⟩
  | unsynced id =>
    obtain ⟨o, ho, -⟩ := hid id rfl
    have hc : ∀ h, (∀ x, some (compare id o h) ≠ some (.read x)) ∧ ∀ i, some (compare id o h) ≠ some (.ready i) := by
      intro h; unfold compare; split <;> exact ⟨(fun x e => by cases e), (fun x e => by cases e)⟩
    simp only [Call.next, ho] at h
    cases h
    exact ⟨hw, fun x e => absurd e ((hc _).1 x), fun x e => absurd e ((hc _).2 x), hm.index⟩
  | toLoad id =>
    obtain ⟨o, ho, hou⟩ := hid id rfl
    simp only [Call.next, ho] at h
    cases hp : o.phase <;> simp only [hp] at h <;> cases h
    · exact ⟨mod _ _ fun _ => ⟨rfl, rfl⟩, (fun x e => by cases e), (fun x e => by cases e), hm.index⟩
    · exfalso
      obtain ⟨y, hy, hyl⟩ := hv.loading id o ho hp
      obtain ⟨o', ho', hyu⟩ := hv.holds y hy id (by rw [hyl]; rfl)
      rw [ho] at ho'
      cases ho'
      have hyu : y.uri = u := hyu.symm.trans hou
      have hyw : y ∈ c.workers := by
        simp only [RState.calls, List.mem_append, Option.mem_toList] at hy
        rcases hy with hy | hy
        · exact absurd hyu (hm.front y hy)
        · exact hy
      have h1 := hv.workers y hyw
      have h2 := hv.fits y hy
      have hold : Holding y.job y.pc id := by
        rw [hyl] at h2 ⊢
        cases hyj : y.job <;> rw [hyj] at h1 h2 <;> first | rfl | exact h2.elim | cases h1
      have hold' : Holding j (.toLoad id) id := by
        cases j <;> first | rfl | exact hfit.elim | cases hj
      obtain ⟨a, ha⟩ := List.getElem?_of_mem hyw
      obtain ⟨b, hb⟩ := List.getElem?_of_mem hmem
      have hp := hk.pair
      simp only [RState.calls, List.pairwise_append] at hp
      by_cases hab : a = b
      · subst hab
        rw [ha] at hb
        cases hb
        cases hyl
      · exact pairwise_at hp.2.1 hab hb ha id ⟨hold, hold'⟩
    · refine ⟨hw, (fun x e => by cases e), fun x e => ?_, hm.index⟩
      cases e
      exact ⟨o, ho, hou, hp⟩
  | loading id =>
    obtain ⟨o, ho, hou⟩ := hid id rfl
    simp only [Call.next] at h
    cases h
    refine ⟨mod _ _ fun _ => ⟨rfl, rfl⟩, (fun x e => by cases e), fun x e => ?_, hm.index⟩
    cases e
    exact ⟨_, getElem?_modify_same ho, hou, rfl⟩
  | ready id =>
    obtain ⟨o, ho, hou⟩ := hm.ready _ hmem rfl id rfl
    have key : ∀ r : Rec, upd c.index u (some ⟨o.text, o.phase⟩) u = some r → r.symbols = .loaded ∧ W r.text := by
      intro r hr
      simp only [upd, if_true, Option.some.injEq] at hr
      subst hr
      exact ⟨hou.2, hw id o ho hou.1⟩
    simp only [Call.next, ho] at h
    cases j <;> simp only at h <;> cases h <;>
      first
      | exact ⟨hw, (fun x e => by cases e), (fun x e => by cases e), key⟩
      | exact ⟨hw, (fun x e => by cases e), (fun x e => by cases e), hm.index⟩
  | written id =>
    simp only [Call.next] at h; cases h
    exact ⟨mod _ _ fun _ => ⟨rfl, rfl⟩, (fun x e => by cases e), (fun x e => by cases e), hm.index⟩
  | unlocked id =>
    obtain ⟨o, ho, -⟩ := hid id rfl
    simp only [Call.next, ho] at h
    split at h <;> cases h <;> exact ⟨hw, (fun x e => by cases e), (fun x e => by cases e), hm.index⟩
  | drop id => simp only [Call.next] at h; cases h; exact ⟨hw, (fun x e => by cases e), (fun x e => by cases e), hm.index⟩
  | cloned id => cases j <;> first | exact hfit.elim | cases hj
  | stored id => cases j <;> first | exact hfit.elim | cases hj
  | del =>
    simp only [Call.next] at h; cases h
    refine ⟨hw, (fun x e => by cases e), (fun x e => by cases e), fun r hr => ?_⟩
    simp [upd] at hr

theorem Whole.step {u : Bytes} {W : Bytes → Prop} {c c' : RState} {e : REv} (hv : Valid c) (hk : Locks c) (hm : Whole u W c)
    (h1 : ∀ j, e ≠ .message u j) (h2 : ∀ x, e = .write u (some x) → W x) (h : c.step e = some c') : Whole u W c' := by
  cases e with
  | message v j =>
    simp only [RState.step] at h
    split at h <;> cases h
    refine ⟨fun t ht => ?_, hm.disk, hm.heap, hm.read, hm.ready, hm.index⟩
    cases ht
    intro hv
    exact h1 j (by rw [show v = u from hv])
  | worker v j =>
    simp only [RState.step] at h
    split at h <;> cases h
    refine ⟨hm.front, hm.disk, hm.heap, fun w hw hu x hx => ?_, fun w hw hu id hx => ?_, hm.index⟩
    · rcases List.mem_append.1 hw with hw | hw
      · exact hm.read w hw hu x hx
      · rw [List.mem_singleton] at hw; subst hw; cases j <;> cases hx
    · rcases List.mem_append.1 hw with hw | hw
      · exact hm.ready w hw hu id hx
      · rw [List.mem_singleton] at hw; subst hw; cases j <;> cases hx
  | handler =>
    simp only [RState.step] at h
    cases hf : c.front with
    | none => rw [hf] at h; cases h
    | some t =>
      simp only [hf] at h
      cases hn : t.next c with
      | none => rw [hn] at h; cases h
      | some r =>
        obtain ⟨c1, pc'⟩ := r
        simp only [hn] at h
        cases h
        have ht : t ∈ c.calls := by simp [RState.calls, hf]
        have fr := hv.framed ht hn
        have hu := hm.front t hf
        refine ⟨fun t' ht' => ?_, ?_, ?_, fun w hw => ?_, fun w hw hwu id hx => ?_, ?_⟩
        · cases pc' <;> cases ht'; exact hu
        · intro x hx; exact hm.disk x (by rw [← hx]; exact (congrFun fr.disk u).symm)
        · have := heap_texts hu (hv.fits t ht) (hv.holds t ht) hm.heap hn; exact this
        · exact hm.read w (fr.workers ▸ hw)
        · have := fr.loaded (hm.ready w (fr.workers ▸ hw) hwu id hx); exact this
        · intro r hr; exact hm.index r ((fr.index u (Ne.symm hu)) ▸ hr)
  | work i =>
    simp only [RState.step] at h
    cases hf : c.workers[i]? with
    | none => rw [hf] at h; cases h
    | some t =>
      simp only [hf] at h
      have htw : t ∈ c.workers := List.mem_of_getElem? hf
      have ht : t ∈ c.calls := by simp [RState.calls, htw]
      cases hn : t.next c with
      | none => rw [hn] at h; cases h
      | some r =>
        obtain ⟨c1, pc'⟩ := r
        simp only [hn] at h
        have fr := hv.framed ht hn
        have hd : ∀ x, c1.disk u = some x → W x := fun x hx => hm.disk x (by rw [← hx, fr.disk])
        have hfr : ∀ t', c1.front = some t' → t'.uri ≠ u := fun t' h' => hm.front t' (fr.front ▸ h')
        have hold : ∀ w ∈ c.workers, w.uri = u → ∀ id, w.pc = .ready id → LoadedAt c1 u id := fun w hw hu id hx =>
          fr.loaded (hm.ready w hw hu id hx)
        have all : (∀ (id : Nat) (o : Obj), c1.heap[id]? = some o → o.uri = u → W o.text) ∧
            (∀ r : Rec, c1.index u = some r → r.symbols = .loaded ∧ W r.text) ∧
            (t.uri = u → (∀ x, pc' = some (.read x) → W x) ∧ ∀ id, pc' = some (.ready id) → LoadedAt c1 u id) := by
          by_cases hu : t.uri = u
          · obtain ⟨v, j, pc⟩ := t
            simp only at hu
            subst hu
            have := worker_whole hv hk hm htw hn
            exact ⟨this.heap, this.index, fun _ => ⟨this.read, this.ready⟩⟩
          · exact ⟨heap_texts hu (hv.fits t ht) (hv.holds t ht) hm.heap hn,
              fun r hr => hm.index r ((fr.index u (Ne.symm hu)) ▸ hr), fun h => absurd h hu⟩
        cases pc' with
        | none =>
          simp only [Option.some.injEq] at h
          subst h
          exact ⟨hfr, hd, all.1, fun w hw => hm.read w (fr.workers ▸ List.mem_of_mem_eraseIdx hw),
            fun w hw => hold w (fr.workers ▸ List.mem_of_mem_eraseIdx hw), all.2.1⟩
        | some pc =>
          simp only [Option.some.injEq] at h
          subst h
          refine ⟨hfr, hd, all.1, fun w hw hu x hx => ?_, fun w hw hu id hx => ?_, all.2.1⟩
          · simp only [fr.workers] at hw
            rcases List.mem_or_eq_of_mem_set hw with hw | rfl
            · exact hm.read w hw hu x hx
            · exact (all.2.2 hu).1 x (congrArg some hx)
          · simp only [fr.workers] at hw
            rcases List.mem_or_eq_of_mem_set hw with hw | rfl
            · exact hold w hw hu id hx
            · exact (all.2.2 hu).2 id (congrArg some hx)
  | write v x =>
    simp only [RState.step] at h
    cases h
    refine ⟨hm.front, fun y hy => ?_, hm.heap, hm.read, hm.ready, hm.index⟩
    simp only [upd] at hy
    split at hy
    · next hvu => subst hy; exact h2 y (by rw [hvu])
    · exact hm.disk y hy
  | prepare => simp only [RState.step] at h; cases h; exact ⟨hm.front, hm.disk, hm.heap, hm.read, hm.ready, hm.index⟩
  | finish =>
    simp only [RState.step] at h
    cases h
    refine ⟨hm.front, hm.disk, hm.heap, hm.read, hm.ready, fun r hr => ?_⟩
    simp only at hr
    split at hr
    · cases hr
    · exact hm.index r hr

theorem Whole.init (u : Bytes) (W : Bytes → Prop) : Whole u W .init := by
  constructor <;> simp [RState.init]

theorem whole_run {u : Bytes} {W : Bytes → Prop} (es : List REv) (c c' : RState) (hv : Valid c) (hk : Locks c)
    (hm : Whole u W c) (h1 : ∀ e ∈ es, ∀ j, e ≠ .message u j) (h2 : ∀ x, .write u (some x) ∈ es → W x)
    (h : c.run es = some c') : Whole u W c' := by
  induction es generalizing c with
  | nil => cases h; exact hm
  | cons e es ih =>
    simp only [RState.run, Option.bind_eq_some_iff] at h
    obtain ⟨c1, hs, h'⟩ := h
    exact ih c1 (hv.step hs) (hk.step hv hs)
      (hm.step hv hk (h1 e (List.mem_cons_self ..)) (fun x hx => h2 x (by rw [hx]; exact List.mem_cons_self ..)) hs)
      (fun e he => h1 e (List.mem_cons_of_mem _ he)) (fun x hx => h2 x (List.mem_cons_of_mem _ hx)) h'

end Verif.Server.Races
