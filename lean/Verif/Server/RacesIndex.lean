import Verif.Server.RacesKept

/-! What the index records about an open document, whatever the workers do. -/

namespace Verif.Server.Races

def LoadedAt (c : RState) (u : Bytes) (id : Nat) : Prop :=
  ∃ o : Obj, c.heap[id]? = some o ∧ o.uri = u ∧ o.phase = .loaded

/-- The index describes the text `t`, the document in memory is analysed, and it is the one that the workers hold. -/
structure Settled (c : RState) (u t : Bytes) : Prop where
  index : c.index u = some ⟨t, .loaded⟩
  doc : ∃ id, c.docs u = some id ∧ LoadedAt c u id
  own : ∀ w ∈ c.workers, w.uri = u → ∀ i, w.pc.id? = some i → c.docs u = some i

def OpeningIndex (c : RState) (u t : Bytes) : PC → Prop
  | .ready i => LoadedAt c u i
  | .written i | .unlocked i => LoadedAt c u i ∧ c.index u = some ⟨t, .loaded⟩
  | _ => True

def EditingIndex (c : RState) (u t : Bytes) : PC → Prop
  | .cloned n => LoadedAt c u n
  | .stored n => LoadedAt c u n ∧ c.index u = some ⟨t, .loaded⟩
  | _ => True

def HandledIndex (c : RState) (u t : Bytes) (j : Job) (pc : PC) : Prop :=
  match j with
  | .openDoc _ => OpeningIndex c u t pc
  | .change _ => EditingIndex c u t pc
  | .request => Settled c u t
  | _ => True

structure InIndex (u : Bytes) (c : RState) (t : Bytes) : Prop where
  other : ¬ c.handling u → Settled c u t
  own : ∀ j pc, c.front = some ⟨u, j, pc⟩ → HandledIndex c u t j pc

theorem Framed.loaded {u : Bytes} {t : Call} {c c' : RState} {pc' : Option PC} (fr : Framed t c c' pc') {id : Nat}
    (h : LoadedAt c u id) : LoadedAt c' u id := by
  obtain ⟨o, h1, h2, h3⟩ := h
  obtain ⟨o', h4, h5, h6, -, -, h7⟩ := fr.heap id o h1
  exact ⟨o', h4, h5.trans h2, h7 h3⟩

/-- What concerns `u` in the index and in memory is as before. -/
structure Still (u : Bytes) (c c' : RState) : Prop where
  index : c'.index u = c.index u
  docs : c'.docs u = c.docs u
  loaded : ∀ id, LoadedAt c u id → LoadedAt c' u id

theorem Still.settled {u t : Bytes} {c c' : RState} (h : Still u c c') (hs : Settled c u t)
    (ho : ∀ w ∈ c'.workers, w.uri = u → ∀ i, w.pc.id? = some i → c.docs u = some i) : Settled c' u t := by
  obtain ⟨id, h1, h2⟩ := hs.doc
  exact ⟨h.index.trans hs.index, ⟨id, h.docs.trans h1, h.loaded id h2⟩, fun w hw hu i hi => h.docs.trans (ho w hw hu i hi)⟩

theorem Still.handled {u t : Bytes} {c c' : RState} {j : Job} {pc : PC} (h : Still u c c')
    (ho : Settled c u t → ∀ w ∈ c'.workers, w.uri = u → ∀ i, w.pc.id? = some i → c.docs u = some i)
    (hh : HandledIndex c u t j pc) : HandledIndex c' u t j pc := by
  cases j <;> simp only [HandledIndex] at hh ⊢
  · cases pc <;> simp only [OpeningIndex] at hh ⊢
    · exact h.loaded _ hh
    · exact ⟨h.loaded _ hh.1, h.index.trans hh.2⟩
    · exact ⟨h.loaded _ hh.1, h.index.trans hh.2⟩
  · cases pc <;> simp only [EditingIndex] at hh ⊢
    · exact h.loaded _ hh
    · exact ⟨h.loaded _ hh.1, h.index.trans hh.2⟩
  · exact h.settled hh (ho hh)

theorem InIndex.still {u t : Bytes} {c c' : RState} (hm : InIndex u c t) (hf : c'.front = c.front) (h : Still u c c')
    (ho : Settled c u t → ∀ w ∈ c'.workers, w.uri = u → ∀ i, w.pc.id? = some i → c.docs u = some i) : InIndex u c' t := by
  refine ⟨fun hn => ?_, fun j pc hj => ?_⟩
  · have hs := hm.other (by unfold RState.handling at hn ⊢; rwa [hf] at hn)
    exact h.settled hs (ho hs)
  · exact h.handled ho (hm.own j pc (by rw [← hf, hj]))

/-- A worker's step: the index is as before, or the document it holds is written. -/
theorem worker_index {w : Call} {c c1 : RState} {pc' : Option PC} (hj : w.job.ofEditor = false) (hfit : Fits w.job w.pc)
    (hp : w.pc ≠ .del) (hn : w.next c = some (c1, pc')) :
    c1.index = c.index ∨ ∃ (i : Nat) (o : Obj), w.pc.id? = some i ∧ c.heap[i]? = some o ∧
      c1.index = upd c.index w.uri (some ⟨o.text, o.phase⟩) := by
  obtain ⟨u, j, pc⟩ := w
  simp only at hj hfit hp
  have hj : j = .create ∨ j = .delete := by cases j <;> simp_all [Job.ofEditor]
  rcases hj with rfl | rfl
  · cases pc <;> first | exact hfit.elim | skip
    · left; simp only [Call.next] at hn
      cases h : c.docs u <;> simp only [h] at hn <;> cases hn <;> rfl
    · left; simp only [Call.next] at hn
      cases h : c.disk u <;> simp only [h] at hn <;> cases hn <;> rfl
    · left; simp only [Call.next] at hn; cases hn; rfl
    · left; rename_i i; simp only [Call.next] at hn
      cases h : c.heap[i]? with
      | none => simp only [h] at hn; cases hn
      | some o => simp only [h] at hn; split at hn <;> cases hn; rfl
    · left; rename_i i; simp only [Call.next] at hn
      cases h : c.heap[i]? with
      | none => simp only [h] at hn; cases hn
      | some o =>
        simp only [h] at hn
        cases h2 : c.synced u <;> simp only [h2] at hn <;> cases hn <;> rfl
    · left; rename_i i; simp only [Call.next] at hn
      cases h : c.heap[i]? with
      | none => simp only [h] at hn; cases hn
      | some o => simp only [h] at hn; cases hn; rfl
    · left; rename_i i; simp only [Call.next] at hn
      cases h : c.heap[i]? with
      | none => simp only [h] at hn; cases hn
      | some o => simp only [h] at hn; cases h2 : o.phase <;> simp only [h2] at hn <;> cases hn <;> rfl
    · left; simp only [Call.next] at hn; cases hn; rfl
    · rename_i i; simp only [Call.next] at hn
      cases h : c.heap[i]? with
      | none => simp only [h] at hn; cases hn
      | some o =>
        simp only [h] at hn
        cases hn
        exact .inr ⟨i, o, rfl, h, rfl⟩
    · left; simp only [Call.next] at hn; cases hn; rfl
    · left; rename_i i; simp only [Call.next] at hn
      cases h : c.heap[i]? with
      | none => simp only [h] at hn; cases hn
      | some o => simp only [h] at hn; split at hn <;> cases hn <;> rfl
    · left; simp only [Call.next] at hn; cases hn; rfl
  · cases pc <;> first | exact hfit.elim | exact absurd rfl hp

/-- A request does not touch the index, and does not touch the map if the document is in memory. -/
theorem request_next {u : Bytes} {pc : PC} {c c1 : RState} {pc' : Option PC} (hfit : Fits .request pc)
    (h1 : pc ≠ .miss) (h2 : ∀ x, pc ≠ .read x) {id : Nat} (hd : c.docs u = some id)
    (hn : Call.next c ⟨u, .request, pc⟩ = some (c1, pc')) : c1.docs = c.docs ∧ c1.index = c.index := by
  cases pc <;> first | exact hfit.elim | skip
  · simp only [Call.next, hd] at hn; cases hn; exact ⟨rfl, rfl⟩
  · exact absurd rfl h1
  · exact absurd rfl (h2 _)
  · rename_i i; simp only [Call.next] at hn
    cases h : c.heap[i]? with
    | none => simp only [h] at hn; cases hn
    | some o => simp only [h] at hn; cases hn; exact ⟨rfl, rfl⟩
  · rename_i i; simp only [Call.next] at hn
    cases h : c.heap[i]? with
    | none => simp only [h] at hn; cases hn
    | some o => simp only [h] at hn; cases h2 : o.phase <;> simp only [h2] at hn <;> cases hn <;> exact ⟨rfl, rfl⟩
  · simp only [Call.next] at hn; cases hn; exact ⟨rfl, rfl⟩
  · rename_i i; simp only [Call.next] at hn
    cases h : c.heap[i]? with
    | none => simp only [h] at hn; cases hn
    | some o => simp only [h] at hn; cases hn; exact ⟨rfl, rfl⟩

theorem own_of_quiet {u : Bytes} {c : RState} (h : c.quiet u) :
    ∀ w ∈ c.workers, w.uri = u → ∀ i, w.pc.id? ≠ some i := by
  intro w hw hu i hi
  have := h w hw hu
  obtain ⟨v, j, p⟩ := w
  unfold Call.busy at this
  cases p <;> simp_all [PC.id?]

/-- A step of the handler on `u`. -/
theorem handler_index {u t : Bytes} {c c1 : RState} {j : Job} {pc : PC} {pc' : Option PC} (hv : Valid c)
    (hm : Mirror u c t) (hi : InIndex u c t) (hf : c.front = some ⟨u, j, pc⟩) (hal : OpensAlone u c)
    (hch : ChangesAlone u c) (hn : Call.next c ⟨u, j, pc⟩ = some (c1, pc')) :
    match (generalizing := false) pc' with
    | some p => HandledIndex c1 u t j p
    | none => Settled c1 u t := by
  have hmem : (⟨u, j, pc⟩ : Call) ∈ c.calls := by simp [RState.calls, hf]
  have fr := hv.framed hmem hn
  have hfit := hv.fits _ hmem
  have hid := hv.holds _ hmem
  simp only at hfit hid
  have h := hm.own j pc hf
  have h' := hi.own j pc hf
  cases j with
  | close => exact h.elim
  | create => exact h.elim
  | delete => exact h.elim
  | request =>
    obtain ⟨-, ⟨id, k1, -⟩, h2, h3⟩ := h
    obtain ⟨e1, e2⟩ := request_next hfit h2 h3 k1 hn
    have hst : Settled c1 u t := (Still.mk (by rw [e2]) (by rw [e1]) (fun _ hl => fr.loaded hl) : Still u c c1).settled h'
      (fun w hw => h'.own w (by rw [← fr.workers]; exact hw))
    cases pc' <;> exact hst
  | change f =>
    have hq := hch.1 f pc hf
    obtain ⟨-, h2⟩ := h
    cases pc <;> simp only [Editing] at h2
    · obtain ⟨t0, -, id, k1, -⟩ := h2
      simp only [Call.next, k1] at hn
      cases hn
      exact trivial
    · obtain ⟨t0, -, -, ⟨o, k2, -⟩, -⟩ := h2
      simp only [Call.next, k2] at hn
      cases hn
      exact ⟨⟨u, f o.text, .loaded, o.isOpen, false⟩, by simp, rfl, rfl⟩
    · obtain ⟨-, ⟨o, k2, k3, k4⟩, -⟩ := h2
      obtain ⟨o', l1, l2, l3⟩ := h'
      rw [k2] at l1
      cases l1
      simp only [Call.next, k2] at hn
      cases hn
      exact ⟨⟨o, k2, k3, l3⟩, by simp [RState.sync, upd, k4, l3]⟩
    · obtain ⟨h3, h4⟩ := h'
      simp only [Call.next] at hn
      cases hn
      exact ⟨h4, ⟨_, by simp [upd], h3⟩, fun w hw hu i hi => absurd hi (own_of_quiet hq w hw hu i)⟩
  | openDoc x =>
    obtain ⟨rfl, h2⟩ := h
    obtain ⟨hq, -⟩ := hal x pc hf
    cases pc <;> simp only [Opening] at h2
    · cases hd : c.docs u <;> simp only [Call.next, hd] at hn <;> cases hn <;> trivial
    · cases hd : c.disk u with
      | none =>
        have := (hal x .miss hf).2 (.inr rfl)
        simp only [RState.view, h2, hd] at this
        cases this
      | some y => simp only [Call.next, hd] at hn; cases hn; trivial
    · simp only [Call.next] at hn; cases hn; trivial
    · obtain ⟨k1, o, k2, k3, k4⟩ := h2
      simp only [Call.next, k2] at hn
      split at hn <;> cases hn
      trivial
    · simp only [Call.next] at hn; cases hn; trivial
    · obtain ⟨k1, ⟨o, k2, k3, k4⟩, -⟩ := h2
      simp only [Call.next, k2] at hn
      cases hp : o.phase with
      | fresh => simp only [hp] at hn; cases hn; trivial
      | loaded => simp only [hp] at hn; cases hn; exact ⟨o, k2, k3, hp⟩
      | loading =>
        exfalso
        obtain ⟨y, hy, hy2⟩ := hv.loading _ o k2 hp
        simp only [RState.calls, hf, Option.toList_some, List.singleton_append, List.mem_cons] at hy
        rcases hy with rfl | hy
        · cases hy2
        · obtain ⟨o2, m1, m2⟩ := hv.holds y (by simp [RState.calls, hy]) _ (by rw [hy2]; rfl)
          rw [k2] at m1
          cases m1
          refine hq y hy (by rw [← m2, k3]) ?_
          unfold Call.busy
          rw [hy2]
          trivial
    · obtain ⟨k1, ⟨o, k2, k3, k4⟩, -⟩ := h2
      simp only [Call.next] at hn
      cases hn
      exact ⟨_, getElem?_modify_same k2, k3, rfl⟩
    · obtain ⟨k1, ⟨o, k2, k3, k4⟩, -⟩ := h2
      obtain ⟨o', l1, l2, l3⟩ := h'
      rw [k2] at l1
      cases l1
      simp only [Call.next, k2] at hn
      cases hn
      exact ⟨⟨o, k2, k3, l3⟩, by simp [RState.sync, upd, k4, l3]⟩
    · obtain ⟨h3, h4⟩ := h'
      simp only [Call.next] at hn
      cases hn
      exact ⟨fr.loaded h3, h4⟩
    · obtain ⟨k1, ⟨o, k2, k3, k4⟩, ⟨o', k5, -, k6⟩⟩ := h2
      rw [k2] at k5
      cases k5
      obtain ⟨h3, h4⟩ := h'
      simp only [Call.next, k2, k6, if_true] at hn
      cases hn
      exact ⟨h4, ⟨_, k1, h3⟩, fun w hw hu i hi => absurd hi (own_of_quiet hq w hw hu i)⟩

theorem InIndex.step {u : Bytes} {e : Option Bytes} {c c' : RState} {ev : REv} (hv : Valid c)
    (hm : ∀ t, e = some t → Mirror u c t) (hi : ∀ t, e = some t → InIndex u c t)
    (hal : OpensAlone u c) (hal' : OpensAlone u c') (hch : ChangesAlone u c) (hch' : ChangesAlone u c')
    (hfin : ev = .finish → c.synced u = none) (h : c.step ev = some c') :
    ∀ t, typedStep u e ev = some t → InIndex u c' t := by
  intro t ht
  cases ev with
  | message v j =>
    simp only [RState.step] at h
    split at h
    · next hc =>
      simp only [Bool.and_eq_true, Option.isNone_iff_eq_none] at hc
      cases h
      by_cases hvu : v = u
      · subst hvu
        refine ⟨fun hn => absurd ⟨_, rfl, rfl⟩ hn, fun j' pc hj => ?_⟩
        simp only [Option.some.injEq, Call.mk.injEq, true_and] at hj
        obtain ⟨rfl, rfl⟩ := hj
        cases j with
        | openDoc x => exact trivial
        | change f => exact trivial
        | close => exact trivial
        | request =>
          have := (hi t ht).other (by rintro ⟨x, hx, -⟩; rw [hc.2] at hx; cases hx)
          exact ⟨this.1, this.2, this.3⟩
        | create => exact trivial
        | delete => exact trivial
      · have he : typedStep u e (.message v j) = e := by cases j <;> simp [typedStep, hvu]
        rw [he] at ht
        have hs := (hi t ht).other (by rintro ⟨x, hx, -⟩; rw [hc.2] at hx; cases hx)
        refine ⟨fun _ => ⟨hs.1, hs.2, hs.3⟩, fun j' pc hj => ?_⟩
        simp only [Option.some.injEq, Call.mk.injEq] at hj
        exact absurd hj.1 hvu
    · cases h
  | worker v j =>
    simp only [RState.step] at h
    split at h
    · cases h
    · cases h
      refine (hi t ht).still rfl ⟨rfl, rfl, fun _ h => h⟩ fun hs w hw hu i hid => ?_
      rcases List.mem_append.1 hw with hw | hw
      · exact hs.own w hw hu i hid
      · rw [List.mem_singleton] at hw
        subst hw
        cases j <;> cases hid
  | handler =>
    have ht : e = some t := ht
    have hm := hm t ht
    have hi := hi t ht
    simp only [RState.step] at h
    cases hf : c.front with
    | none => rw [hf] at h; cases h
    | some x =>
      simp only [hf] at h
      cases hn : x.next c with
      | none => rw [hn] at h; cases h
      | some r =>
        obtain ⟨c1, pc'⟩ := r
        simp only [hn] at h
        cases h
        have hx : x ∈ c.calls := by simp [RState.calls, hf]
        have fr := hv.framed hx hn
        by_cases hxu : x.uri = u
        · obtain ⟨v, j, pc⟩ := x
          subst hxu
          have hh := handler_index hv hm hi hf hal hch hn
          cases pc' with
          | none =>
            refine ⟨fun _ => ⟨hh.1, hh.2, hh.3⟩, fun j' p hj => by simp at hj⟩
          | some p =>
            refine ⟨fun hn => absurd ⟨_, rfl, rfl⟩ hn, fun j' p' hj => ?_⟩
            simp only [Option.map_some, Option.some.injEq, Call.mk.injEq, true_and] at hj
            obtain ⟨rfl, rfl⟩ := hj
            exact (Still.mk rfl rfl (fun _ h => h) :
              Still v c1 { c1 with front := some ⟨v, j, p⟩ }).handled (fun hs => hs.own) hh
        · have hs := hi.other (by rintro ⟨y, hy, hy'⟩; rw [hf] at hy; cases hy; exact hxu hy')
          have hst : Still u c { c1 with front := pc'.map fun pc => { x with pc } } :=
            ⟨fr.index u (Ne.symm hxu), fr.docs u (Ne.symm hxu), fun _ hl => fr.loaded hl⟩
          refine ⟨fun _ => hst.settled hs (fun w hw => hs.own w (by rw [← fr.workers]; exact hw)), fun j p hj => ?_⟩
          simp only [Option.map_eq_some_iff] at hj
          obtain ⟨pc, -, h2⟩ := hj
          obtain ⟨v, j', pc2⟩ := x
          simp only [Call.mk.injEq] at h2
          exact absurd h2.1 hxu
  | work i =>
    have ht : e = some t := ht
    have hm := hm t ht
    have hi := hi t ht
    obtain ⟨w, c1, pc', hww, hn, fr, hfront, hdocs, hheap, ⟨hindex, -, -⟩, hmem, hown⟩ := work_step hv h
    have hwc : w ∈ c.calls := by simp [RState.calls, hww]
    have hld : ∀ id, LoadedAt c u id → LoadedAt c' u id := fun id hl => by
      have := fr.loaded hl; unfold LoadedAt at this ⊢; rwa [hheap]
    by_cases hwu : w.uri = u
    · have hnd : w.pc ≠ .del := hch.2 w hww hwu
      by_cases hop : ∃ j pc, c.front = some ⟨u, j, pc⟩ ∧ ((∃ x, j = .openDoc x) ∨ ∃ f, j = .change f)
      · exfalso
        obtain ⟨j, pc, hop, hj⟩ := hop
        have q : c.quiet u ∧ c'.quiet u := by
          rcases hj with ⟨x, rfl⟩ | ⟨f, rfl⟩
          · exact ⟨(hal x pc hop).1, (hal' x pc (hfront.trans hop)).1⟩
          · exact ⟨hch.1 f pc hop, hch'.1 f pc (hfront.trans hop)⟩
        have q1 := q.1 w hww hwu
        obtain ⟨v, jj, p⟩ := w
        unfold Call.busy at q1
        cases p <;> simp only [not_true, not_false_eq_true] at q1
        · cases hd : c.docs v with
          | none =>
            simp only [Call.next, hd] at hn
            cases hn
            exact q.2 _ (hown _ rfl) hwu trivial
          | some id =>
            simp only [Call.next, hd] at hn
            cases hn
            exact q.2 _ (hown _ rfl) hwu trivial
        · exact hnd rfl
      · have hset : Settled c u t := by
          by_cases hh : c.handling u
          · obtain ⟨⟨v, j, pc⟩, h1, rfl⟩ := hh
            have h2 := hi.own j pc h1
            have h3 := hm.own j pc h1
            cases j with
            | openDoc x => exact absurd ⟨_, _, h1, .inl ⟨x, rfl⟩⟩ hop
            | change f => exact absurd ⟨_, _, h1, .inr ⟨f, rfl⟩⟩ hop
            | request => exact h2
            | close => exact h3.elim
            | create => exact h3.elim
            | delete => exact h3.elim
          · exact hi.other hh
        obtain ⟨htm, id, hid, -⟩ := hm.docs (fun x pc h => hop ⟨_, pc, h, .inl ⟨x, rfl⟩⟩)
        have hkept : Kept c u t := by
          by_cases hh : c.handling u
          · obtain ⟨⟨v, j, pc⟩, h1, rfl⟩ := hh
            have h3 := hm.own j pc h1
            cases j with
            | openDoc x => exact absurd ⟨_, _, h1, .inl ⟨x, rfl⟩⟩ hop
            | change f => exact absurd ⟨_, _, h1, .inr ⟨f, rfl⟩⟩ hop
            | request => exact h3.2.1
            | close => exact h3.elim
            | create => exact h3.elim
            | delete => exact h3.elim
          · exact (hm.other hh).2
        obtain ⟨k1, k2⟩ := worker_next (hv.workers w hww) (hv.fits w hwc) (by rw [hwu]; exact htm w hww hwu)
          (by rw [hwu]; exact ⟨id, hid⟩) hn
        have hix : c1.index u = c.index u := by
          rcases worker_index (hv.workers w hww) (hv.fits w hwc) hnd hn with e | ⟨k, o, a1, a2, a3⟩
          · rw [e]
          · have hk := hset.own w hww hwu k a1
            obtain ⟨k', b1, o1, b2, -, b3⟩ := hset.doc
            obtain ⟨k'', c1', ⟨o2, c2, -, c3⟩, -⟩ := hkept
            rw [hk] at b1 c1'
            cases b1
            cases c1'
            rw [a2] at b2 c2
            cases b2
            cases c2
            rw [a3, hset.index, hwu]
            simp [upd, b3, c3]
        refine hi.still hfront ⟨by rw [hindex]; exact hix, by rw [hdocs, k1], hld⟩ fun hs y hy hu n hyn => ?_
        rcases hmem y hy with hy | ⟨pc, e, rfl⟩
        · exact hs.own y hy hu n hyn
        · rcases (k2 pc e).2.2.2 n hyn with a | a
          · exact hs.own w hww hwu n a
          · rwa [hwu] at a
    · refine hi.still hfront ⟨by rw [hindex]; exact fr.index u (Ne.symm hwu), by rw [hdocs]; exact fr.docs u (Ne.symm hwu),
        hld⟩ fun hs y hy hu n hyn => ?_
      rcases hmem y hy with hy | ⟨pc, e, rfl⟩
      · exact hs.own y hy hu n hyn
      · exact absurd hu hwu
  | write v x =>
    simp only [RState.step] at h; cases h
    exact (hi t ht).still rfl ⟨rfl, rfl, fun _ h => h⟩ fun hs => hs.own
  | prepare =>
    simp only [RState.step] at h; cases h
    exact (hi t ht).still rfl ⟨rfl, rfl, fun _ h => h⟩ fun hs => hs.own
  | finish =>
    simp only [RState.step] at h; cases h
    exact (hi t ht).still rfl ⟨by simp [hfin rfl], rfl, fun _ h => h⟩ fun hs => hs.own

/-- The invariant, for a whole schedule. -/
theorem indexed_run {u : Bytes} (es : List REv) (e : Option Bytes) (c c' : RState) (hv : Valid c)
    (hm : ∀ t, e = some t → Mirror u c t) (hi : ∀ t, e = some t → InIndex u c t)
    (hal : Always (fun c => OpensAlone u c ∧ ChangesAlone u c) c es) (hsp : Spares u c es) (h : c.run es = some c') :
    ∀ t, es.foldl (typedStep u) e = some t → InIndex u c' t := by
  induction es generalizing e c with
  | nil => cases h; exact hi
  | cons ev es ih =>
    simp only [RState.run, Option.bind_eq_some_iff] at h
    obtain ⟨c1, h1, h2⟩ := h
    obtain ⟨a1, a2⟩ := hal
    obtain ⟨s1, s2⟩ := hsp
    have a2 := a2 c1 h1
    have a3 : OpensAlone u c1 ∧ ChangesAlone u c1 := by cases es <;> first | exact a2 | exact a2.1
    exact ih (typedStep u e ev) c1 (hv.step h1) (Mirror.step hv hm a1.1 a3.1 h1)
      (InIndex.step hv hm hi a1.1 a3.1 a1.2 a3.2 (fun e => by subst e; exact s1) h1) a2 (s2 c1 h1) h2

end Verif.Server.Races
