import Verif.Rpc.Requests
import Verif.Common.Tactics
import Mathlib.Data.List.Range

namespace Verif.Rpc

/-- What holds of a request to which `cnt` replies were sent. -/
structure RInv (r : Req) (cnt : Nat) : Prop where
  rel : r.released = true ↔ 2 ≤ r.state.rank
  que : r.phase = .queued ↔ r.state = .waiting
  wr : r.writing ≠ none → r.state = .replied
  nid : r.state = .replied → r.id ≠ none
  c0 : r.state ≠ .replied ∨ r.writing ≠ none → cnt = 0
  c1 : cnt ≤ 1
  ret : r.phase = .returning ∨ r.phase = .finished → r.id ≠ none → r.state = .replied
  fin : r.phase = .finished → r.released = true ∧ r.writing = none

structure CInv (c : Conn) : Prop where
  ok : c.panicked = false
  each : ∀ i r, c.reqs[i]? = some r → RInv r (c.replies i).length ∧ ∀ id ∈ c.replies i, r.id = some id
  empty : ∀ i, c.reqs[i]? = none → c.replies i = []
  order : ∃ k, c.started = List.range k ∧ k ≤ c.reqs.length ∧ ∀ i r, c.reqs[i]? = some r →
    (r.phase ≠ .queued ↔ i < k) ∧ (i + 1 < k → r.released = true)

theorem cinv_init : CInv Conn.init :=
  ⟨rfl, by simp [Conn.init], fun i _ => by simp [Conn.replies, Conn.init], 0, rfl, Nat.zero_le _, by simp [Conn.init]⟩

theorem toParallel_inv {r : Req} {n : Nat} (h : RInv r n) (hp : r.phase ≠ .queued) :
    ∃ r', r.toParallel = some r' ∧ RInv r' n ∧ r'.id = r.id ∧ r'.phase = r.phase ∧ r'.released = true ∧
      r'.writing = r.writing ∧ r'.cancelled = r.cancelled ∧ r.state.rank ≤ r'.state.rank ∧
      (r.state = .replied ↔ r'.state = .replied) := by
  obtain ⟨id, state, phase, released, cancelled, writing⟩ := r
  obtain ⟨rel, que, wr, nid, c0, c1, ret, fin⟩ := h
  unfold Req.toParallel
  simp only at rel que wr nid c0 ret fin hp ⊢
  cases state with
  | waiting => simp_all
  | serial =>
    have hr : released = false := by
      cases released with
      | false => rfl
      | true => have := rel.mp rfl; simp [RState.rank] at this
    have hw : writing = none := by
      by_contra hc; cases wr hc
    subst hr hw
    rw [if_neg (by simp [RState.rank])]
    refine ⟨⟨id, .parallel, phase, true, cancelled, none⟩, rfl, ?_, rfl, rfl, rfl, rfl, rfl, by simp [RState.rank], by simp⟩
    refine ⟨by simp [RState.rank], by simpa using hp, by simp, by simp, fun _ => c0 (Or.inl (by simp)), c1, ?_, ?_⟩
    · intro h1 h2; cases ret h1 h2
    · intro h1; exact ⟨rfl, rfl⟩
  | parallel =>
    refine ⟨_, if_pos (Nat.le_refl _), ⟨rel, que, wr, nid, c0, c1, ret, fin⟩, rfl, rfl, rel.mpr (by simp [RState.rank]),
      rfl, rfl, Nat.le_refl _, Iff.rfl⟩
  | replied =>
    refine ⟨_, if_pos (by simp [RState.rank]), ⟨rel, que, wr, nid, c0, c1, ret, fin⟩, rfl, rfl,
      rel.mpr (by simp [RState.rank]), rfl, rfl, Nat.le_refl _, Iff.rfl⟩

theorem toReplied_inv {r : Req} {n : Nat} (h : RInv r n) (hp : r.phase ≠ .queued) (hf : r.phase ≠ .finished)
    (d : Bool) :
    ∃ r', r.toReplied d = some r' ∧ RInv r' n ∧ r'.id = r.id ∧ r'.phase = r.phase ∧
      (r.released = true → r'.released = true) ∧ r'.cancelled = r.cancelled ∧ (r.id ≠ none → r'.state = .replied) ∧
      (r'.writing = some d ∧ r.state ≠ .replied ∧ r'.released = true ∨ r' = r) := by
  unfold Req.toReplied
  by_cases h1 : RState.replied.rank ≤ r.state.rank
  · rw [if_pos h1]
    have hs : r.state = .replied := by
      cases hs : r.state <;> simp_all [RState.rank]
    exact ⟨r, rfl, h, rfl, rfl, id, rfl, fun _ => hs, Or.inr rfl⟩
  · rw [if_neg h1]
    by_cases h2 : r.id = none
    · rw [if_pos h2]
      exact ⟨r, rfl, h, rfl, rfl, id, rfl, fun h3 => absurd h2 h3, Or.inr rfl⟩
    · rw [if_neg h2]
      obtain ⟨r', h3, hinv, hid, hph, hrel, hwr, hca, -, hst⟩ := toParallel_inv h hp
      rw [h3]
      have hne : r.state ≠ .replied := by intro hc; rw [hc] at h1; simp [RState.rank] at h1
      have hc0 : n = 0 := h.c0 (Or.inl hne)
      refine ⟨_, rfl, ?_, hid, hph, fun _ => hrel, hca, fun _ => rfl, Or.inl ⟨rfl, hne, hrel⟩⟩
      refine ⟨?_, ?_, fun _ => rfl, fun _ => ?_, fun _ => hc0, by omega, fun _ _ => rfl, ?_⟩
      · simp [RState.rank, hrel]
      · simp [hph, hp]
      · simpa [hid] using h2
      · simp [hph, hf]

/-- Replacing a request by one in which nothing was taken back. -/
theorem CInv.set {c : Conn} (h : CInv c) {i : Nat} {r r' : Req} (hi : c.reqs[i]? = some r)
    (hinv : RInv r' (c.replies i).length) (hid : r'.id = r.id) (hph : r'.phase = .queued ↔ r.phase = .queued)
    (hrel : r.released = true → r'.released = true) : CInv { c with reqs := c.reqs.set i r' } := by
  have hlt : i < c.reqs.length := by
    by_contra hc
    rw [List.getElem?_eq_none (by omega)] at hi
    cases hi
  have hget : ∀ j, (c.reqs.set i r')[j]? = if j = i then some r' else c.reqs[j]? := by
    intro j
    rw [List.getElem?_set]
    by_cases hj : i = j
    · subst hj; simp [hlt]
    · rw [if_neg hj, if_neg (fun h => hj h.symm)]
  refine ⟨h.ok, ?_, ?_, ?_⟩
  · intro j q hq
    simp only [hget] at hq
    split at hq
    · rename_i hj
      subst hj
      simp only [Option.some.injEq] at hq
      subst hq
      exact ⟨hinv, fun id hm => by rw [hid]; exact (h.each j r hi).2 id hm⟩
    · exact h.each j q hq
  · intro j hq
    simp only [hget] at hq
    split at hq
    · cases hq
    · exact h.empty j hq
  · obtain ⟨k, hk, hle, ho⟩ := h.order
    refine ⟨k, hk, by simpa using hle, fun j q hq => ?_⟩
    simp only [hget] at hq
    split at hq
    · rename_i hj
      subst hj
      simp only [Option.some.injEq] at hq
      subst hq
      obtain ⟨h1, h2⟩ := ho j r hi
      refine ⟨?_, fun hlt => hrel (h2 hlt)⟩
      rw [← h1, Ne, Ne, hph]
    · exact ho j q hq

theorem CInv.step {c c' : Conn} (h : CInv c) (e : Ev) (hs : c.step e = some c') : CInv c' := by
  unfold Conn.step at hs
  rw [if_neg (by simp [h.ok])] at hs
  by_cases hrec : ∃ id, e = .receive id
  · obtain ⟨id, rfl⟩ := hrec
    simp only [Option.some.injEq] at hs
    subst hs
    refine ⟨h.ok, ?_, ?_, ?_⟩
    · intro i r hr
      simp only at hr
      rw [List.getElem?_append] at hr
      split at hr
      · exact h.each i r hr
      · rename_i hlt
        have hrep : c.replies i = [] := h.empty i (List.getElem?_eq_none (by omega))
        have : r = ⟨id, .waiting, .queued, false, false, none⟩ := by
          cases hd : i - c.reqs.length with
          | zero => rw [hd] at hr; simpa using hr.symm
          | succ n => rw [hd] at hr; simp at hr
        subst this
        show RInv _ (c.replies i).length ∧ ∀ id' ∈ c.replies i, _
        rw [hrep]
        exact ⟨⟨by simp [RState.rank], by simp, by simp, by simp, by simp, by simp, by simp, by simp⟩, by simp⟩
    · intro i hr
      simp only at hr
      rw [List.getElem?_append] at hr
      split at hr
      · rename_i hlt
        rw [List.getElem?_eq_none_iff] at hr
        omega
      · rename_i hlt
        exact h.empty i (List.getElem?_eq_none (by omega))
    · obtain ⟨k, hk, hle, ho⟩ := h.order
      refine ⟨k, hk, by simp only [List.length_append]; omega, fun i r hr => ?_⟩
      simp only at hr
      rw [List.getElem?_append] at hr
      split at hr
      · exact ho i r hr
      · rename_i hl
        have : r = ⟨id, .waiting, .queued, false, false, none⟩ := by
          cases hd : i - c.reqs.length with
          | zero => rw [hd] at hr; simpa using hr.symm
          | succ n => rw [hd] at hr; simp at hr
        subst this
        have : ¬ i < k := by omega
        exact ⟨by simpa using this, fun h => absurd (Nat.lt_of_succ_lt h) this⟩
  · have hs2 : ∃ r, c.reqs[e.index]? = some r ∧ c.stepReq e.index r e = some c' := by
      cases e with
      | receive id => exact absurd ⟨id, rfl⟩ hrec
      | _ =>
        simp only at hs
        split at hs
        · cases hs
        · rename_i r hr
          exact ⟨r, hr, hs⟩
    clear hs
    obtain ⟨r, hr, hs⟩ := hs2
    obtain ⟨hinv, hids⟩ := h.each _ r hr
    cases e with
    | receive id => exact absurd ⟨id, rfl⟩ hrec
    | start i =>
      simp only [Ev.index] at hr hs hinv hids
      simp only [Conn.stepReq] at hs
      split at hs
      · rename_i hc
        obtain ⟨hq, hprev⟩ := hc
        simp only [Option.some.injEq] at hs
        have hwait := hinv.que.mp hq
        have hrel : r.released = false := by
          cases hb : r.released with
          | false => rfl
          | true => have := hinv.rel.mp hb; rw [hwait] at this; simp [RState.rank] at this
        have hwr : r.writing = none := by
          by_contra hc'
          have := hinv.wr hc'
          rw [hwait] at this
          cases this
        have hcnt : (c.replies i).length = 0 := hinv.c0 (Or.inl (by rw [hwait]; simp))
        have hlt : i < c.reqs.length := by
          by_contra hc'
          rw [List.getElem?_eq_none (by omega)] at hr
          cases hr
        obtain ⟨k, hk, hle, ho⟩ := h.order
        -- the request that starts is the next one
        have hik : i = k := by
          have h1 : ¬ i < k := by
            intro hlt'
            exact (ho i r hr).1.mpr hlt' hq
          rcases hprev with h0 | hp
          · have : ¬ 0 < k := by rw [h0] at h1; exact h1
            omega
          · by_contra hne
            obtain ⟨p, hp1, hp2⟩ := Option.map_eq_some_iff.mp hp
            have hpq : p.phase ≠ .queued := by
              intro hpq
              obtain ⟨hpi, -⟩ := h.each _ p hp1
              have hw := hpi.que.mp hpq
              have := hpi.rel.mp hp2
              rw [hw] at this
              simp [RState.rank] at this
            have := (ho _ p hp1).1.mp hpq
            omega
        subst hs
        have hget : ∀ j, (c.reqs.set i { r with state := .serial, phase := .running })[j]? =
            if j = i then some { r with state := .serial, phase := .running } else c.reqs[j]? := by
          intro j
          rw [List.getElem?_set]
          by_cases hj : i = j
          · subst hj; simp [hlt]
          · rw [if_neg hj, if_neg (fun h => hj h.symm)]
        refine ⟨h.ok, ?_, ?_, k + 1, ?_, by simp; omega, ?_⟩
        · intro j q hq'
          simp only [hget] at hq'
          split at hq'
          · rename_i hj
            subst hj
            simp only [Option.some.injEq] at hq'
            subst hq'
            refine ⟨⟨by simp [RState.rank, hrel], by simp, by simp [hwr], by simp, fun _ => hcnt, ?_, by simp, by simp⟩,
              hids⟩
            show (c.replies j).length ≤ 1
            omega
          · exact h.each j q hq'
        · intro j hq'
          simp only [hget] at hq'
          split at hq'
          · cases hq'
          · exact h.empty j hq'
        · show c.started ++ [i] = _
          rw [hk, List.range_succ, hik]
        · intro j q hq'
          simp only [hget] at hq'
          split at hq'
          · rename_i hj
            simp only [Option.some.injEq] at hq'
            subst hq'
            refine ⟨⟨fun _ => by omega, fun _ => by simp⟩, fun hh => by omega⟩
          · rename_i hj
            obtain ⟨h1, h2⟩ := ho j q hq'
            refine ⟨?_, fun hh => ?_⟩
            · rw [h1]; omega
            · -- `j` is the predecessor or an earlier one
              by_cases hjk : j + 1 < k
              · exact h2 hjk
              · have hj' : j = i - 1 := by omega
                rcases hprev with h0 | hp
                · omega
                · rw [← hj', hq'] at hp
                  simpa using hp
      · cases hs
    | parallel i =>
      simp only [Ev.index] at hr hs hinv hids
      simp only [Conn.stepReq] at hs
      split at hs
      · rename_i hc
        obtain ⟨r', h1, h2, h3, h4, h5, -⟩ := toParallel_inv hinv (by rw [hc.1]; simp)
        rw [h1] at hs
        simp only [Conn.put, Option.some.injEq] at hs
        subst hs
        exact h.set hr h2 h3 (by rw [h4]) (fun _ => h5)
      · cases hs
    | reply i d =>
      simp only [Ev.index] at hr hs hinv hids
      simp only [Conn.stepReq] at hs
      split at hs
      · rename_i hc
        obtain ⟨r', h1, h2, h3, h4, h5, -⟩ := toReplied_inv hinv (by rw [hc.1]; simp) (by rw [hc.1]; simp) d
        rw [h1] at hs
        simp only [Conn.put, Option.some.injEq] at hs
        subst hs
        exact h.set hr h2 h3 (by rw [h4]) h5
      · cases hs
    | write i =>
      simp only [Ev.index] at hr hs hinv hids
      simp only [Conn.stepReq] at hs
      split at hs
      · rename_i d id hw hid
        have hrep := hinv.wr (by rw [hw]; simp)
        have hcnt := hinv.c0 (Or.inr (by rw [hw]; simp))
        have hnf : r.phase ≠ .finished := by
          intro hc
          have := (hinv.fin hc).2
          rw [hw] at this
          cases this
        have hr' : ∀ n, n ≤ 1 → RInv { r with writing := none } n := fun n hn =>
          ⟨hinv.rel, hinv.que, by simp, hinv.nid, by simp [hrep], hn, hinv.ret, fun hc => absurd hc hnf⟩
        have hset := h.set hr (hr' _ (by omega)) rfl Iff.rfl (fun h => h)
        simp only [Option.some.injEq] at hs
        subst hs
        split
        · -- the reply is sent
          have hlt : i < c.reqs.length := by
            by_contra hc'
            rw [List.getElem?_eq_none (by omega)] at hr
            cases hr
          have hother : ∀ (c' : Conn) j, c'.sent = c.sent ++ [(i, id)] → j ≠ i → c'.replies j = c.replies j := by
            intro c' j hc' hj
            have hj' : ¬ i = j := fun hh => hj hh.symm
            simp only [Conn.replies, hc', List.filter_append, List.map_append]
            simp [hj']
          have hself : ∀ (c' : Conn), c'.sent = c.sent ++ [(i, id)] → c'.replies i = c.replies i ++ [id] := by
            intro c' hc'
            simp only [Conn.replies, hc', List.filter_append, List.map_append]
            simp
          refine ⟨h.ok, ?_, ?_, hset.order⟩
          · intro j q hq
            by_cases hj : j = i
            · subst hj
              have hq2 : q = { r with writing := none } := by
                have : (c.reqs.set j { r with writing := none })[j]? = some { r with writing := none } := by
                  rw [List.getElem?_set]; simp [hlt]
                simp only at hq
                rw [this] at hq
                simpa using hq.symm
              rw [hself _ rfl]
              have hnil : c.replies j = [] := List.length_eq_zero_iff.mp hcnt
              rw [hnil, hq2]
              refine ⟨hr' _ (by simp), fun id' hm => ?_⟩
              simp only [List.nil_append, List.mem_singleton] at hm
              rw [hm]
              exact hid
            · rw [hother _ j rfl hj]
              exact hset.each j q hq
          · intro j hq
            by_cases hj : j = i
            · subst hj
              simp only [List.getElem?_eq_none_iff, List.length_set] at hq
              omega
            · rw [hother _ j rfl hj]
              exact hset.empty j hq
        · exact hset
      · cases hs
    | ret i =>
      simp only [Ev.index] at hr hs hinv hids
      simp only [Conn.stepReq] at hs
      split at hs
      · rename_i hc
        obtain ⟨hrun, hw⟩ := hc
        simp only [Option.some.injEq] at hs
        subst hs
        have hns : r.state ≠ .waiting := fun hh => by
          have := hinv.que.mpr hh
          rw [hrun] at this
          cases this
        split
        · rename_i hcond
          -- the deferred function replies
          have hne : r.state ≠ .replied := fun hh => by
            have := hcond.2
            rw [hh] at this
            simp at this
          have hcnt := hinv.c0 (Or.inl hne)
          unfold Req.toReplied
          simp only
          rw [if_neg (by omega), if_neg hcond.1]
          have hpar : ∃ r', Req.toParallel { r with phase := .returning } = some r' ∧ r'.id = r.id ∧
              r'.phase = .returning ∧ r'.released = true := by
            unfold Req.toParallel
            simp only
            by_cases hp : RState.parallel.rank ≤ r.state.rank
            · rw [if_pos hp]
              exact ⟨_, rfl, rfl, rfl, hinv.rel.mpr hp⟩
            · rw [if_neg hp]
              have : r.released = false := by
                cases hb : r.released with
                | false => rfl
                | true => exact absurd (hinv.rel.mp hb) hp
              rw [this]
              exact ⟨_, rfl, rfl, rfl, rfl⟩
          obtain ⟨r', h1, h2, h3, h4⟩ := hpar
          rw [h1]
          simp only [Conn.put]
          refine h.set hr ?_ h2 (by simp [h3, hrun]) (fun _ => h4)
          exact ⟨by simp [RState.rank, h4], by simp [h3], fun _ => rfl, fun _ => by simpa [h2] using hcond.1,
            fun _ => hcnt, by omega, fun _ _ => rfl, by simp [h3]⟩
        · rename_i hcond
          simp only [Conn.put]
          refine h.set hr ?_ rfl (by simp [hrun]) id
          refine ⟨hinv.rel, by simp [hns], hinv.wr, hinv.nid, hinv.c0, hinv.c1, fun _ hid => ?_, by simp⟩
          simp only [not_and, Nat.not_lt] at hcond
          have := hcond hid
          show r.state = .replied
          cases hst : r.state <;> rw [hst] at this <;> simp [RState.rank] at this
      · cases hs
    | finish i =>
      simp only [Ev.index] at hr hs hinv hids
      simp only [Conn.stepReq] at hs
      split at hs
      · rename_i hc
        obtain ⟨hret, hw⟩ := hc
        obtain ⟨r', h1, h2, h3, h4, h5, h6, -, -, -⟩ := toParallel_inv hinv (by rw [hret]; simp)
        rw [h1] at hs
        simp only [Conn.put, Option.map_some, Option.some.injEq] at hs
        subst hs
        refine h.set hr ?_ h3 (by simp [hret]) (fun _ => h5)
        have hq : r'.state ≠ .waiting := fun hh => by
          have := h2.que.mpr hh
          rw [h4, hret] at this
          cases this
        exact ⟨h2.rel, by simp [hq], h2.wr, h2.nid, h2.c0, h2.c1,
          fun _ hid => h2.ret (Or.inl (by rw [h4, hret])) hid, fun _ => ⟨h5, by rw [← hw]; exact h6⟩⟩
      · cases hs
    | cancel i =>
      simp only [Ev.index] at hr hs hinv hids
      simp only [Conn.stepReq, Option.some.injEq] at hs
      subst hs
      refine h.set hr ?_ rfl Iff.rfl id
      exact ⟨hinv.rel, hinv.que, hinv.wr, hinv.nid, hinv.c0, hinv.c1, hinv.ret, hinv.fin⟩

theorem CInv.run {c c' : Conn} (h : CInv c) (es : List Ev) (hs : c.run es = some c') : CInv c' := by
  induction es generalizing c with
  | nil => simp only [Conn.run, Option.some.injEq] at hs; subst hs; exact h
  | cons e es ih =>
    simp only [Conn.run] at hs
    split at hs
    · cases hs
    · rename_i c1 hc1
      exact ih (h.step e hc1) hs

theorem cinv_of_run {c : Conn} (es : List Ev) (hs : Conn.init.run es = some c) : CInv c := cinv_init.run es hs

/-! ### one request -/

/-- The step of one request alone: the request afterwards and whether its reply was put on the stream. -/
def Req.next (r : Req) : Ev → Option (Req × Bool)
  | .start _ => if r.phase = .queued then some ({ r with state := .serial, phase := .running }, false) else none
  | .parallel _ => if r.phase = .running ∧ r.writing = none then r.toParallel.map (·, false) else none
  | .reply _ d => if r.phase = .running ∧ r.writing = none then (r.toReplied d).map (·, false) else none
  | .write _ => match r.writing, r.id with
    | some d, some _ => some ({ r with writing := none }, d || !r.cancelled)
    | _, _ => none
  | .ret _ =>
    if r.phase = .running ∧ r.writing = none then
      (if r.id ≠ none ∧ r.state.rank < RState.replied.rank then Req.toReplied { r with phase := .returning } false
        else some { r with phase := .returning }).map (·, false)
    else none
  | .finish _ =>
    if r.phase = .returning ∧ r.writing = none then
      r.toParallel.map fun r => ({ r with phase := .finished, cancelled := true }, false)
    else none
  | .cancel _ => some ({ r with cancelled := true }, false)
  | .receive _ => none

/-- An event is a step of one request; all others stay as they are. -/
theorem step_local {c c' : Conn} (h : CInv c) (e : Ev) (hs : c.step e = some c') (hrec : ∀ id, e ≠ .receive id) :
    ∃ r r' s, c.reqs[e.index]? = some r ∧ r.next e = some (r', s) ∧ c'.reqs = c.reqs.set e.index r' ∧
      c'.replies e.index = c.replies e.index ++ (if s then r.id.toList else []) ∧
      ∀ j, j ≠ e.index → c'.replies j = c.replies j := by
  have h' := h.step e hs
  unfold Conn.step at hs
  rw [if_neg (by simp [h.ok])] at hs
  have hs2 : ∃ r, c.reqs[e.index]? = some r ∧ c.stepReq e.index r e = some c' := by
    cases e with
    | receive id => exact absurd rfl (hrec id)
    | _ =>
      simp only at hs
      split at hs
      · cases hs
      · rename_i r hr
        exact ⟨r, hr, hs⟩
  clear hs
  obtain ⟨r, hr, hs⟩ := hs2
  -- `put` never meets a panic
  have hput : ∀ o, c.put e.index o = c' → ∃ r', o = some r' ∧ c' = { c with reqs := c.reqs.set e.index r' } := by
    intro o ho
    cases o with
    | none =>
      have := h'.ok
      rw [← ho] at this
      cases this
    | some r' => exact ⟨r', rfl, ho.symm⟩
  cases e with
  | receive id => exact absurd rfl (hrec id)
  | start i =>
    simp only [Conn.stepReq] at hs
    split at hs
    · rename_i hc
      simp only [Option.some.injEq] at hs
      subst hs
      exact ⟨r, _, false, hr, by simp only [Req.next, if_pos hc.1], rfl, by simp [Conn.replies], fun j _ => rfl⟩
    · cases hs
  | parallel i =>
    simp only [Conn.stepReq] at hs
    split at hs
    · rename_i hc
      simp only [Option.some.injEq] at hs
      obtain ⟨r', h1, rfl⟩ := hput _ hs
      exact ⟨r, r', false, hr, by simp only [Req.next, if_pos hc, h1, Option.map_some], rfl, by simp [Conn.replies],
        fun j _ => rfl⟩
    · cases hs
  | reply i d =>
    simp only [Conn.stepReq] at hs
    split at hs
    · rename_i hc
      simp only [Option.some.injEq] at hs
      obtain ⟨r', h1, rfl⟩ := hput _ hs
      exact ⟨r, r', false, hr, by simp only [Req.next, if_pos hc, h1, Option.map_some], rfl, by simp [Conn.replies],
        fun j _ => rfl⟩
    · cases hs
  | write i =>
    simp only [Conn.stepReq] at hs
    split at hs
    · rename_i d id hw hid
      simp only [Option.some.injEq] at hs
      subst hs
      refine ⟨r, { r with writing := none }, d || !r.cancelled, hr, by simp only [Req.next, hw, hid], ?_, ?_, ?_⟩
      · split <;> rfl
      · split
        · simp only [Conn.replies, List.filter_append, List.map_append, Ev.index, hid]
          simp
        · simp [Conn.replies]
      · intro j hj
        have hj' : ¬ i = j := fun hh => hj hh.symm
        split
        · simp only [Conn.replies, List.filter_append, List.map_append, Ev.index]
          simp [hj']
        · simp [Conn.replies]
    · cases hs
  | ret i =>
    simp only [Conn.stepReq] at hs
    split at hs
    · rename_i hc
      simp only [Option.some.injEq] at hs
      obtain ⟨r', h1, rfl⟩ := hput _ hs
      exact ⟨r, r', false, hr, by simp only [Req.next, if_pos hc, h1, Option.map_some], rfl, by simp [Conn.replies],
        fun j _ => rfl⟩
    · cases hs
  | finish i =>
    simp only [Conn.stepReq] at hs
    split at hs
    · rename_i hc
      simp only [Option.some.injEq] at hs
      obtain ⟨r', h1, rfl⟩ := hput _ hs
      obtain ⟨q, hq, rfl⟩ := Option.map_eq_some_iff.mp h1
      exact ⟨r, _, false, hr, by simp only [Req.next, if_pos hc, hq, Option.map_some], rfl, by simp [Conn.replies],
        fun j _ => rfl⟩
    · cases hs
  | cancel i =>
    simp only [Conn.stepReq, Option.some.injEq] at hs
    subst hs
    exact ⟨r, _, false, hr, rfl, rfl, by simp [Conn.replies], fun j _ => rfl⟩

/-- What a step does to request `i` and its replies. -/
theorem step_at {c c' : Conn} (h : CInv c) (e : Ev) (hs : c.step e = some c') (i : Nat) (r : Req)
    (hr : c.reqs[i]? = some r) :
    (c'.reqs[i]? = some r ∧ c'.replies i = c.replies i ∧ ((∃ id, e = .receive id) ∨ e.index ≠ i)) ∨
    ∃ r' s, e.index = i ∧ r.next e = some (r', s) ∧ c'.reqs[i]? = some r' ∧
      c'.replies i = c.replies i ++ (if s then r.id.toList else []) := by
  have hlt : i < c.reqs.length := by
    by_contra hc'
    rw [List.getElem?_eq_none (by omega)] at hr
    cases hr
  by_cases hrec : ∃ id, e = .receive id
  · left
    obtain ⟨id, rfl⟩ := hrec
    unfold Conn.step at hs
    rw [if_neg (by simp [h.ok])] at hs
    simp only [Option.some.injEq] at hs
    subst hs
    refine ⟨?_, rfl, Or.inl ⟨id, rfl⟩⟩
    simp only
    rw [List.getElem?_append_left hlt]
    exact hr
  · obtain ⟨q, q', s, h1, h2, h3, h4, h5⟩ := step_local h e hs (fun id hid => hrec ⟨id, hid⟩)
    by_cases hi : e.index = i
    · right
      subst hi
      rw [hr] at h1
      simp only [Option.some.injEq] at h1
      subst h1
      refine ⟨q', s, rfl, h2, ?_, h4⟩
      rw [h3, List.getElem?_set]
      simp [hlt]
    · left
      refine ⟨?_, h5 i (fun hh => hi hh.symm), Or.inr hi⟩
      rw [h3, List.getElem?_set]
      simp [hi, hr]

/-- The ids of the messages that arrived. -/
def received (es : List Ev) : List (Option ID) := es.filterMap fun | .receive id => some id | _ => none

theorem next_id {r r' : Req} {e : Ev} {s : Bool} (h : r.next e = some (r', s)) : r'.id = r.id := by
  have hpar : ∀ (q q' : Req), q.toParallel = some q' → q'.id = q.id := by
    intro q q' hq
    unfold Req.toParallel at hq
    split at hq
    · simp only [Option.some.injEq] at hq; subst hq; rfl
    · split at hq
      · cases hq
      · simp only [Option.some.injEq] at hq; subst hq; rfl
  have hrep : ∀ (q q' : Req) d, q.toReplied d = some q' → q'.id = q.id := by
    intro q q' d hq
    unfold Req.toReplied at hq
    split at hq
    · simp only [Option.some.injEq] at hq; subst hq; rfl
    · split at hq
      · simp only [Option.some.injEq] at hq; subst hq; rfl
      · split at hq
        · cases hq
        · rename_i q1 hq1
          simp only [Option.some.injEq] at hq; subst hq; have := hpar _ _ hq1; exact this
  cases e with
  | receive id => cases h
  | start i =>
    simp only [Req.next] at h
    split at h
    · simp only [Option.some.injEq, Prod.mk.injEq] at h; rw [← h.1]
    · cases h
  | parallel i =>
    simp only [Req.next] at h
    split at h
    · obtain ⟨q, hq, h2⟩ := Option.map_eq_some_iff.mp h
      simp only [Prod.mk.injEq] at h2; rw [← h2.1]; exact hpar _ _ hq
    · cases h
  | reply i d =>
    simp only [Req.next] at h
    split at h
    · obtain ⟨q, hq, h2⟩ := Option.map_eq_some_iff.mp h
      simp only [Prod.mk.injEq] at h2; rw [← h2.1]; exact hrep _ _ _ hq
    · cases h
  | write i =>
    simp only [Req.next] at h
    split at h
    · simp only [Option.some.injEq, Prod.mk.injEq] at h; rw [← h.1]
    · cases h
  | ret i =>
    simp only [Req.next] at h
    split at h
    · obtain ⟨q, hq, h2⟩ := Option.map_eq_some_iff.mp h
      simp only [Prod.mk.injEq] at h2
      rw [← h2.1]
      split at hq
      · have := hrep _ _ _ hq; exact this
      · simp only [Option.some.injEq] at hq; rw [← hq]
    · cases h
  | finish i =>
    simp only [Req.next] at h
    split at h
    · obtain ⟨q, hq, h2⟩ := Option.map_eq_some_iff.mp h
      simp only [Prod.mk.injEq] at h2; rw [← h2.1]; have := hpar _ _ hq; exact this
    · cases h
  | cancel i =>
    simp only [Req.next, Option.some.injEq, Prod.mk.injEq] at h; rw [← h.1]

theorem run_cons {c c' : Conn} {e : Ev} {es : List Ev} (h : c.run (e :: es) = some c') :
    ∃ c1, c.step e = some c1 ∧ c1.run es = some c' := by
  simp only [Conn.run] at h
  split at h
  · cases h
  · rename_i c1 h1
    exact ⟨c1, h1, h⟩

/-- The request objects are those of the messages that arrived, in their order. -/
theorem ids_run {c c' : Conn} (h : CInv c) (es : List Ev) (hr : c.run es = some c') :
    c'.reqs.map (·.id) = c.reqs.map (·.id) ++ received es := by
  induction es generalizing c with
  | nil => simp only [Conn.run, Option.some.injEq] at hr; subst hr; simp [received]
  | cons e es ih =>
    obtain ⟨c1, h1, h2⟩ := run_cons hr
    rw [ih (h.step e h1) h2]
    by_cases hrec : ∃ id, e = .receive id
    · obtain ⟨id, rfl⟩ := hrec
      unfold Conn.step at h1
      rw [if_neg (by simp [h.ok])] at h1
      simp only [Option.some.injEq] at h1
      subst h1
      simp [received]
    · have hne : received (e :: es) = received es := by
        cases e with
        | receive id => exact absurd ⟨id, rfl⟩ hrec
        | _ => rfl
      obtain ⟨q, q', s, g1, g2, g3, -, -⟩ := step_local h e h1 (fun id hid => hrec ⟨id, hid⟩)
      rw [hne, g3, List.map_set, next_id g2]
      congr 1
      apply List.ext_getElem?
      intro j
      rw [List.getElem?_set]
      split
      · rename_i hj
        subst hj
        split
        · simp [g1]
        · rename_i hl
          rw [List.getElem?_eq_none (by omega)]
      · rfl

end Verif.Rpc
