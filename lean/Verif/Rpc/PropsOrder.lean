import Verif.Rpc.PropsRequests

/-! C36: requests start in the order of their arrival, and none is left behind. -/

namespace Verif.Rpc

/-- The messages whose handlers were started, in the order of the starts. -/
def starts (es : List Ev) : List Nat := es.filterMap fun | .start i => some i | _ => none

theorem started_run {c c' : Conn} (h : CInv c) (es : List Ev) (hr : c.run es = some c') :
    c'.started = c.started ++ starts es := by
  induction es generalizing c with
  | nil => simp only [Conn.run, Option.some.injEq] at hr; subst hr; simp [starts]
  | cons e es ih =>
    obtain ⟨c1, h1, h2⟩ := run_cons hr
    rw [ih (h.step e h1) h2]
    have hput : ∀ (o : Option Req) i, (c.put i o).started = c.started := by
      intro o i; cases o <;> rfl
    unfold Conn.step at h1
    rw [if_neg (by simp [h.ok])] at h1
    cases e with
    | receive id =>
      simp only [Option.some.injEq] at h1
      subst h1
      rfl
    | _ =>
      simp only at h1
      split at h1
      · cases h1
      · simp only [Conn.stepReq] at h1
        try split at h1
        all_goals first
          | (cases h1; done)
          | (simp only [Option.some.injEq] at h1
             subst h1
             first
               | (rw [hput]; rfl)
               | (split <;> rfl)
               | (simp [starts, Ev.index])
               | rfl)

/-- C36: handlers start in the order in which the messages arrived, none is skipped and none is started twice. -/
theorem C36_order (es : List Ev) (c : Conn) (h : Conn.init.run es = some c) :
    ∃ k, starts es = List.range k ∧ k ≤ (received es).length := by
  obtain ⟨k, hk, hle, -⟩ := (cinv_of_run es h).order
  have h1 := started_run cinv_init es h
  have h2 := ids_run cinv_init es h
  simp only [Conn.init, List.nil_append, List.map_nil] at h1 h2
  exact ⟨k, by rw [← h1, hk], by rw [← h2]; simpa using hle⟩

/-- The handler of message `i` (a notification if `id` is `none`) has declared itself parallel, has replied, or has
ended. -/
def LetsGo (es : List Ev) (i : Nat) (id : Option ID) : Prop :=
  Ev.parallel i ∈ es ∨ (id ≠ none ∧ ∃ d, Ev.reply i d ∈ es) ∨ (id ≠ none ∧ Ev.ret i ∈ es) ∨ Ev.finish i ∈ es

theorem LetsGo.mono {es es' : List Ev} {i : Nat} {id : Option ID} (h : LetsGo es i id) (hs : ∀ e ∈ es, e ∈ es') :
    LetsGo es' i id := by
  rcases h with h | ⟨h, d, h'⟩ | ⟨h, h'⟩ | h
  · exact Or.inl (hs _ h)
  · exact Or.inr (Or.inl ⟨h, d, hs _ h'⟩)
  · exact Or.inr (Or.inr (Or.inl ⟨h, hs _ h'⟩))
  · exact Or.inr (Or.inr (Or.inr (hs _ h)))

theorem released_cause {c : Conn} (es : List Ev) (h : Conn.init.run es = some c) (i : Nat) (r : Req)
    (hr : c.reqs[i]? = some r) (hrel : r.released = true) : LetsGo es i r.id := by
  refine run_from_start (fun r _ => r.released = true → LetsGo es i r.id) i (fun e => e ∈ es) (by simp) ?_ cinv_init
    (by simp [Conn.init]) es (fun _ he => he) h r hr hrel
  intro c c' e r r' hinv hok hs hr hr' hp
  rcases step_at hinv e hs i r hr with hst | ⟨r2, s, hi, hn, hst, -⟩
  · rw [hst.1] at hr'; simp only [Option.some.injEq] at hr'; subst hr'; exact hp
  · rw [hst] at hr'
    simp only [Option.some.injEq] at hr'
    subst hr'
    intro hrel
    obtain ⟨-, -, -, -, -, -, -, f8, -⟩ := next_facts (hinv.each i r hr).1 hn
    rw [next_id hn]
    rw [hi] at f8
    rcases f8 hrel with g | g | ⟨g1, d, g2⟩ | ⟨g1, g2⟩ | g
    · exact hp g
    · exact Or.inl (g ▸ hok)
    · exact Or.inr (Or.inl ⟨g1, d, g2 ▸ hok⟩)
    · exact Or.inr (Or.inr (Or.inl ⟨g1, g2 ▸ hok⟩))
    · exact Or.inr (Or.inr (Or.inr (g ▸ hok)))

/-- C36: when the handler of a message starts, the handler of every earlier message has declared itself parallel, has
replied or has ended. -/
theorem C36_waits (es1 es2 : List Ev) (c : Conn) (j : Nat) (h : Conn.init.run (es1 ++ .start j :: es2) = some c)
    (i : Nat) (hij : i < j) : ∃ id, (received es1)[i]? = some id ∧ LetsGo es1 i id := by
  obtain ⟨c1, h1, h2⟩ := run_append _ _ h
  obtain ⟨c2, h3, -⟩ := run_cons h2
  have hc1 := cinv_of_run es1 h1
  have hc2 := hc1.step _ h3
  have hst := started_run hc1 [.start j] (c' := c2) (by simp only [Conn.run, h3])
  have hst0 := started_run cinv_init es1 h1
  obtain ⟨k, hk, hle, ho⟩ := hc1.order
  obtain ⟨k2, hk2, hle2, ho2⟩ := hc2.order
  -- `j` is the next message
  have hkj : k = j ∧ k2 = j + 1 := by
    have e : List.range k2 = List.range k ++ [j] := by
      rw [← hk2, hst, hk]; rfl
    have hlen := congrArg List.length e
    simp only [List.length_range, List.length_append, List.length_singleton] at hlen
    subst hlen
    rw [List.range_succ] at e
    have := List.append_cancel_left e
    simp only [List.cons.injEq, and_true] at this
    exact ⟨this, by omega⟩
  obtain ⟨rfl, rfl⟩ := hkj
  have hlt : i < c1.reqs.length := by omega
  obtain ⟨r, hr⟩ : ∃ r, c1.reqs[i]? = some r := ⟨_, List.getElem?_eq_getElem hlt⟩
  have hids := ids_run cinv_init es1 h1
  simp only [Conn.init, List.map_nil, List.nil_append] at hids
  refine ⟨r.id, by rw [← hids, List.getElem?_map, hr]; rfl, ?_⟩
  -- after the start of `j` all earlier requests are released; the start of `j` does not touch them
  have hr2 : c2.reqs[i]? = some r := by
    rcases step_at hc1 _ h3 i r hr with hs | ⟨-, -, hi, -⟩
    · exact hs.1
    · simp only [Ev.index] at hi; omega
  exact released_cause es1 h1 i r hr ((ho2 i r hr2).2 (by omega))

/-- C36: at any time at most one handler is running that has not declared itself parallel. -/
theorem C36_one_at_a_time (es : List Ev) (c : Conn) (h : Conn.init.run es = some c) (i j : Nat) (r q : Req)
    (hr : c.reqs[i]? = some r) (hq : c.reqs[j]? = some q) (hri : r.phase ≠ .queued ∧ r.released = false)
    (hqj : q.phase ≠ .queued ∧ q.released = false) : i = j := by
  obtain ⟨k, -, hle, ho⟩ := (cinv_of_run es h).order
  obtain ⟨a1, a2⟩ := ho i r hr
  obtain ⟨b1, b2⟩ := ho j q hq
  have h1 := a1.mp hri.1
  have h2 := b1.mp hqj.1
  have h3 : ¬ i + 1 < k := fun hh => by have := a2 hh; rw [hri.2] at this; cases this
  have h4 : ¬ j + 1 < k := fun hh => by have := b2 hh; rw [hqj.2] at this; cases this
  omega

/-- C36: a message whose predecessor has ended, has replied or is parallel can be started, and this stays so until it
is started. -/
theorem C36_enabled (es : List Ev) (c : Conn) (h : Conn.init.run es = some c) (j : Nat) (r : Req)
    (hr : c.reqs[j]? = some r) (hq : r.phase = .queued)
    (hprev : ∀ i, i + 1 = j → ∃ q, c.reqs[i]? = some q ∧ (q.phase = .finished ∨ q.released = true))
    (es' : List Ev) (c' : Conn) (h' : c.run es' = some c') (hns : Ev.start j ∉ es') :
    (c'.step (.start j)).isSome = true := by
  have hc := cinv_of_run es h
  have hc' := hc.run es' h'
  obtain ⟨r', hr', hq'⟩ := run_keeps (fun r _ => r.phase = .queued) j (fun e => e ≠ .start j)
    (by
      intro c c' e r r' hinv hok hs hr hr' hp
      rcases step_at hinv e hs j r hr with hst | ⟨r2, s, hi, hn, hst, -⟩
      · rw [hst.1] at hr'; simp only [Option.some.injEq] at hr'; subst hr'; exact hp
      · rw [hst] at hr'
        simp only [Option.some.injEq] at hr'
        subst hr'
        have hw : r.writing = none := by
          by_contra hcon
          have h1 := (hinv.each j r hr).1.wr hcon
          have h2 := (hinv.each j r hr).1.que.mp hp
          rw [h1] at h2; cases h2
        cases e with
        | start i => simp only [Ev.index] at hi; subst hi; exact absurd rfl hok
        | cancel i => simp only [Req.next, Option.some.injEq, Prod.mk.injEq] at hn; rw [← hn.1]; exact hp
        | receive id => cases hn
        | write i => simp only [Req.next, hw] at hn; cases hn
        | _ => simp only [Req.next, hp] at hn; simp at hn)
    hc es' (fun e he hh => hns (hh ▸ he)) h' r hr hq
  have hprev' : j = 0 ∨ (c'.reqs[j - 1]?.map (·.released)) = some true := by
    cases j with
    | zero => exact Or.inl rfl
    | succ i =>
      right
      obtain ⟨q, hq1, hq2⟩ := hprev i rfl
      have hrel : q.released = true := hq2.elim (fun hf => ((hc.each i q hq1).1.fin hf).1) id
      obtain ⟨q', h1, h2⟩ := run_keeps (fun r _ => r.released = true) i (fun _ => True)
        (by
          intro c c' e r r' hinv hok hs hr hr' hp
          rcases step_at hinv e hs i r hr with hst | ⟨r2, s, hi, hn, hst, -⟩
          · rw [hst.1] at hr'; simp only [Option.some.injEq] at hr'; subst hr'; exact hp
          · rw [hst] at hr'
            simp only [Option.some.injEq] at hr'
            subst hr'
            exact (next_facts (hinv.each i r hr).1 hn).1 hp)
        hc es' (fun _ _ => trivial) h' q hq1 hrel
      simp only [Nat.add_sub_cancel, h1, Option.map_some, h2]
  have hstep : c'.step (.start j) = c'.stepReq j r' (.start j) := by
    unfold Conn.step
    rw [if_neg (by simp [hc'.ok])]
    simp only [Ev.index, hr']
  rw [hstep]
  simp only [Conn.stepReq]
  rw [if_pos ⟨hq', hprev'⟩]
  rfl

/-- The steps the program takes by itself: a goroutine starts, sends its reply, comes back from the handlers, ends. -/
def Ev.own : Ev → Bool
  | .start _ | .write _ | .ret _ | .finish _ => true
  | _ => false

/-- C36: as long as a message is not finished, some goroutine can go on: no schedule leads to a deadlock. -/
theorem C36_no_deadlock (es : List Ev) (c : Conn) (h : Conn.init.run es = some c) (i : Nat) (r : Req)
    (hr : c.reqs[i]? = some r) (hf : r.phase ≠ .finished) : ∃ e, e.own = true ∧ (c.step e).isSome = true := by
  have hc := cinv_of_run es h
  -- the first message that is not finished
  have hfirst : ∃ (j : Nat) (q : Req), c.reqs[j]? = some q ∧ q.phase ≠ .finished ∧
      ∀ k < j, ∀ p : Req, c.reqs[k]? = some p → p.phase = .finished := by
    induction i using Nat.strongRecOn generalizing r with
    | ind i ih =>
      by_cases hex : ∃ k < i, ∃ p, c.reqs[k]? = some p ∧ p.phase ≠ .finished
      · obtain ⟨k, hk, p, hp, hpf⟩ := hex
        exact ih k hk p hp hpf
      · refine ⟨i, r, hr, hf, fun k hk p hp => ?_⟩
        by_contra hcon
        exact hex ⟨k, hk, p, hp, hcon⟩
  obtain ⟨j, q, hq, hqf, hall⟩ := hfirst
  have hqi := (hc.each j q hq).1
  have hstep : ∀ e : Ev, e.index = j → (∀ id, e ≠ .receive id) → c.step e = c.stepReq j q e := by
    intro e he hrec
    unfold Conn.step
    rw [if_neg (by simp [hc.ok])]
    cases e with
    | receive id => exact absurd rfl (hrec id)
    | _ => simp only [Ev.index] at he; subst he; simp only [Ev.index, hq]
  cases hw : q.writing with
  | some d =>
    have hid := hqi.nid (hqi.wr (by rw [hw]; simp))
    cases hid' : q.id with
    | none => exact absurd hid' hid
    | some id => exact ⟨.write j, rfl, by rw [hstep _ rfl (by simp)]; simp only [Conn.stepReq, hw, hid']; rfl⟩
  | none =>
    cases hph : q.phase with
    | finished => exact absurd hph hqf
    | returning =>
      exact ⟨.finish j, rfl, by rw [hstep _ rfl (by simp)]; simp only [Conn.stepReq, hph, hw, and_self, if_true]; rfl⟩
    | running =>
      exact ⟨.ret j, rfl, by rw [hstep _ rfl (by simp)]; simp only [Conn.stepReq, hph, hw, and_self, if_true]; rfl⟩
    | queued =>
      refine ⟨.start j, rfl, ?_⟩
      rw [hstep _ rfl (by simp)]
      simp only [Conn.stepReq, hph, true_and]
      rw [if_pos]
      · rfl
      · cases j with
        | zero => exact Or.inl rfl
        | succ k =>
          right
          have hlt : k < c.reqs.length := by
            by_contra hcon
            rw [List.getElem?_eq_none (by omega)] at hq
            cases hq
          have hp : c.reqs[k]? = some c.reqs[k] := List.getElem?_eq_getElem hlt
          have := hall k (by omega) _ hp
          simp only [Nat.add_sub_cancel, hp, Option.map_some, ((hc.each k _ hp).1.fin this).1]

/-- What a message still has to do. -/
def Req.left (r : Req) : Nat :=
  (match r.phase with | .queued => 6 | .running => 4 | .returning => 2 | .finished => 0) +
    (if r.writing = none then 0 else 1)

theorem next_left {r r' : Req} {e : Ev} {s : Bool} {n : Nat} (h : RInv r n) (hn : r.next e = some (r', s))
    (ho : e.own = true) : r'.left < r.left := by
  cases e with
  | receive id => cases ho
  | parallel i => cases ho
  | reply i d => cases ho
  | cancel i => cases ho
  | start i =>
    simp only [Req.next] at hn
    split at hn
    · rename_i hq
      simp only [Option.some.injEq, Prod.mk.injEq] at hn
      rw [← hn.1]
      simp only [Req.left, hq]
      omega
    · cases hn
  | write i =>
    simp only [Req.next] at hn
    split at hn
    · rename_i d id hw hid
      simp only [Option.some.injEq, Prod.mk.injEq] at hn
      rw [← hn.1]
      simp only [Req.left, hw]
      simp
    · cases hn
  | ret i =>
    simp only [Req.next] at hn
    split at hn
    · rename_i hc
      obtain ⟨q, hq, h2⟩ := Option.map_eq_some_iff.mp hn
      simp only [Prod.mk.injEq] at h2
      obtain ⟨rfl, -⟩ := h2
      have hph : q.phase = .returning := by
        split at hq
        · rename_i hcond
          unfold Req.toReplied at hq
          simp only at hq
          rw [if_neg (by omega), if_neg hcond.1] at hq
          split at hq
          · cases hq
          · rename_i q1 hq1
            simp only [Option.some.injEq] at hq
            subst hq
            unfold Req.toParallel at hq1
            split at hq1
            · simp only [Option.some.injEq] at hq1; subst hq1; rfl
            · split at hq1
              · cases hq1
              · simp only [Option.some.injEq] at hq1; subst hq1; rfl
        · simp only [Option.some.injEq] at hq; subst hq; rfl
      simp only [Req.left, hph, hc.1, hc.2, if_true]
      split <;> omega
    · cases hn
  | finish i =>
    simp only [Req.next] at hn
    split at hn
    · rename_i hc
      obtain ⟨q, hq, h2⟩ := Option.map_eq_some_iff.mp hn
      simp only [Prod.mk.injEq] at h2
      obtain ⟨rfl, -⟩ := h2
      obtain ⟨r', g1, -, -, -, -, g6, -⟩ := toParallel_inv h (by rw [hc.1]; simp)
      rw [hq] at g1
      simp only [Option.some.injEq] at g1
      subst g1
      simp only [Req.left, hc.1, hc.2, g6, if_true]
      omega
    · cases hn

theorem sum_set (l : List Req) (i : Nat) (r r' : Req) (h : l[i]? = some r) (hlt : r'.left < r.left) :
    ((l.set i r').map Req.left).sum < (l.map Req.left).sum := by
  induction l generalizing i with
  | nil => simp at h
  | cons x l ih =>
    cases i with
    | zero =>
      simp only [List.getElem?_cons_zero, Option.some.injEq] at h
      subst h
      simp only [List.set_cons_zero, List.map_cons, List.sum_cons]
      omega
    | succ i =>
      simp only [List.getElem?_cons_succ] at h
      have := ih i h
      simp only [List.set_cons_succ, List.map_cons, List.sum_cons]
      omega

/-- C36: the program does not go round in circles: without new messages and new actions of the handlers it takes at
most seven steps for each message it has received, then (`C36_no_deadlock`) all of them are finished. -/
theorem C36_bounded (es : List Ev) (c : Conn) (h : Conn.init.run es = some c) (es' : List Ev) (c' : Conn)
    (h' : c.run es' = some c') (ho : ∀ e ∈ es', e.own = true) : es'.length ≤ 7 * (received es).length := by
  have hc := cinv_of_run es h
  have hlen := congrArg List.length (ids_run cinv_init es h)
  simp only [Conn.init, List.map_nil, List.nil_append, List.length_map] at hlen
  have key : ∀ (es' : List Ev) (c : Conn), CInv c → c.run es' = some c' → (∀ e ∈ es', e.own = true) →
      es'.length ≤ (c.reqs.map Req.left).sum := by
    intro es'
    induction es' with
    | nil => intros; exact Nat.zero_le _
    | cons e es' ih =>
      intro c hc hr ho
      obtain ⟨c1, h1, h2⟩ := run_cons hr
      have he := ho e (by simp)
      obtain ⟨q, q', s, g1, g2, g3, -, -⟩ := step_local hc e h1 (by rintro id rfl; cases he)
      have := ih c1 (hc.step e h1) h2 (fun x hx => ho x (List.mem_cons_of_mem _ hx))
      have hlt := sum_set c.reqs e.index q q' g1 (next_left (hc.each _ q g1).1 g2 he)
      rw [← g3] at hlt
      simp only [List.length_cons]
      omega
  have hb : ∀ l : List Req, (l.map Req.left).sum ≤ 7 * l.length := by
    intro l
    induction l with
    | nil => simp
    | cons x l ih =>
      have : x.left ≤ 7 := by
        cases hph : x.phase <;> simp only [Req.left, hph] <;> split <;> omega
      simp only [List.map_cons, List.sum_cons, List.length_cons]
      omega
  have h1 := key es' c hc h' ho
  have h2 := hb c.reqs
  omega

-- a state in which one message is parallel, one is running and one waits
example : ∃ es c, Conn.init.run es = some c ∧ starts es = [0, 1] ∧ received es = [some ⟨[], 1⟩, none, none] ∧
    c.step (.start 2) = none ∧ (c.reqs.map (·.phase)) = [.running, .running, .queued] :=
  ⟨[.receive (some ⟨[], 1⟩), .start 0, .receive none, .receive none, .parallel 0, .start 1],
    ⟨[⟨some ⟨[], 1⟩, .parallel, .running, true, false, none⟩, ⟨none, .serial, .running, false, false, none⟩,
      ⟨none, .waiting, .queued, false, false, none⟩], [], [0, 1], false⟩,
    by decide +kernel, by decide +kernel, by decide +kernel, by decide +kernel, by decide +kernel⟩

end Verif.Rpc
