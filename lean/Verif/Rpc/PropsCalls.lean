import Verif.Rpc.CallLemmas
import Mathlib.Data.List.Nodup
import Mathlib.Data.List.Induction

/-! C37: responses reach the calls that wait for them. -/

namespace Verif.Rpc

theorem bmod_inj {a b : Int} {n : Nat} (h : Int.bmod a n = Int.bmod b n) : a % (n : Int) = b % (n : Int) := by
  rw [← Int.bmod_emod (x := a), ← Int.bmod_emod (x := b), h]

theorem callNumber_inj {i j : Nat} (h : callNumber i = callNumber j) (hij : i ≤ j) (hfew : j < i + 2 ^ 64) : i = j := by
  have := bmod_inj h
  omega

theorem callId_inj {i j : Nat} (h : callId i = callId j) (hi : i < 2 ^ 64) (hj : j < 2 ^ 64) : i = j := by
  have h := congrArg ID.number h
  simp only [callId] at h
  rcases Nat.le_total i j with hij | hij
  · exact callNumber_inj h hij (by omega)
  · exact (callNumber_inj h.symm hij (by omega)).symm

/-- C37: two outgoing calls have different ids, unless there are 2^64 calls between them. -/
theorem C37_distinct_ids (es : List CallEv) (s : Calls) (h : Calls.init.run es = some s) (i j : Nat) (c d : Call)
    (hc : s.calls[i]? = some c) (hd : s.calls[j]? = some d) (hij : i < j) (hfew : j < i + 2 ^ 64) : c.id ≠ d.id := by
  have hk := kinv_init.run es h
  rw [hk.ids i c hc, hk.ids j d hd]
  intro hcon
  have h2 := congrArg ID.number hcon
  simp only [callId] at h2
  have := callNumber_inj h2 (by omega) hfew
  omega

/-- C37: a response is only delivered to a call with its id; a call receives at most one response, and a response is
received by at most one call. -/
theorem C37_delivery (es : List CallEv) (s : Calls) (h : Calls.init.run es = some s) :
    (∀ k i, (k, i) ∈ s.delivered → ∃ c, s.calls[i]? = some c ∧ c.got = some k ∧ (responses es)[k]? = some c.id) ∧
    (∀ i c k, s.calls[i]? = some c → c.got = some k → (k, i) ∈ s.delivered) ∧
    (∀ k i j, (k, i) ∈ s.delivered → (k, j) ∈ s.delivered → i = j) ∧
    s.delivered.Nodup := by
  have hk := kinv_init.run es h
  have hr := (run_calls h).1
  simp only [Calls.init, List.nil_append] at hr
  refine ⟨fun k i hm => ?_, fun i c k hc hg => (hk.del k i).mpr ⟨c, hc, hg⟩, fun k i j hi hj => ?_,
    List.Nodup.of_map _ hk.nd1⟩
  · obtain ⟨c, h1, h2⟩ := (hk.del k i).mp hm
    exact ⟨c, h1, h2, by rw [← hr]; exact (hk.got k i c h1 h2).1⟩
  · have := List.inj_on_of_nodup_map hk.nd1 hi hj rfl
    exact (Prod.mk.injEq _ _ _ _ ▸ this).2

/-- The loop of `Run` waits for somebody to take a response that nobody will take. -/
def Calls.Stuck (s : Calls) : Prop :=
  ∃ o k, s.loop = .sending o k ∧
    ∀ i, o = some i → ∃ c, s.calls[i]? = some c ∧ (c.phase = .leaving ∨ c.phase = .done)

theorem stuck_step {s s' : Calls} (h : s.Stuck) (e : CallEv) (hs : s.step e = some s') :
    s'.Stuck ∧ s'.handled = s.handled ∧ s'.resps = s.resps ∧ s'.delivered = s.delivered := by
  obtain ⟨o, k, hl, hc⟩ := h
  have keep : ∀ (i : Nat) (c : Call) (p : CPhase) (b : Bool), s.calls[i]? = some c →
      (c.phase = .leaving ∨ c.phase = .done → p = .leaving ∨ p = .done) →
      ∀ j, o = some j → ∃ d : Call, (s.calls.set i { c with phase := p, cancelled := b })[j]? = some d ∧
        (d.phase = .leaving ∨ d.phase = .done) := by
    intro i c p b hi hp j hj
    obtain ⟨d, h1, h2⟩ := hc j hj
    rw [set_get hi]
    split
    · rename_i hij
      subst hij
      rw [hi] at h1
      simp only [Option.some.injEq] at h1
      subst h1
      exact ⟨_, rfl, hp h2⟩
    · exact ⟨d, h1, h2⟩
  cases e with
  | call =>
    simp only [Calls.step, Option.some.injEq] at hs
    subst hs
    refine ⟨⟨o, k, hl, fun i hi => ?_⟩, rfl, rfl, rfl⟩
    obtain ⟨c, h1, h2⟩ := hc i hi
    refine ⟨c, ?_, h2⟩
    have hlt : i < s.calls.length := by
      by_contra hcon
      rw [List.getElem?_eq_none (by omega)] at h1
      cases h1
    simp only
    rw [List.getElem?_append_left hlt]; exact h1
  | register i =>
    simp only [Calls.step] at hs
    split at hs
    · rename_i c hci
      split at hs
      · rename_i hcr
        simp only [Option.some.injEq] at hs
        subst hs
        exact ⟨⟨o, k, hl, keep i c .writing c.cancelled hci (by rw [hcr]; simp)⟩, rfl, rfl, rfl⟩
      · cases hs
    · cases hs
  | wrote i ok =>
    simp only [Calls.step] at hs
    split at hs
    · rename_i c hci
      split at hs
      · rename_i hcr
        simp only [Option.some.injEq] at hs
        subst hs
        exact ⟨⟨o, k, hl, keep i c _ c.cancelled hci (by rw [hcr]; simp)⟩, rfl, rfl, rfl⟩
      · cases hs
    · cases hs
  | response id => simp only [Calls.step] at hs; rw [if_neg (by rw [hl]; simp)] at hs; cases hs
  | message => simp only [Calls.step] at hs; rw [if_neg (by rw [hl]; simp)] at hs; cases hs
  | deliver =>
    simp only [Calls.step] at hs
    split at hs
    · rename_i i k' hl'
      rw [hl] at hl'
      simp only [Loop.sending.injEq] at hl'
      obtain ⟨c, h1, h2⟩ := hc i hl'.1
      simp only [h1] at hs
      rw [if_neg (by rcases h2 with h2 | h2 <;> rw [h2] <;> simp)] at hs
      cases hs
    · cases hs
  | cancel i =>
    simp only [Calls.step] at hs
    split at hs
    · rename_i c hci
      simp only [Option.some.injEq] at hs
      subst hs
      exact ⟨⟨o, k, hl, keep i c c.phase true hci (fun x => x)⟩, rfl, rfl, rfl⟩
    · cases hs
  | giveUp i =>
    simp only [Calls.step] at hs
    split at hs
    · rename_i c hci
      split at hs
      · simp only [Option.some.injEq] at hs
        subst hs
        exact ⟨⟨o, k, hl, keep i c .leaving c.cancelled hci (by simp)⟩, rfl, rfl, rfl⟩
      · cases hs
    · cases hs
  | leave i =>
    simp only [Calls.step] at hs
    split at hs
    · rename_i c hci
      split at hs
      · simp only [Option.some.injEq] at hs
        subst hs
        exact ⟨⟨o, k, hl, keep i c .done c.cancelled hci (by simp)⟩, rfl, rfl, rfl⟩
      · cases hs
    · cases hs

/-- After this state no message is handled any more, whatever happens. -/
def Calls.Dead (s : Calls) : Prop :=
  ∀ es s', s.run es = some s' → s'.step .message = none ∧ (∀ id, s'.step (.response id) = none) ∧ s'.handled = s.handled

theorem stuck_dead {s : Calls} (h : s.Stuck) : s.Dead := by
  intro es
  induction es generalizing s with
  | nil =>
    intro s' hs
    simp only [Calls.run, Option.some.injEq] at hs
    subst hs
    obtain ⟨o, k, hl, -⟩ := h
    simp [Calls.step, hl]
  | cons e es ih =>
    intro s' hs
    obtain ⟨s1, h1, h2⟩ := crun_cons hs
    obtain ⟨g1, g2, -⟩ := stuck_step h e h1
    obtain ⟨k1, k2, k3⟩ := ih g1 s' h2
    exact ⟨k1, k2, by rw [k3, g2]⟩

/-- C37 does not hold: one response with an id that was never used, or a second response to the same call, stops the
connection for ever. -/
theorem C37_false_unknown :
    ∃ es s, Calls.init.run es = some s ∧ es = [.message, .response ⟨b!"nobody", 0⟩] ∧ s.Dead := by
  refine ⟨_, ⟨[], [], .sending none 0, [⟨b!"nobody", 0⟩], [], 1⟩, ?_, rfl, ?_⟩
  · decide +kernel
  · exact stuck_dead ⟨none, 0, rfl, by simp⟩

/-- See `C37_false_unknown`. -/
theorem C37_false_twice :
    ∃ es s, Calls.init.run es = some s ∧ responses es = [callId 0, callId 0] ∧ (0, 0) ∈ s.delivered ∧ s.Dead := by
  refine ⟨[.call, .register 0, .wrote 0 true, .response (callId 0), .deliver, .leave 0, .response (callId 0)],
    ⟨[⟨callId 0, .done, false, some 0⟩], [], .sending none 1, [callId 0, callId 0], [(0, 0)], 0⟩, ?_, ?_, ?_, ?_⟩
  · decide +kernel
  · decide +kernel
  · decide +kernel
  · exact stuck_dead ⟨none, 1, rfl, by simp⟩

/-- C37 does not hold for a call whose context is cancelled while its response arrives: the loop has taken the channel
and the call does not wait any more. -/
theorem C37_false_cancel_race :
    ∃ es s, Calls.init.run es = some s ∧ responses es = [callId 0] ∧
      es.filter (· matches .cancel _) = [.cancel 0] ∧ s.Dead := by
  refine ⟨[.call, .register 0, .wrote 0 true, .cancel 0, .response (callId 0), .giveUp 0],
    ⟨[⟨callId 0, .leaving, true, none⟩], [], .sending (some 0) 0, [callId 0], [], 0⟩, ?_, ?_, ?_, ?_⟩
  · decide +kernel
  · decide +kernel
  · decide +kernel
  · exact stuck_dead ⟨some 0, 0, rfl, fun i hi => ⟨⟨callId 0, .leaving, true, none⟩, by simp_all, Or.inl rfl⟩⟩

/-- The assumption about the environment: the other side answers only calls of `A`, after they were registered and
once; the calls of `A` are not cancelled before they return, and their messages can be sent. -/
def Polite (A : Nat → Prop) (es : List CallEv) : Prop :=
  ∀ es1 e es2, es = es1 ++ e :: es2 →
    (∀ id, e = .response id → ∃ i, A i ∧ id = callId i ∧ .register i ∈ es1 ∧ .response id ∉ es1) ∧
    (∀ i, e = .wrote i false → ¬ A i) ∧
    (∀ i, e = .cancel i → A i → .leave i ∈ es1)

theorem polite_snoc {A : Nat → Prop} {es : List CallEv} {e : CallEv} (h : Polite A (es ++ [e])) : Polite A es := by
  intro es1 x es2 hes
  exact h es1 x (es2 ++ [e]) (by rw [hes]; simp)

structure PInv (A : Nat → Prop) (es : List CallEv) (s : Calls) : Prop where
  reg : ∀ i, .register i ∈ es → ∃ c : Call, s.calls[i]? = some c ∧ c.phase ≠ .created
  lv : ∀ i, .leave i ∈ es → ∃ c : Call, s.calls[i]? = some c ∧ c.phase = .done
  alive : ∀ (i : Nat) (c : Call), A i → s.calls[i]? = some c → (c.cancelled = true → c.phase = .done) ∧
    (c.phase = .leaving ∨ c.phase = .done → ∃ k, c.got = some k) ∧
    (c.phase = .writing ∨ c.phase = .waiting → c.id ∉ s.resps → s.pending.get c.id = some i)
  send : ∀ o k, s.loop = .sending o k → ∃ i, A i ∧ o = some i ∧ ∃ c : Call, s.calls[i]? = some c ∧
    (c.phase = .writing ∨ c.phase = .waiting)
  all : ∀ (k : Nat) (id : ID), s.resps[k]? = some id → ∃ i c, s.calls[i]? = some c ∧ c.id = id ∧
    ((k, i) ∈ s.delivered ∨ s.loop = .sending (some i) k)

/-- A step that changes the phase of one call only. -/
theorem PInv.touch {A : Nat → Prop} {es es' : List CallEv} {s : Calls} (h : PInv A es s) (i : Nat) (c : Call)
    (hc : s.calls[i]? = some c) (p : CPhase) (b : Bool)
    (hreg : ∀ j, .register j ∈ es' → .register j ∈ es ∨ (j = i ∧ p ≠ .created))
    (hlv : ∀ j, .leave j ∈ es' → .leave j ∈ es ∨ (j = i ∧ p = .done))
    (hmono : (c.phase ≠ .created → p ≠ .created) ∧ (c.phase = .done → p = .done))
    (hal : A i → (b = true → p = .done) ∧ (p = .leaving ∨ p = .done → ∃ k, c.got = some k) ∧
      (p = .writing ∨ p = .waiting → c.id ∉ s.resps → s.pending.get c.id = some i))
    (hsend : ∀ k, s.loop = .sending (some i) k → A i → p = .writing ∨ p = .waiting) :
    PInv A es' { s with calls := s.calls.set i { c with phase := p, cancelled := b } } := by
  refine ⟨?_, ?_, ?_, ?_, ?_⟩
  · intro j hj
    by_cases hji : j = i
    · subst hji
      refine ⟨_, by simp only; rw [set_get hc, if_pos rfl], ?_⟩
      rcases hreg j hj with hj | hj
      · obtain ⟨d, h1, h2⟩ := h.reg j hj
        rw [hc] at h1
        simp only [Option.some.injEq] at h1
        subst h1
        exact hmono.1 h2
      · exact hj.2
    · rcases hreg j hj with hj | hj
      · obtain ⟨d, h1, h2⟩ := h.reg j hj
        exact ⟨d, by simp only; rw [set_get hc, if_neg hji]; exact h1, h2⟩
      · exact absurd hj.1 hji
  · intro j hj
    by_cases hji : j = i
    · subst hji
      refine ⟨_, by simp only; rw [set_get hc, if_pos rfl], ?_⟩
      rcases hlv j hj with hj | hj
      · obtain ⟨d, h1, h2⟩ := h.lv j hj
        rw [hc] at h1
        simp only [Option.some.injEq] at h1
        subst h1
        exact hmono.2 h2
      · exact hj.2
    · rcases hlv j hj with hj | hj
      · obtain ⟨d, h1, h2⟩ := h.lv j hj
        exact ⟨d, by simp only; rw [set_get hc, if_neg hji]; exact h1, h2⟩
      · exact absurd hj.1 hji
  · intro j d hA hd
    simp only at hd
    rw [set_get hc] at hd
    split at hd
    · rename_i hji
      subst hji
      simp only [Option.some.injEq] at hd
      subst hd
      exact hal hA
    · exact h.alive j d hA hd
  · intro o k hl
    obtain ⟨j, hA, ho, d, h1, h2⟩ := h.send o k hl
    refine ⟨j, hA, ho, ?_⟩
    simp only
    rw [set_get hc]
    split
    · rename_i hji
      subst hji
      exact ⟨_, rfl, hsend k (by rw [← ho]; exact hl) hA⟩
    · exact ⟨d, h1, h2⟩
  · intro k id hk
    obtain ⟨j, d, h1, h2, h3⟩ := h.all k id hk
    refine ⟨j, ?_⟩
    simp only
    rw [set_get hc]
    split
    · rename_i hji
      subst hji
      rw [hc] at h1
      simp only [Option.some.injEq] at h1
      subst h1
      exact ⟨_, rfl, h2, h3⟩
    · exact ⟨d, h1, h2, h3⟩

theorem pinv_run (A : Nat → Prop) (es : List CallEv) (s : Calls) (h : Calls.init.run es = some s)
    (hp : Polite A es) (hfew : callCount es ≤ 2 ^ 64) : PInv A es s := by
  induction es using List.reverseRecOn generalizing s with
  | nil =>
    simp only [Calls.run, Option.some.injEq] at h
    subst h
    constructor <;> simp [Calls.init]
  | append_singleton es e ih =>
    obtain ⟨s1, h1, hs⟩ := crun_snoc h
    have hcount : callCount es ≤ callCount (es ++ [e]) := by simp [callCount]
    have hi := ih s1 h1 (polite_snoc hp) (by omega)
    have hk := kinv_init.run es h1
    obtain ⟨hr1, hl1⟩ := run_calls h1
    simp only [Calls.init, List.nil_append, List.length_nil, Nat.zero_add] at hr1 hl1
    obtain ⟨hpr, hpw, hpc⟩ := hp es e [] (by simp)
    have hlt : ∀ (i : Nat) (c : Call), s1.calls[i]? = some c → i < 2 ^ 64 := by
      intro i c hc
      have : i < s1.calls.length := by
        by_contra hcon
        rw [List.getElem?_eq_none (by omega)] at hc
        cases hc
      omega
    have hdist : ∀ (i j : Nat) (c d : Call), s1.calls[i]? = some c → s1.calls[j]? = some d → c.id = d.id → i = j := by
      intro i j c d hc hd hid
      rw [hk.ids i c hc, hk.ids j d hd] at hid
      exact callId_inj hid (hlt i c hc) (hlt j d hd)
    cases e with
    | call =>
      simp only [Calls.step, Option.some.injEq] at hs
      subst hs
      have key2 : ∀ (j : Nat) (d : Call), s1.calls[j]? = some d →
          (s1.calls ++ [⟨callId s1.calls.length, .created, false, none⟩])[j]? = some d := by
        intro j d hd
        have hlt : j < s1.calls.length := by
          by_contra hcon
          rw [List.getElem?_eq_none (by omega)] at hd
          cases hd
        rw [List.getElem?_append_left hlt]; exact hd
      refine ⟨?_, ?_, ?_, ?_, ?_⟩
      · intro i hm
        obtain ⟨c, g1, g2⟩ := hi.reg i (by simpa using hm)
        exact ⟨c, key2 i c g1, g2⟩
      · intro i hm
        obtain ⟨c, g1, g2⟩ := hi.lv i (by simpa using hm)
        exact ⟨c, key2 i c g1, g2⟩
      · intro i c hA hc
        simp only at hc
        rw [List.getElem?_append] at hc
        split at hc
        · exact hi.alive i c hA hc
        · have : c = ⟨callId s1.calls.length, .created, false, none⟩ := by
            cases hj : i - s1.calls.length with
            | zero => rw [hj] at hc; simpa using hc.symm
            | succ n => rw [hj] at hc; simp at hc
          subst this
          simp
      · intro o k hl
        obtain ⟨j, hA, ho, d, g1, g2⟩ := hi.send o k hl
        exact ⟨j, hA, ho, d, key2 j d g1, g2⟩
      · intro k id hk
        obtain ⟨j, d, g1, g2⟩ := hi.all k id hk
        exact ⟨j, d, key2 j d g1, g2⟩
    | register i =>
      simp only [Calls.step] at hs
      split at hs
      · rename_i c hc
        split at hs
        · rename_i hcr
          simp only [Option.some.injEq] at hs
          subst hs
          have hothers : ∀ (j : Nat) (d : Call), s1.calls[j]? = some d → j ≠ i → d.id ≠ c.id :=
            fun j d hd hne hid => hne (hdist j i d c hd hc hid)
          have ht : PInv A (es ++ [.register i])
              { { s1 with pending := s1.pending.set c.id i } with
                calls := s1.calls.set i { c with phase := .writing, cancelled := c.cancelled } } := by
            have hi' : PInv A es { s1 with pending := s1.pending.set c.id i } := by
              refine ⟨hi.reg, hi.lv, ?_, hi.send, hi.all⟩
              intro j d hA hd
              obtain ⟨a1, a2, a3⟩ := hi.alive j d hA hd
              refine ⟨a1, a2, fun hph hid => ?_⟩
              simp only [GoMap.get_set]
              by_cases hji : j = i
              · subst hji
                simp only at hd
                rw [hc] at hd
                simp only [Option.some.injEq] at hd
                subst hd
                simp
              · rw [if_neg (hothers j d hd hji)]
                exact a3 hph hid
            refine hi'.touch i c hc .writing c.cancelled ?_ ?_ ?_ ?_ ?_
            · intro j hj
              simp only [List.mem_append, List.mem_singleton, CallEv.register.injEq] at hj
              exact hj.imp (fun x => x) (fun x => ⟨x, by simp⟩)
            · intro j hj
              exact Or.inl (by simpa using hj)
            · simp [hcr]
            · intro hA
              refine ⟨fun hca => ?_, by simp, fun _ _ => by simp [GoMap.get_set]⟩
              have := (hi.alive i c hA hc).1 hca
              rw [hcr] at this
              cases this
            · simp
          exact ht
        · cases hs
      · cases hs
    | wrote i ok =>
      simp only [Calls.step] at hs
      split at hs
      · rename_i c hc
        split at hs
        · rename_i hcr
          simp only [Option.some.injEq] at hs
          subst hs
          refine hi.touch i c hc _ c.cancelled (fun j hj => Or.inl (by simpa using hj))
            (fun j hj => Or.inl (by simpa using hj)) ?_ ?_ ?_
          · rw [hcr]; exact ⟨fun _ => by split <;> simp, by simp⟩
          · intro hA
            have hok : ok = true := by
              cases ok with
              | true => rfl
              | false => exact absurd hA (hpw i rfl)
            subst hok
            obtain ⟨a1, a2, a3⟩ := hi.alive i c hA hc
            refine ⟨fun hca => ?_, by simp, fun _ => a3 (Or.inl hcr)⟩
            have := a1 hca
            rw [hcr] at this
            cases this
          · intro k hl hA
            have hok : ok = true := by
              cases ok with
              | true => rfl
              | false => exact absurd hA (hpw i rfl)
            subst hok
            simp
        · cases hs
      · cases hs
    | response id =>
      simp only [Calls.step] at hs
      split at hs
      · rename_i hidle
        simp only [Option.some.injEq] at hs
        subst hs
        obtain ⟨i, hA, rfl, hreg, hnew⟩ := hpr id rfl
        obtain ⟨c, hc, hcph⟩ := hi.reg i hreg
        have hcid := hk.ids i c hc
        have hnr : callId i ∉ s1.resps := by
          rw [hr1]
          intro hm
          simp only [responses, List.mem_filterMap] at hm
          obtain ⟨x, hx, hx2⟩ := hm
          cases x with
          | response id => simp only [Option.some.injEq] at hx2; subst hx2; exact hnew hx
          | _ => cases hx2
        obtain ⟨a1, a2, a3⟩ := hi.alive i c hA hc
        have hph : c.phase = .writing ∨ c.phase = .waiting := by
          have hno : ¬ (c.phase = .leaving ∨ c.phase = .done) := by
            intro hcon
            obtain ⟨k, hg⟩ := a2 hcon
            have := (hk.got k i c hc hg).1
            rw [hcid] at this
            exact hnr (List.mem_of_getElem? this)
          cases hcp : c.phase <;> simp_all
        have hget : s1.pending.get (callId i) = some i := by rw [← hcid]; exact a3 hph (by rw [hcid]; exact hnr)
        refine ⟨fun j hj => hi.reg j (by simpa using hj), fun j hj => hi.lv j (by simpa using hj), ?_, ?_, ?_⟩
        · intro j d hA' hd
          obtain ⟨b1, b2, b3⟩ := hi.alive j d hA' hd
          refine ⟨b1, b2, fun hph' hid => ?_⟩
          simp only [List.mem_append, List.mem_singleton, not_or] at hid
          simp only [hget]
          simp only [reduceCtorEq, if_false, GoMap.get_erase]
          rw [if_neg hid.2]
          exact b3 hph' hid.1
        · intro o k hl
          simp only [Loop.sending.injEq] at hl
          exact ⟨i, hA, by rw [← hl.1, hget], c, hc, hph⟩
        · intro k x hx
          simp only at hx
          rw [List.getElem?_append] at hx
          split at hx
          · obtain ⟨j, d, g1, g2, g3⟩ := hi.all k x hx
            refine ⟨j, d, g1, g2, Or.inl ?_⟩
            rcases g3 with g3 | g3
            · exact g3
            · rw [hidle] at g3; cases g3
          · have : k = s1.resps.length ∧ x = callId i := by
              cases hj : k - s1.resps.length with
              | zero => rw [hj] at hx; simp at hx; exact ⟨by omega, hx.symm⟩
              | succ n => rw [hj] at hx; simp at hx
            obtain ⟨rfl, rfl⟩ := this
            exact ⟨i, c, hc, hcid, Or.inr (by simp only [hget])⟩
      · cases hs
    | deliver =>
      simp only [Calls.step] at hs
      split at hs
      · rename_i i k hl
        split at hs
        · rename_i c hc
          split at hs
          · rename_i hw
            simp only [Option.some.injEq] at hs
            subst hs
            have hget : ∀ (j : Nat), (s1.calls.set i { c with phase := .leaving, got := some k })[j]? =
                if j = i then some { c with phase := .leaving, got := some k } else s1.calls[j]? := set_get hc _
            refine ⟨?_, ?_, ?_, by simp, ?_⟩
            · intro j hj
              obtain ⟨d, g1, g2⟩ := hi.reg j (by simpa using hj)
              simp only [hget]
              split
              · exact ⟨_, rfl, by simp⟩
              · exact ⟨d, g1, g2⟩
            · intro j hj
              obtain ⟨d, g1, g2⟩ := hi.lv j (by simpa using hj)
              simp only [hget]
              split
              · rename_i hji
                subst hji
                rw [hc] at g1
                simp only [Option.some.injEq] at g1
                subst g1
                rw [hw] at g2
                cases g2
              · exact ⟨d, g1, g2⟩
            · intro j d hA hd
              simp only [hget] at hd
              split at hd
              · rename_i hji
                subst hji
                simp only [Option.some.injEq] at hd
                subst hd
                refine ⟨fun hca => ?_, fun _ => ⟨k, rfl⟩, by simp⟩
                have := (hi.alive j c hA hc).1 hca
                rw [hw] at this
                cases this
              · exact hi.alive j d hA hd
            · intro k' id hk'
              obtain ⟨j, d, g1, g2, g3⟩ := hi.all k' id hk'
              refine ⟨j, ?_⟩
              simp only [hget, List.mem_append, List.mem_singleton, Prod.mk.injEq]
              have hd' : (k', j) ∈ s1.delivered ∨ k' = k ∧ j = i := by
                rcases g3 with g3 | g3
                · exact Or.inl g3
                · rw [hl] at g3
                  simp only [Loop.sending.injEq, Option.some.injEq] at g3
                  exact Or.inr ⟨g3.2.symm, g3.1.symm⟩
              split
              · rename_i hji
                subst hji
                rw [hc] at g1
                simp only [Option.some.injEq] at g1
                subst g1
                exact ⟨_, rfl, g2, Or.inl hd'⟩
              · exact ⟨d, g1, g2, Or.inl hd'⟩
          · cases hs
        · cases hs
      · cases hs
    | cancel i =>
      simp only [Calls.step] at hs
      split at hs
      · rename_i c hc
        simp only [Option.some.injEq] at hs
        subst hs
        refine hi.touch i c hc c.phase true (fun j hj => Or.inl (by simpa using hj))
          (fun j hj => Or.inl (by simpa using hj)) ⟨fun x => x, fun x => x⟩ ?_ ?_
        · intro hA
          obtain ⟨a1, a2, a3⟩ := hi.alive i c hA hc
          refine ⟨fun _ => ?_, a2, a3⟩
          obtain ⟨d, g1, g2⟩ := hi.lv i (hpc i rfl hA)
          rw [hc] at g1
          simp only [Option.some.injEq] at g1
          subst g1
          exact g2
        · intro k hl hA
          obtain ⟨j, -, ho, d, g1, g2⟩ := hi.send _ k hl
          simp only [Option.some.injEq] at ho
          subst ho
          rw [hc] at g1
          simp only [Option.some.injEq] at g1
          subst g1
          exact g2
      · cases hs
    | giveUp i =>
      simp only [Calls.step] at hs
      split at hs
      · rename_i c hc
        split at hs
        · rename_i hw
          simp only [Option.some.injEq] at hs
          subst hs
          have hnA : ¬ A i := by
            intro hA
            have := (hi.alive i c hA hc).1 hw.2
            rw [hw.1] at this
            cases this
          exact hi.touch i c hc _ c.cancelled (fun j hj => Or.inl (by simpa using hj))
            (fun j hj => Or.inl (by simpa using hj)) (by simp [hw.1]) (fun hA => absurd hA hnA)
            (fun _ _ hA => absurd hA hnA)
        · cases hs
      · cases hs
    | leave i =>
      simp only [Calls.step] at hs
      split at hs
      · rename_i c hc
        split at hs
        · rename_i hw
          simp only [Option.some.injEq] at hs
          subst hs
          have hi' : PInv A es { s1 with pending := s1.pending.erase c.id } := by
            refine ⟨hi.reg, hi.lv, ?_, hi.send, hi.all⟩
            intro j d hA hd
            obtain ⟨a1, a2, a3⟩ := hi.alive j d hA hd
            refine ⟨a1, a2, fun hph hid => ?_⟩
            simp only [GoMap.get_erase]
            by_cases hji : d.id = c.id
            · have := hdist j i d c hd hc hji
              subst this
              simp only at hd
              rw [hc] at hd
              simp only [Option.some.injEq] at hd
              subst hd
              rw [hw] at hph
              simp at hph
            · rw [if_neg hji]
              exact a3 hph hid
          refine hi'.touch i c hc .done c.cancelled (fun j hj => Or.inl (by simpa using hj)) ?_ (by simp) ?_ ?_
          · intro j hj
            simp only [List.mem_append, List.mem_singleton, CallEv.leave.injEq] at hj
            exact hj.imp (fun x => x) (fun x => ⟨x, rfl⟩)
          · intro hA
            exact ⟨fun _ => rfl, fun _ => (hi.alive i c hA hc).2.1 (Or.inl hw), by simp⟩
          · intro k hl hA
            obtain ⟨j, -, ho, d, g1, g2⟩ := hi.send _ k hl
            simp only [Option.some.injEq] at ho
            subst ho
            rw [hc] at g1
            simp only [Option.some.injEq] at g1
            subst g1
            rw [hw] at g2
            simp at g2
        · cases hs
      · cases hs
    | message =>
      simp only [Calls.step] at hs
      split at hs
      · simp only [Option.some.injEq] at hs
        subst hs
        exact ⟨fun j hj => hi.reg j (by simpa using hj), fun j hj => hi.lv j (by simpa using hj), hi.alive, hi.send,
          hi.all⟩
      · cases hs

/-- C37, as far as it holds: if the other side answers each call at most once and answers nothing else, and the calls
it answers are not cancelled while they run, then in every schedule the connection gets over every response: the loop
is ready to read, or it becomes ready within two steps of the call that is answered (the end of its `Write` and the
delivery), and every response that has arrived was delivered to the call with its id or is about to be. -/
theorem C37_no_stall_partial (A : Nat → Prop) (es : List CallEv) (s : Calls) (h : Calls.init.run es = some s)
    (hp : Polite A es) (hfew : callCount es ≤ 2 ^ 64) :
    (s.loop = .idle ∨ ∃ i es' s', (es' = [.deliver] ∨ es' = [.wrote i true, .deliver]) ∧ s.run es' = some s' ∧
      s'.loop = .idle) ∧
    ∀ (k : Nat) (id : ID), (responses es)[k]? = some id →
      ∃ (i : Nat) (c : Call), s.calls[i]? = some c ∧ c.id = id ∧ ((k, i) ∈ s.delivered ∨ s.loop = .sending (some i) k) := by
  have hi := pinv_run A es s h hp hfew
  have hr := (run_calls h).1
  simp only [Calls.init, List.nil_append] at hr
  refine ⟨?_, fun k id hk => hi.all k id (by rw [hr]; exact hk)⟩
  cases hl : s.loop with
  | idle => exact Or.inl rfl
  | sending o k =>
    right
    obtain ⟨i, hA, rfl, c, hc, hph⟩ := hi.send o k hl
    rcases hph with hph | hph
    · have hset : (s.calls.set i { c with phase := .waiting })[i]? = some { c with phase := .waiting } := by
        rw [set_get hc, if_pos rfl]
      exact ⟨i, _, { s with
          loop := .idle
          calls := (s.calls.set i { c with phase := .waiting }).set i { c with phase := .leaving, got := some k }
          delivered := s.delivered ++ [(k, i)] }, Or.inr rfl,
        by simp [Calls.run, Calls.step, hc, hph, hl, hset], rfl⟩
    · exact ⟨i, _, { s with
          loop := .idle
          calls := s.calls.set i { c with phase := .leaving, got := some k }
          delivered := s.delivered ++ [(k, i)] }, Or.inl rfl, by simp [Calls.run, Calls.step, hc, hph, hl], rfl⟩

-- two calls, answered in the other order; the first answer arrives before `Write` has returned
example : ∃ es s, Calls.init.run es = some s ∧ s.delivered = [(0, 1), (1, 0)] ∧ s.loop = .idle ∧
    es = [.call, .call, .register 1, .register 0, .response (callId 1), .wrote 1 true, .deliver, .wrote 0 true,
      .message, .leave 1, .cancel 1, .response (callId 0), .deliver] :=
  ⟨_, ⟨[⟨callId 0, .leaving, false, some 1⟩, ⟨callId 1, .done, true, some 0⟩], [], .idle, [callId 1, callId 0],
    [(0, 1), (1, 0)], 1⟩, by decide +kernel, rfl, rfl, rfl⟩
-- a polite schedule in which one call is cancelled and never answered
example : Polite (fun i => i = 0) [.call, .call, .register 0, .register 1, .wrote 0 true, .cancel 1,
    .response (callId 0), .wrote 1 true, .giveUp 1, .deliver, .leave 0, .cancel 0] := by
  intro es1 e es2 h
  have hcases : ∀ (l : List CallEv) (es1 : List CallEv) (e : CallEv) (es2 : List CallEv), l = es1 ++ e :: es2 →
      ∃ n, n < l.length ∧ es1 = l.take n ∧ l[n]? = some e := by
    intro l es1 e es2 h
    subst h
    exact ⟨es1.length, by simp, by simp, by simp⟩
  obtain ⟨n, hn, h1, h2⟩ := hcases _ es1 e es2 h
  subst h1
  simp only [List.length_cons, List.length_nil] at hn
  have hn' : n = 0 ∨ n = 1 ∨ n = 2 ∨ n = 3 ∨ n = 4 ∨ n = 5 ∨ n = 6 ∨ n = 7 ∨ n = 8 ∨ n = 9 ∨ n = 10 ∨ n = 11 := by omega
  rcases hn' with rfl | rfl | rfl | rfl | rfl | rfl | rfl | rfl | rfl | rfl | rfl | rfl <;>
    simp at h2 <;> subst h2 <;> simp

end Verif.Rpc
