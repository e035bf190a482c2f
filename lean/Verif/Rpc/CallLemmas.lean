import Verif.Rpc.Calls
import Verif.Common.Tactics

/-! The invariant of outgoing calls. -/

namespace Verif.Rpc

theorem set_get {α : Type} {l : List α} {i : Nat} {c : α} (h : l[i]? = some c) (c' : α) (j : Nat) :
    (l.set i c')[j]? = if j = i then some c' else l[j]? := by
  have hlt : i < l.length := by
    by_contra hcon
    rw [List.getElem?_eq_none (by omega)] at h
    cases h
  rw [List.getElem?_set]
  by_cases hij : i = j
  · subst hij; simp [hlt]
  · rw [if_neg hij, if_neg (fun hh => hij hh.symm)]

structure KInv (s : Calls) : Prop where
  ids : ∀ (i : Nat) (c : Call), s.calls[i]? = some c → c.id = callId i
  pend : ∀ id i, s.pending.get id = some i → ∃ c : Call, s.calls[i]? = some c ∧ c.id = id ∧ c.got = none ∧
    c.phase ≠ .created ∧ ∀ k, s.loop ≠ .sending (some i) k
  send : ∀ o k, s.loop = .sending o k → k + 1 = s.resps.length ∧ (∀ i, (k, i) ∉ s.delivered) ∧
    ∀ i, o = some i → ∃ c : Call, s.calls[i]? = some c ∧ s.resps[k]? = some c.id ∧ c.got = none ∧ c.phase ≠ .created
  del : ∀ k i, (k, i) ∈ s.delivered ↔ ∃ c : Call, s.calls[i]? = some c ∧ c.got = some k
  got : ∀ (k i : Nat) (c : Call), s.calls[i]? = some c → c.got = some k → s.resps[k]? = some c.id ∧ c.phase ≠ .created
  nd1 : (s.delivered.map Prod.fst).Nodup
  nd2 : (s.delivered.map Prod.snd).Nodup

theorem kinv_init : KInv Calls.init := by
  constructor <;> simp [Calls.init, GoMap.get]

/-- A step that changes one call, but neither its id nor what it has received. -/
theorem KInv.touch {s : Calls} (h : KInv s) (i : Nat) (c : Call) (hc : s.calls[i]? = some c) (p : CPhase) (b : Bool)
    (hp : c.phase ≠ .created → p ≠ .created) :
    KInv { s with calls := s.calls.set i { c with phase := p, cancelled := b } } := by
  have key : ∀ (j : Nat) (d : Call), (s.calls.set i { c with phase := p, cancelled := b })[j]? = some d →
      ∃ d' : Call, s.calls[j]? = some d' ∧ d.id = d'.id ∧ d.got = d'.got ∧ (d'.phase ≠ .created → d.phase ≠ .created) := by
    intro j d hd
    rw [set_get hc] at hd
    split at hd
    · rename_i hij
      simp only [Option.some.injEq] at hd
      subst hd
      exact ⟨c, hij ▸ hc, rfl, rfl, hp⟩
    · exact ⟨d, hd, rfl, rfl, fun x => x⟩
  have key2 : ∀ (j : Nat) (d' : Call), s.calls[j]? = some d' → ∃ d : Call, (s.calls.set i { c with phase := p, cancelled := b })[j]? = some d ∧
      d.id = d'.id ∧ d.got = d'.got ∧ (d'.phase ≠ .created → d.phase ≠ .created) := by
    intro j d' hd
    rw [set_get hc]
    split
    · rename_i hij
      subst hij
      rw [hc] at hd
      simp only [Option.some.injEq] at hd
      subst hd
      exact ⟨_, rfl, rfl, rfl, hp⟩
    · exact ⟨d', hd, rfl, rfl, fun x => x⟩
  refine ⟨?_, ?_, ?_, ?_, ?_, h.nd1, h.nd2⟩
  · intro j d hd
    obtain ⟨d', h1, h2, -⟩ := key j d hd
    rw [h2]; exact h.ids j d' h1
  · intro id j hj
    obtain ⟨d', h1, h2, h3, h4, h5⟩ := h.pend id j hj
    obtain ⟨d, g1, g2, g3, g4⟩ := key2 j d' h1
    exact ⟨d, g1, by rw [g2, h2], by rw [g3, h3], g4 h4, h5⟩
  · intro o k hl
    obtain ⟨h1, h2, h3⟩ := h.send o k hl
    refine ⟨h1, h2, fun j hj => ?_⟩
    obtain ⟨d', k1, k2, k3, k4⟩ := h3 j hj
    obtain ⟨d, g1, g2, g3, g4⟩ := key2 j d' k1
    exact ⟨d, g1, by rw [g2, k2], by rw [g3, k3], g4 k4⟩
  · intro k j
    rw [h.del k j]
    constructor
    · rintro ⟨d', h1, h2⟩
      obtain ⟨d, g1, g2, g3, g4⟩ := key2 j d' h1
      exact ⟨d, g1, by rw [g3, h2]⟩
    · rintro ⟨d, h1, h2⟩
      obtain ⟨d', g1, g2, g3, g4⟩ := key j d h1
      exact ⟨d', g1, by rw [← g3, h2]⟩
  · intro k j d hd hg
    obtain ⟨d', g1, g2, g3, g4⟩ := key j d hd
    obtain ⟨k1, k2⟩ := h.got k j d' g1 (by rw [← g3, hg])
    exact ⟨by rw [g2, k1], g4 k2⟩

theorem KInv.step {s s' : Calls} (h : KInv s) (e : CallEv) (hs : s.step e = some s') : KInv s' := by
  cases e with
  | call =>
    simp only [Calls.step, Option.some.injEq] at hs
    subst hs
    have key : ∀ (j : Nat) (d : Call), (s.calls ++ [⟨callId s.calls.length, .created, false, none⟩])[j]? = some d →
        s.calls[j]? = some d ∨ (j = s.calls.length ∧ d = ⟨callId s.calls.length, .created, false, none⟩) := by
      intro j d hd
      rw [List.getElem?_append] at hd
      split at hd
      · exact Or.inl hd
      · right
        cases hj : j - s.calls.length with
        | zero => rw [hj] at hd; simp at hd; exact ⟨by omega, hd.symm⟩
        | succ n => rw [hj] at hd; simp at hd
    have key2 : ∀ (j : Nat) (d : Call), s.calls[j]? = some d →
        (s.calls ++ [⟨callId s.calls.length, .created, false, none⟩])[j]? = some d := by
      intro j d hd
      have hlt : j < s.calls.length := by
        by_contra hcon
        rw [List.getElem?_eq_none (by omega)] at hd
        cases hd
      rw [List.getElem?_append_left hlt]; exact hd
    refine ⟨?_, ?_, ?_, ?_, ?_, h.nd1, h.nd2⟩
    · intro i c hc
      rcases key i c hc with hc | ⟨rfl, rfl⟩
      · exact h.ids i c hc
      · rfl
    · intro id i hi
      obtain ⟨c, h1, h2⟩ := h.pend id i hi
      exact ⟨c, key2 i c h1, h2⟩
    · intro o k hl
      obtain ⟨h1, h2, h3⟩ := h.send o k hl
      refine ⟨h1, h2, fun i hi => ?_⟩
      obtain ⟨c, g1, g2⟩ := h3 i hi
      exact ⟨c, key2 i c g1, g2⟩
    · intro k i
      rw [h.del k i]
      constructor
      · rintro ⟨c, h1, h2⟩; exact ⟨c, key2 i c h1, h2⟩
      · rintro ⟨c, h1, h2⟩
        rcases key i c h1 with hc | ⟨rfl, rfl⟩
        · exact ⟨c, hc, h2⟩
        · cases h2
    · intro k i c hc hg
      rcases key i c hc with hc | ⟨rfl, rfl⟩
      · exact h.got k i c hc hg
      · cases hg
  | register i =>
    simp only [Calls.step] at hs
    split at hs
    · rename_i c hc
      split at hs
      · rename_i hcr
        simp only [Option.some.injEq] at hs
        subst hs
        have ht := h.touch i c hc .writing c.cancelled (by simp)
        have hcg : c.got = none := by
          cases hg : c.got with
          | none => rfl
          | some k => exact absurd hcr (h.got k i c hc hg).2
        refine ⟨ht.ids, ?_, ht.send, ht.del, ht.got, h.nd1, h.nd2⟩
        intro id j hj
        simp only [GoMap.get_set] at hj
        split at hj
        · rename_i hid
          simp only [Option.some.injEq] at hj
          subst hj
          refine ⟨{ c with phase := .writing }, by rw [set_get hc, if_pos rfl], hid.symm, hcg, by simp, ?_⟩
          intro k hl
          obtain ⟨-, -, h3⟩ := h.send _ k hl
          obtain ⟨d, g1, -, -, g4⟩ := h3 i rfl
          rw [hc] at g1
          simp only [Option.some.injEq] at g1
          subst g1
          exact g4 hcr
        · exact ht.pend id j hj
      · cases hs
    · cases hs
  | wrote i ok =>
    simp only [Calls.step] at hs
    split at hs
    · rename_i c hc
      split at hs
      · simp only [Option.some.injEq] at hs
        subst hs
        exact h.touch i c hc _ c.cancelled (by intro _; split <;> simp)
      · cases hs
    · cases hs
  | cancel i =>
    simp only [Calls.step] at hs
    split at hs
    · rename_i c hc
      simp only [Option.some.injEq] at hs
      subst hs
      exact h.touch i c hc c.phase true (fun x => x)
    · cases hs
  | giveUp i =>
    simp only [Calls.step] at hs
    split at hs
    · rename_i c hc
      split at hs
      · simp only [Option.some.injEq] at hs
        subst hs
        exact h.touch i c hc _ c.cancelled (by simp)
      · cases hs
    · cases hs
  | leave i =>
    simp only [Calls.step] at hs
    split at hs
    · rename_i c hc
      split at hs
      · simp only [Option.some.injEq] at hs
        subst hs
        have ht := h.touch i c hc .done c.cancelled (by simp)
        refine ⟨ht.ids, ?_, ht.send, ht.del, ht.got, h.nd1, h.nd2⟩
        intro id j hj
        simp only [GoMap.get_erase] at hj
        split at hj
        · cases hj
        · exact ht.pend id j hj
      · cases hs
    · cases hs
  | message =>
    simp only [Calls.step] at hs
    split at hs
    · simp only [Option.some.injEq] at hs
      subst hs
      exact ⟨h.ids, h.pend, h.send, h.del, h.got, h.nd1, h.nd2⟩
    · cases hs
  | response id =>
    simp only [Calls.step] at hs
    split at hs
    · rename_i hidle
      simp only [Option.some.injEq] at hs
      subst hs
      have hpref : ∀ (k : Nat) (x : ID), s.resps[k]? = some x → (s.resps ++ [id])[k]? = some x := by
        intro k x hk
        have hlt : k < s.resps.length := by
          by_contra hcon
          rw [List.getElem?_eq_none (by omega)] at hk
          cases hk
        rw [List.getElem?_append_left hlt]; exact hk
      refine ⟨h.ids, ?_, ?_, h.del, ?_, h.nd1, h.nd2⟩
      · intro x j hj
        simp only at hj
        have hx : s.pending.get x = some j ∧ s.pending.get id ≠ some j := by
          split at hj
          · rename_i hn
            exact ⟨hj, by rw [hn]; simp⟩
          · rw [GoMap.get_erase] at hj
            split at hj
            · cases hj
            · rename_i hne
              refine ⟨hj, fun hcon => hne ?_⟩
              obtain ⟨c, g1, g2, -⟩ := h.pend _ _ hj
              obtain ⟨d, k1, k2, -⟩ := h.pend _ _ hcon
              rw [g1] at k1
              simp only [Option.some.injEq] at k1
              subst k1
              rw [← g2, ← k2]
        obtain ⟨c, g1, g2, g3, g4, -⟩ := h.pend x j hx.1
        refine ⟨c, g1, g2, g3, g4, fun k hl => ?_⟩
        simp only [Loop.sending.injEq] at hl
        exact hx.2 hl.1
      · intro o k hl
        simp only [Loop.sending.injEq] at hl
        obtain ⟨rfl, rfl⟩ := hl
        refine ⟨by simp, fun i hi => ?_, fun i hi => ?_⟩
        · obtain ⟨c, g1, g2⟩ := (h.del _ _).mp hi
          obtain ⟨k1, -⟩ := h.got _ _ _ g1 g2
          rw [List.getElem?_eq_none (by omega)] at k1
          cases k1
        · obtain ⟨c, g1, g2, g3, g4, -⟩ := h.pend _ _ hi
          exact ⟨c, g1, by simp [g2], g3, g4⟩
      · intro k i c hc hg
        obtain ⟨k1, k2⟩ := h.got k i c hc hg
        exact ⟨hpref _ _ k1, k2⟩
    · cases hs
  | deliver =>
    simp only [Calls.step] at hs
    split at hs
    · rename_i i k hl
      split at hs
      · rename_i c hc
        split at hs
        · simp only [Option.some.injEq] at hs
          subst hs
          obtain ⟨s1, s2, s3⟩ := h.send _ _ hl
          obtain ⟨d, t1, t2, t3, t4⟩ := s3 i rfl
          rw [hc] at t1
          simp only [Option.some.injEq] at t1
          subst t1
          have hni : ∀ k', (k', i) ∉ s.delivered := by
            intro k' hk
            obtain ⟨d, g1, g2⟩ := (h.del _ _).mp hk
            rw [hc] at g1
            simp only [Option.some.injEq] at g1
            subst g1
            rw [t3] at g2
            cases g2
          refine ⟨?_, ?_, ?_, ?_, ?_, ?_, ?_⟩
          · intro j d hd
            rw [set_get hc] at hd
            split at hd
            · rename_i hij
              simp only [Option.some.injEq] at hd
              subst hd
              exact h.ids j c (hij ▸ hc)
            · exact h.ids j d hd
          · intro id j hj
            obtain ⟨d, g1, g2, g3, g4, g5⟩ := h.pend id j hj
            have hij : j ≠ i := by rintro rfl; exact g5 k hl
            refine ⟨d, by rw [set_get hc, if_neg hij]; exact g1, g2, g3, g4, by simp⟩
          · intro o k' hl'
            cases hl'
          · intro k' j
            simp only [List.mem_append, List.mem_singleton, Prod.mk.injEq]
            constructor
            · rintro (hm | ⟨rfl, rfl⟩)
              · obtain ⟨d, g1, g2⟩ := (h.del _ _).mp hm
                have hij : j ≠ i := by rintro rfl; exact hni _ hm
                exact ⟨d, by rw [set_get hc, if_neg hij]; exact g1, g2⟩
              · exact ⟨_, by rw [set_get hc, if_pos rfl], rfl⟩
            · rintro ⟨d, g1, g2⟩
              rw [set_get hc] at g1
              split at g1
              · rename_i hij
                simp only [Option.some.injEq] at g1
                subst g1
                simp only [Option.some.injEq] at g2
                exact Or.inr ⟨g2.symm, hij⟩
              · exact Or.inl ((h.del _ _).mpr ⟨d, g1, g2⟩)
          · intro k' j d g1 g2
            rw [set_get hc] at g1
            split at g1
            · simp only [Option.some.injEq] at g1
              subst g1
              simp only [Option.some.injEq] at g2
              subst g2
              exact ⟨t2, by simp⟩
            · exact h.got k' j d g1 g2
          · simp only [List.map_append, List.map_cons, List.map_nil]
            rw [List.nodup_append]
            refine ⟨h.nd1, by simp, ?_⟩
            intro a ha b hb hab
            simp only [List.mem_singleton] at hb
            obtain ⟨⟨a1, a2⟩, hm, rfl⟩ := List.mem_map.mp ha
            simp only at hab
            subst hb
            subst hab
            exact s2 _ hm
          · simp only [List.map_append, List.map_cons, List.map_nil]
            rw [List.nodup_append]
            refine ⟨h.nd2, by simp, ?_⟩
            intro a ha b hb hab
            simp only [List.mem_singleton] at hb
            obtain ⟨⟨a1, a2⟩, hm, rfl⟩ := List.mem_map.mp ha
            simp only at hab
            subst hb
            subst hab
            exact hni _ hm
        · cases hs
      · cases hs
    · cases hs

theorem crun_cons {s s' : Calls} {e : CallEv} {es : List CallEv} (h : s.run (e :: es) = some s') :
    ∃ s1, s.step e = some s1 ∧ s1.run es = some s' := by
  simp only [Calls.run] at h
  split at h
  · rename_i s1 h1; exact ⟨s1, h1, h⟩
  · cases h

theorem KInv.run {s s' : Calls} (h : KInv s) (es : List CallEv) (hs : s.run es = some s') : KInv s' := by
  induction es generalizing s with
  | nil => simp only [Calls.run, Option.some.injEq] at hs; subst hs; exact h
  | cons e es ih =>
    obtain ⟨s1, h1, h2⟩ := crun_cons hs
    exact ih (h.step e h1) h2

theorem crun_snoc {s s' : Calls} {e : CallEv} {es : List CallEv} (h : s.run (es ++ [e]) = some s') :
    ∃ s1, s.run es = some s1 ∧ s1.step e = some s' := by
  induction es generalizing s with
  | nil =>
    obtain ⟨s1, h1, h2⟩ := crun_cons h
    simp only [Calls.run, Option.some.injEq] at h2
    subst h2
    exact ⟨s, rfl, h1⟩
  | cons x es ih =>
    obtain ⟨s1, h1, h2⟩ := crun_cons h
    obtain ⟨s2, h3, h4⟩ := ih h2
    exact ⟨s2, by simp only [Calls.run, h1]; exact h3, h4⟩

/-- How a step changes the calls, apart from the new call. -/
theorem step_calls {s s' : Calls} {e : CallEv} (hs : s.step e = some s') :
    s'.resps = s.resps ++ responses [e] ∧ s'.calls.length = s.calls.length + callCount [e] := by
  cases e with
  | call => simp only [Calls.step, Option.some.injEq] at hs; subst hs; simp [responses, callCount]
  | response id =>
    simp only [Calls.step] at hs
    split at hs
    · simp only [Option.some.injEq] at hs; subst hs; simp [responses, callCount]
    · cases hs
  | message =>
    simp only [Calls.step] at hs
    split at hs
    · simp only [Option.some.injEq] at hs; subst hs; simp [responses, callCount]
    · cases hs
  | deliver =>
    simp only [Calls.step] at hs
    split at hs
    · split at hs
      · split at hs
        · simp only [Option.some.injEq] at hs; subst hs; simp [responses, callCount]
        · cases hs
      · cases hs
    · cases hs
  | cancel i =>
    simp only [Calls.step] at hs
    split at hs
    · simp only [Option.some.injEq] at hs; subst hs; simp [responses, callCount]
    · cases hs
  | _ =>
    simp only [Calls.step] at hs
    split at hs
    · split at hs
      · simp only [Option.some.injEq] at hs; subst hs; simp [responses, callCount]
      · cases hs
    · cases hs

theorem run_calls {s s' : Calls} {es : List CallEv} (hs : s.run es = some s') :
    s'.resps = s.resps ++ responses es ∧ s'.calls.length = s.calls.length + callCount es := by
  induction es generalizing s with
  | nil => simp only [Calls.run, Option.some.injEq] at hs; subst hs; simp [responses, callCount]
  | cons e es ih =>
    obtain ⟨s1, h1, h2⟩ := crun_cons hs
    obtain ⟨g1, g2⟩ := step_calls h1
    obtain ⟨k1, k2⟩ := ih h2
    constructor
    · rw [k1, g1, List.append_assoc]
      simp only [responses, ← List.filterMap_append, List.singleton_append]
    · rw [k2, g2]
      simp only [callCount]
      rw [show e :: es = [e] ++ es from rfl, List.filter_append, List.length_append]
      omega

end Verif.Rpc
