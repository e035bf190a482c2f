import Verif.Server.Lifecycle
import Verif.Common.Tactics

/-! C38: life-cycle requests. -/

namespace Verif.Server

def LReq.isInit : LReq → Bool
  | .start _ _ => true
  | _ => false

/-- The number of `initialize` requests. -/
def inits (rs : List LReq) : Nat := (rs.filter LReq.isInit).length

theorem answers_length (s : LServer) (rs : List LReq) : (answers s rs).length = rs.length := by
  induction rs generalizing s with
  | nil => rfl
  | cons r rs ih =>
    simp only [answers]
    split
    · simp
    · simp [ih]

/-- C38, as far as it holds: if `initialize` is sent once, or not at all, every message is answered: whatever the
order of the messages and however often the others are sent, except that `initialize` has to come before
`initialized`. -/
theorem C38_all_answered_partial (rs : List LReq) (h : inits rs ≤ 1)
    (hfirst : ∀ a b, rs = a ++ .initialized :: b → inits b = 0) :
    ∀ x ∈ answers .init rs, x ≠ none := by
  have key : ∀ (rs : List LReq) (s : LServer), s.locked = false →
      (inits rs = 0 ∨ (s.state = .created ∧ inits rs ≤ 1)) →
      (∀ a b, rs = a ++ .initialized :: b → inits b = 0) → ∀ x ∈ answers s rs, x ≠ none := by
    intro rs
    induction rs with
    | nil => intro s _ _ _ x hx; simp [answers] at hx
    | cons r rs ih =>
      intro s hl hs hord x hx
      have hord' : ∀ a b, rs = a ++ .initialized :: b → inits b = 0 :=
        fun a b hab => hord (r :: a) b (by rw [hab]; rfl)
      cases r with
      | start f rt =>
        have hcount : inits (LReq.start f rt :: rs) = inits rs + 1 := by
          simp [inits, List.filter_cons, LReq.isInit]
        rw [hcount] at hs
        have hst : s.state = .created := hs.elim (fun h => by omega) (fun h => h.1)
        have hn : inits rs = 0 := by omega
        simp only [answers, handle, onInitialize, hl, hst, LState.rank] at hx
        simp only [Bool.false_eq_true, if_false, Nat.le_zero_eq, Nat.one_ne_zero] at hx
        split at hx
        · rename_i heq; split at heq
          · cases heq
          · split at heq <;> cases heq
        · rename_i s' a heq
          have hl' : s'.locked = false := by
            split at heq
            · simp only [Option.some.injEq, Prod.mk.injEq] at heq; rw [← heq.1]
            · split at heq <;>
              · simp only [Option.some.injEq, Prod.mk.injEq] at heq; rw [← heq.1]
          simp only [List.mem_cons] at hx
          rcases hx with rfl | hx
          · simp
          · exact ih s' hl' (Or.inl hn) hord' x hx
      | initialized =>
        have hn : inits rs = 0 := hord [] rs rfl
        simp only [answers, handle, onInitialized, hl, Bool.false_eq_true, if_false, List.mem_cons] at hx
        rcases hx with rfl | hx
        · simp
        · exact ih _ rfl (Or.inl hn) hord' x hx
      | shutdown =>
        have hcount : inits (LReq.shutdown :: rs) = inits rs := by simp [inits, LReq.isInit]
        rw [hcount] at hs
        simp only [answers, handle, onShutdown, hl, Bool.false_eq_true, if_false] at hx
        split at hx
        · rename_i heq; split at heq <;> cases heq
        · rename_i s' a heq
          have hs' : s'.locked = false ∧ s'.state = s.state := by
            split at heq <;>
            · simp only [Option.some.injEq, Prod.mk.injEq] at heq; rw [← heq.1]; first | exact ⟨hl, rfl⟩ | exact ⟨rfl, rfl⟩
          simp only [List.mem_cons] at hx
          rcases hx with rfl | hx
          · simp
          · exact ih s' hs'.1 (by rw [hs'.2]; exact hs) hord' x hx
  exact key rs .init rfl (Or.inr ⟨rfl, h⟩) hfirst

/-- C38: `initialize` is accepted at most once. -/
theorem C38_second_refused (rs1 : List LReq) (s : LServer) (h : after .init rs1 = some s)
    (hi : 0 < inits rs1) (f : List Bytes) (r : Bytes) (s' : LServer) (a : LAns)
    (hs : handle s (.start f r) = some (s', a)) : a = .refused ∧ s'.pending = s.pending ∧ s'.views = s.views ∧
      s'.state = s.state := by
  have key : ∀ (rs : List LReq) (s0 s1 : LServer), after s0 rs = some s1 → (0 < inits rs ∨ s0.state ≠ .created) →
      s1.state ≠ .created := by
    intro rs
    induction rs with
    | nil =>
      intro s0 s1 h hi
      simp only [after, Option.some.injEq] at h
      subst h
      rcases hi with hi | hi
      · simp [inits] at hi
      · exact hi
    | cons q rs ih =>
      intro s0 s1 h hi
      simp only [after] at h
      split at h
      · cases h
      · rename_i s2 a2 heq
        refine ih s2 s1 h ?_
        cases q with
        | start f r =>
          right
          simp only [handle, onInitialize] at heq
          split at heq
          · cases heq
          · split at heq
            · rename_i hr
              simp only [Option.some.injEq, Prod.mk.injEq] at heq
              rw [← heq.1]
              intro hc
              simp only at hc
              rw [hc] at hr
              simp [LState.rank] at hr
            · split at heq
              · simp only [Option.some.injEq, Prod.mk.injEq] at heq; rw [← heq.1]; simp
              · split at heq <;>
                · simp only [Option.some.injEq, Prod.mk.injEq] at heq; rw [← heq.1]; simp
        | initialized =>
          right
          simp only [handle, onInitialized] at heq
          split at heq
          · cases heq
          · simp only [Option.some.injEq, Prod.mk.injEq] at heq; rw [← heq.1]; simp
        | shutdown =>
          have hc : inits (LReq.shutdown :: rs) = inits rs := by simp [inits, LReq.isInit]
          rw [hc] at hi
          simp only [handle, onShutdown] at heq
          split at heq
          · cases heq
          · split at heq <;>
            · simp only [Option.some.injEq, Prod.mk.injEq] at heq; rw [← heq.1]; exact hi
  have hst := key rs1 .init s h (Or.inl hi)
  simp only [handle, onInitialize] at hs
  split at hs
  · cases hs
  · rw [if_pos (by cases h : s.state <;> simp_all [LState.rank])] at hs
    simp only [Option.some.injEq, Prod.mk.injEq] at hs
    obtain ⟨rfl, rfl⟩ := hs
    exact ⟨rfl, rfl, rfl, rfl⟩

/-- C38: a `shutdown` that is refused, because the server is not initialised, changes nothing, and one that is
accepted comes after `initialized`. -/
theorem C38_shutdown (rs : List LReq) (s s' : LServer) (a : LAns) (h : after .init rs = some s)
    (hs : handle s .shutdown = some (s', a)) :
    (a = .refused → s' = s) ∧ (a = .ok ↔ .initialized ∈ rs) := by
  have key : ∀ (rs : List LReq) (s0 s1 : LServer), after s0 rs = some s1 →
      (s1.state = .initialized ↔ (.initialized ∈ rs ∨ s0.state = .initialized)) := by
    intro rs
    induction rs with
    | nil =>
      intro s0 s1 h
      simp only [after, Option.some.injEq] at h
      subst h
      simp
    | cons q rs ih =>
      intro s0 s1 h
      simp only [after] at h
      split at h
      · cases h
      · rename_i s2 a2 heq
        rw [ih s2 s1 h]
        cases q with
        | start f r =>
          have : s2.state = .initialized ↔ s0.state = .initialized := by
            simp only [handle, onInitialize] at heq
            split at heq
            · cases heq
            · split at heq
              · simp only [Option.some.injEq, Prod.mk.injEq] at heq; rw [← heq.1]
              · rename_i hr
                have hne : s0.state ≠ .initialized := by
                  intro hc; rw [hc] at hr; simp [LState.rank] at hr
                split at heq
                · simp only [Option.some.injEq, Prod.mk.injEq] at heq; rw [← heq.1]; simp [hne]
                · split at heq <;>
                  · simp only [Option.some.injEq, Prod.mk.injEq] at heq; rw [← heq.1]; simp [hne]
          simp [this]
        | initialized =>
          have : s2.state = .initialized := by
            simp only [handle, onInitialized] at heq
            split at heq
            · cases heq
            · simp only [Option.some.injEq, Prod.mk.injEq] at heq; rw [← heq.1]
          simp [this]
        | shutdown =>
          have : s2.state = s0.state := by
            simp only [handle, onShutdown] at heq
            split at heq
            · cases heq
            · split at heq <;>
              · simp only [Option.some.injEq, Prod.mk.injEq] at heq; rw [← heq.1]
          simp [this]
  have hst := key rs .init s h
  simp only [handle, onShutdown] at hs
  split at hs
  · cases hs
  · split at hs
    · rename_i hr
      simp only [Option.some.injEq, Prod.mk.injEq] at hs
      obtain ⟨rfl, rfl⟩ := hs
      refine ⟨fun _ => rfl, ⟨by simp, fun hm => ?_⟩⟩
      rw [hst.mpr (Or.inl hm)] at hr
      simp [LState.rank] at hr
    · rename_i hr
      simp only [Option.some.injEq, Prod.mk.injEq] at hs
      obtain ⟨rfl, rfl⟩ := hs
      refine ⟨by simp, ⟨fun _ => ?_, by simp⟩⟩
      have hs2 : s.state = .initialized := by
        cases h : s.state <;> simp_all [LState.rank]
      rcases hst.mp hs2 with h1 | h1
      · exact h1
      · cases h1

/-- C38 does not hold: after a second `initialize` no life-cycle message is ever answered again, whatever was sent
before and whatever is sent after it. -/
theorem C38_false_second_initialize (rs1 rs2 : List LReq) (s : LServer) (h : after .init rs1 = some s)
    (hi : 0 < inits rs1) (f : List Bytes) (r : Bytes) (x : Option LAns)
    (hx : x ∈ (answers .init (rs1 ++ .start f r :: rs2)).drop (rs1.length + 1)) : x = none := by
  have happ : ∀ (rs : List LReq) (s0 s1 : LServer) (q : List LReq), after s0 rs = some s1 →
      ∃ l, l.length = rs.length ∧ answers s0 (rs ++ q) = l ++ answers s1 q := by
    intro rs
    induction rs with
    | nil =>
      intro s0 s1 q h
      simp only [after, Option.some.injEq] at h
      subst h
      exact ⟨[], rfl, rfl⟩
    | cons y rs ih =>
      intro s0 s1 q h
      simp only [after] at h
      split at h
      · cases h
      · rename_i s2 a2 heq
        obtain ⟨l, hl, he⟩ := ih s2 s1 q h
        refine ⟨some a2 :: l, by simp [hl], ?_⟩
        simp only [List.cons_append, answers, heq, he]
  obtain ⟨l, hl, he⟩ := happ rs1 .init s (.start f r :: rs2) h
  rw [he, ← hl, List.drop_append] at hx
  simp only [Nat.add_sub_cancel_left] at hx
  rw [List.drop_of_length_le (by omega)] at hx
  simp only [List.nil_append] at hx
  simp only [answers] at hx
  split at hx
  · simp only [List.map_cons, List.drop_succ_cons, List.drop_zero, List.mem_map] at hx
    obtain ⟨-, -, rfl⟩ := hx
    rfl
  · rename_i s' a heq
    simp only [List.drop_succ_cons, List.drop_zero] at hx
    have hlock : s'.locked = true := by
      have href := (C38_second_refused rs1 s h hi f r s' a heq).1
      subst href
      have hst : s.state ≠ .created := by
        intro hc
        have := C38_second_refused rs1 s h hi [b!"x"] r
        simp only [handle, onInitialize, hc, LState.rank] at this heq
        split at heq
        · cases heq
        · rename_i hl'
          have := (this { s with state := .initializing, pending := [b!"x"] } .ok (by simp [hl'])).1
          cases this
      simp only [handle, onInitialize] at heq
      split at heq
      · cases heq
      · rw [if_pos (by cases h : s.state <;> simp_all [LState.rank])] at heq
        simp only [Option.some.injEq, Prod.mk.injEq] at heq
        rw [← heq.1]
    cases rs2 with
    | nil => simp [answers] at hx
    | cons y rs2 =>
      have : handle s' y = none := by
        cases y <;> simp [handle, onInitialize, onInitialized, onShutdown, hlock]
      simp only [answers, this, List.map_cons, List.mem_cons, List.mem_map] at hx
      rcases hx with rfl | ⟨-, -, rfl⟩ <;> rfl

/-- C38 does not hold: an `initialize` that is refused because it names no folder still counts, and a correct one after
it is refused. -/
theorem C38_false_single_file :
    answers .init [.start [] [], .start [b!"file:///a"] [], .initialized] = [some .refused, some .refused, none] := by
  decide +kernel

/-- The folders that an `initialize` names: those in the list, or else the root. -/
def namedFolders (folders : List Bytes) (root : Bytes) : List Bytes :=
  if folders ≠ [] then folders else if root ≠ [] then [root] else []

/-- C38: after `initialize` and `initialized`, with any number of shutdowns before, between and after them, the server
serves the folders named in `initialize`, in their order, and no others. -/
theorem C38_folders (a b d : Nat) (folders : List Bytes) (root : Bytes) (s : LServer)
    (h : after .init (List.replicate a .shutdown ++ .start folders root :: (List.replicate b .shutdown ++
      .initialized :: List.replicate d .shutdown)) = some s) :
    s.state = .initialized ∧ s.views = namedFolders folders root := by
  have hshut : ∀ (n : Nat) (s0 : LServer) (rest : List LReq), s0.locked = false →
      ∃ s1, after s0 (List.replicate n .shutdown ++ rest) = after s1 rest ∧ s1.locked = false ∧ s1.state = s0.state ∧
        s1.views = s0.views ∧ s1.pending = s0.pending := by
    intro n
    induction n with
    | zero => intro s0 rest hl; exact ⟨s0, rfl, hl, rfl, rfl, rfl⟩
    | succ n ih =>
      intro s0 rest hl
      rw [List.replicate_succ, List.cons_append]
      simp only [after, handle, onShutdown, hl, Bool.false_eq_true, if_false]
      by_cases hr : s0.state.rank < LState.initialized.rank
      · simp only [hr, if_true]; exact ih s0 rest hl
      · obtain ⟨s1, h1, h2, h3, h4, h5⟩ := ih { s0 with closed := s0.closed + 1 } rest hl
        simp only [hl] at h1
        simp only [hr, if_false]
        exact ⟨s1, h1, h2, h3, h4, h5⟩
  obtain ⟨s1, e1, l1, t1, v1, p1⟩ := hshut a .init (.start folders root :: (List.replicate b .shutdown ++
      .initialized :: List.replicate d .shutdown)) rfl
  rw [e1] at h
  have hstart : ∃ s2 x, handle s1 (.start folders root) = some (s2, x) ∧ s2.locked = false ∧ s2.views = [] ∧
      s2.pending = namedFolders folders root := by
    have hr : ¬ LState.initializing.rank ≤ s1.state.rank := by rw [t1]; decide
    simp only [handle, onInitialize, l1, Bool.false_eq_true, if_false, hr, namedFolders]
    split
    · exact ⟨_, _, rfl, rfl, v1, rfl⟩
    · split
      · exact ⟨_, _, rfl, rfl, v1, rfl⟩
      · exact ⟨_, _, rfl, rfl, v1, rfl⟩
  obtain ⟨s2, x, e2, l2, v2, p2⟩ := hstart
  simp only [after, e2] at h
  obtain ⟨s3, e3, l3, t3, v3, p3⟩ := hshut b s2 (.initialized :: List.replicate d .shutdown) l2
  rw [e3] at h
  simp only [after, handle, onInitialized, l3, Bool.false_eq_true, if_false] at h
  obtain ⟨s5, e5, l5, t5, v5, p5⟩ := hshut d { s3 with state := .initialized, views := s3.views ++ s3.pending } [] l3
  simp only [List.append_nil, l3] at e5
  rw [e5] at h
  simp only [after, Option.some.injEq] at h
  subst h
  refine ⟨t5, ?_⟩
  rw [v5]
  simp only [v3, p3, v2, p2, List.nil_append]

-- the usual sequence, with two shutdowns
example : answers .init [.shutdown, .start [b!"file:///a"] [], .initialized, .shutdown, .shutdown] =
    [some .refused, some .ok, some .ok, some .ok, some .ok] := by decide +kernel
example : inits [.shutdown, .start [b!"file:///a"] [], .initialized, .shutdown, .shutdown] ≤ 1 ∧
    ∀ a b, [.shutdown, .start [b!"file:///a"] [], .initialized, .shutdown, .shutdown] = a ++ LReq.initialized :: b →
      inits b = 0 := by
  refine ⟨by decide +kernel, ?_⟩
  intro a b h
  have hb : b <:+ [LReq.shutdown, .start [b!"file:///a"] [], .initialized, .shutdown, .shutdown] :=
    ⟨a ++ [.initialized], by rw [h]; simp⟩
  match a, h with
  | [], h => simp at h
  | [_], h => simp at h
  | [_, _], h => simp at h; rw [← h.2.2]; decide
  | [_, _, _], h => simp at h
  | [_, _, _, _], h => simp at h
  | _ :: _ :: _ :: _ :: _ :: l, h => simp at h
example : ∃ s, after .init [.start [] b!"file:///a", .initialized] = some s ∧ s.views = [b!"file:///a"] :=
  ⟨⟨false, .initialized, [b!"file:///a"], [b!"file:///a"], 0⟩, by decide +kernel, rfl⟩

end Verif.Server
