import Verif.Rpc.Writers
import Verif.Rpc.PropsStream

/-! C57: messages that are sent at the same time do not mix. -/

namespace Verif.Rpc

/-- The messages of `l` that goroutine `i` sent. -/
def sentBy (i : Nat) (l : List (Nat × Bytes)) : List Bytes := (l.filter (·.1 = i)).map (·.2)

structure OutInv (todo : List (List Bytes)) (st : Out) (l : List (Nat × Bytes)) : Prop where
  bytes : st.out ++ st.cur = (l.map fun e => write e.2).flatten
  order : ∀ i, sentBy i l ++ st.todo.getD i [] = todo.getD i []
  idle : st.lock = none → st.cur = []

theorem outInv_run (todo : List (List Bytes)) (evs : List OutEv) (hf : ∀ e ∈ evs, e.isFail = false) (st : Out)
    (l : List (Nat × Bytes)) (h : OutInv todo st l) (st' : Out) (hr : st.run evs = some st') :
    ∃ l', l <+: l' ∧ OutInv todo st' l' := by
  induction evs generalizing st l with
  | nil =>
    simp only [Out.run, Option.some.injEq] at hr
    subst hr
    exact ⟨l, List.prefix_rfl, h⟩
  | cons e es ih =>
    simp only [Out.run] at hr
    cases hs : st.step e with
    | none => rw [hs] at hr; cases hr
    | some st1 =>
      rw [hs] at hr
      change st1.run es = some st' at hr
      have hes : ∀ e ∈ es, e.isFail = false := fun x hx => hf x (List.mem_cons_of_mem _ hx)
      cases e with
      | acquire i =>
        simp only [Out.step] at hs
        split at hs
        · rename_i m ms hlock htodo
          simp only [Option.some.injEq] at hs
          subst hs
          suffices hs : OutInv todo { st with todo := st.todo.set i ms, lock := some i, cur := write m }
              (l ++ [(i, m)]) by
            obtain ⟨l', hl', hinv⟩ := ih hes _ _ hs hr
            exact ⟨l', (List.prefix_append _ _).trans hl', hinv⟩
          refine ⟨?_, ?_, ?_⟩
          · have := h.bytes
            rw [h.idle hlock, List.append_nil] at this
            simp only [List.map_append, List.map_cons, List.map_nil, List.flatten_append, List.flatten_cons,
              List.flatten_nil, List.append_nil, ← this]
          · intro k
            have := h.order k
            have hi : i < st.todo.length := by
              by_contra hc
              rw [List.getD_eq_getElem?_getD, List.getElem?_eq_none (by omega)] at htodo
              cases htodo
            by_cases hk : k = i
            · subst hk
              rw [htodo] at this
              simp only [sentBy, List.filter_append, List.map_append] at this ⊢
              rw [← this]
              simp [hi]
            · have hk' : ¬ i = k := fun hh => hk hh.symm
              simp only [sentBy, List.filter_append, List.map_append] at this ⊢
              have hg : (st.todo.set i ms).getD k [] = st.todo.getD k [] := by
                simp [List.getD_eq_getElem?_getD, hk']
              rw [hg]
              simpa [hk'] using this
          · simp
        · cases hs
      | put i =>
        simp only [Out.step] at hs
        split at hs
        · rename_i c cs hcur
          split at hs
          · rename_i hlock
            simp only [Option.some.injEq] at hs
            subst hs
            refine ih hes _ l ?_ hr
            refine ⟨?_, h.order, ?_⟩
            · have := h.bytes
              rw [hcur] at this
              simpa using this
            · intro hn; rw [hlock] at hn; cases hn
          · cases hs
        · cases hs
      | release i =>
        simp only [Out.step] at hs
        split at hs
        · rename_i hc
          simp only [Option.some.injEq] at hs
          subst hs
          refine ih hes _ l ?_ hr
          exact ⟨h.bytes, h.order, fun _ => hc.2⟩
        · cases hs
      | fail i =>
        have := hf (.fail i) (by simp)
        cases this

theorem outInv_init (todo : List (List Bytes)) : OutInv todo (Out.init todo) [] :=
  ⟨rfl, fun i => by simp [sentBy, Out.init], fun _ => rfl⟩

/-- C57: at every moment of every schedule of any number of goroutines, what has been put out is an initial piece of
a sequence of whole frames, in which the messages of each goroutine are in their order; while nobody is writing
there is no incomplete frame. -/
theorem C57_frames (todo : List (List Bytes)) (evs : List OutEv) (hf : ∀ e ∈ evs, e.isFail = false) (st : Out)
    (h : (Out.init todo).run evs = some st) :
    ∃ l : List (Nat × Bytes), st.out <+: (l.map fun e => write e.2).flatten ∧
      (∀ i, sentBy i l ++ st.todo.getD i [] = todo.getD i []) ∧
      (st.lock = none → st.out = (l.map fun e => write e.2).flatten) := by
  obtain ⟨l, -, hinv⟩ := outInv_run todo evs hf _ [] (outInv_init todo) st h
  refine ⟨l, ⟨st.cur, hinv.bytes⟩, hinv.order, fun hl => ?_⟩
  rw [← hinv.bytes, hinv.idle hl, List.append_nil]

/-- C57: when all goroutines are done, the other side reads all messages, each one whole, those of each goroutine in
their order, and no others. -/
theorem C57_received_partial (todo : List (List Bytes)) (hm : ∀ i, ∀ m ∈ todo.getD i [], m ≠ [] ∧ m.length < 2 ^ 31)
    (evs : List OutEv) (hf : ∀ e ∈ evs, e.isFail = false) (st : Out)
    (h : (Out.init todo).run evs = some st) (hl : st.lock = none) (hd : ∀ i, st.todo.getD i [] = []) :
    ∃ l : List (Nat × Bytes), (∀ i, sentBy i l = todo.getD i []) ∧
      ∀ fuel, l.length ≤ fuel → readAll fuel st.out = l.map (·.2) := by
  obtain ⟨l, -, h2, h3⟩ := C57_frames todo evs hf st h
  have ho : ∀ i, sentBy i l = todo.getD i [] := fun i => by have := h2 i; rwa [hd i, List.append_nil] at this
  refine ⟨l, ho, fun fuel hfu => ?_⟩
  have := C33_roundtrip_partial (l.map (·.2)) ?_ fuel (by simpa using hfu)
  · rw [List.map_map] at this
    rw [h3 hl]
    exact this
  · intro m hm'
    simp only [List.mem_map] at hm'
    obtain ⟨⟨i, x⟩, hx, rfl⟩ := hm'
    refine hm i _ ?_
    rw [← ho i]
    simp only [sentBy, List.mem_map, List.mem_filter, decide_eq_true_eq]
    exact ⟨(i, x), ⟨hx, rfl⟩, rfl⟩

/-- C57: no schedule, not even with failures, makes the goroutines block each other: as long as there is something
to send, some goroutine can go on. -/
theorem C57_progress (todo : List (List Bytes)) (evs : List OutEv) (st : Out)
    (_h : (Out.init todo).run evs = some st) (hw : st.lock ≠ none ∨ ∃ i, st.todo.getD i [] ≠ []) :
    ∃ e, e.isFail = false ∧ (st.step e).isSome = true := by
  cases hl : st.lock with
  | none =>
    obtain ⟨i, hi⟩ := hw.resolve_left (by simp [hl])
    cases ht : st.todo.getD i [] with
    | nil => exact absurd ht hi
    | cons m ms => exact ⟨.acquire i, rfl, by simp only [Out.step, hl, ht]; rfl⟩
  | some i =>
    cases hc : st.cur with
    | nil => exact ⟨.release i, rfl, by simp only [Out.step, hl, hc]; rfl⟩
    | cons c cs => exact ⟨.put i, rfl, by simp only [Out.step, hl, hc]; rfl⟩

/-- Two goroutines with a message each. -/
def demoTodo : List (List Bytes) := [[b!"ab"], [b!"c"]]

/-- C57 does not hold once a write fails: the rest of the frame is missing, the next message is sent all the same,
and the reader takes its beginning for the missing bytes. -/
theorem C57_false_failed_write :
    ∃ evs out, (Out.init demoTodo).run evs = some ⟨[[], []], none, [], out⟩ ∧ readAll 9 out = [b!"aC"] :=
  ⟨[.acquire 0] ++ List.replicate 22 (.put 0) ++ [.fail 0, .acquire 1] ++ List.replicate 22 (.put 1) ++ [.release 1],
    b!"Content-Length: 2\r\n\r\naContent-Length: 1\r\n\r\nc", by decide +kernel, by decide +kernel⟩

-- a schedule that meets the hypotheses of `C57_received_partial`
example : ∃ evs out, (Out.init demoTodo).run evs = some ⟨[[], []], none, [], out⟩ ∧ (∀ e ∈ evs, e.isFail = false) ∧
    readAll 9 out = [b!"c", b!"ab"] :=
  ⟨[.acquire 1] ++ List.replicate 22 (.put 1) ++ [.release 1, .acquire 0] ++ List.replicate 23 (.put 0) ++ [.release 0],
    b!"Content-Length: 1\r\n\r\ncContent-Length: 2\r\n\r\nab", by decide +kernel, by decide, by decide +kernel⟩

end Verif.Rpc
