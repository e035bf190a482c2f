import Verif.Server.Publish

/-! C76: the diagnostics that the editor shows. -/

namespace Verif.Server.Publish

variable {D I M : Type}

/-- The version of a document that was sent last, from the events. -/
def latest (uri : Bytes) : List (Ev D I) → Option D
  | [] => none
  | .edit u d :: evs => match latest uri evs with
    | some d' => some d'
    | none => if u = uri then some d else none
  | _ :: evs => latest uri evs

/-- The index after the events. -/
def indexAfter (i : I) : List (Ev D I) → I
  | [] => i
  | .index j :: evs => indexAfter j evs
  | _ :: evs => indexAfter i evs

/-- What happens, if handlers and timer functions are not interrupted. -/
inductive Act (D I : Type)
  | edit (uri : Bytes) (d : D)
  | tick
  | index (i : I)

def Act.events : Act D I → List (Ev D I)
  | .edit uri d => [.edit uri d, .send]
  | .tick => [.fire, .finish 0]
  | .index i => [.index i]

def events (as : List (Act D I)) : List (Ev D I) := as.flatMap Act.events

/-- The action is an edit of that document. -/
def Act.edits (uri : Bytes) : Act D I → Prop
  | .edit u _ => u = uri
  | _ => False

/-- The action only changes the index. -/
def Act.isIndex : Act D I → Prop
  | .index _ => True
  | _ => False

/-! ### lemmas -/

theorem run_append (ch : Checks D I M) (st : St D I M) (a b : List (Ev D I)) :
    run ch st (a ++ b) = run ch (run ch st a) b := by simp [run]

theorem run_act_idle (ch : Checks D I M) (st : St D I M) (a : Act D I) (h : st.sending = none ∧ st.running = []) :
    (run ch st a.events).sending = none ∧ (run ch st a.events).running = [] := by
  obtain ⟨h1, h2⟩ := h
  cases a with
  | edit u d => simp [Act.events, run, step, h1, h2]
  | tick => cases ht : st.timer <;> simp [Act.events, run, step, h1, h2, ht]
  | index i => simp [Act.events, run, step, h1, h2]

theorem events_idle (ch : Checks D I M) (st : St D I M) (as : List (Act D I)) (h : st.sending = none ∧ st.running = []) :
    (run ch st (events as)).sending = none ∧ (run ch st (events as)).running = [] := by
  induction as generalizing st with
  | nil => exact h
  | cons a as ih =>
    rw [events, List.flatMap_cons, run_append]
    exact ih _ (run_act_idle ch st a h)

theorem shown_append (st : St D I M) (uri : Bytes) (u : Bytes) (m : List M) (s : St D I M)
    (hs : s.sent = st.sent ++ [(u, m)]) : s.shown uri = if u = uri then some m else st.shown uri := by
  unfold St.shown
  rw [hs, List.filter_append]
  by_cases h : u = uri <;> simp [h]

theorem shown_congr (st s : St D I M) (uri : Bytes) (hs : s.sent = st.sent) : s.shown uri = st.shown uri := by
  unfold St.shown; rw [hs]

theorem act_edit (ch : Checks D I M) (st : St D I M) (u : Bytes) (d : D) (h : st.sending = none) (uri : Bytes) :
    (run ch st (Act.edit u d).events).shown uri = (if u = uri then some (ch.quick d) else st.shown uri) ∧
    (run ch st (Act.edit u d).events).timer = some (u, d) ∧ (run ch st (Act.edit u d).events).index = st.index := by
  refine ⟨?_, by simp [Act.events, run, step, h], by simp [Act.events, run, step, h]⟩
  exact shown_append st uri u _ _ (by simp [Act.events, run, step, h])

theorem act_tick_some (ch : Checks D I M) (st : St D I M) (u : Bytes) (d : D) (h : st.timer = some (u, d))
    (hr : st.running = []) (uri : Bytes) :
    (run ch st Act.tick.events).shown uri = (if u = uri then some (ch.all st.index d) else st.shown uri) ∧
    (run ch st Act.tick.events).timer = none ∧ (run ch st Act.tick.events).index = st.index := by
  refine ⟨?_, by simp [Act.events, run, step, h, hr], by simp [Act.events, run, step, h, hr]⟩
  exact shown_append st uri u _ _ (by simp [Act.events, run, step, h, hr])

theorem act_tick_none (ch : Checks D I M) (st : St D I M) (h : st.timer = none) (hr : st.running = []) :
    run ch st Act.tick.events = st := by
  simp [Act.events, run, step, h, hr]

/-- After an edit of the document and no other. -/
theorem after_edit (ch : Checks D I M) (st : St D I M) (hidle : st.sending = none ∧ st.running = []) (uri : Bytes) (d : D)
    (as : List (Act D I)) (hno : ∀ a ∈ as, ¬ a.edits uri)
    (hs : st.shown uri = some (ch.quick d) ∨ ∃ i, st.shown uri = some (ch.all i d))
    (ht : ∀ u e, st.timer = some (u, e) → u = uri → e = d) :
    (run ch st (events as)).shown uri = some (ch.quick d) ∨ ∃ i, (run ch st (events as)).shown uri = some (ch.all i d) := by
  induction as generalizing st with
  | nil => exact hs
  | cons a as ih =>
    rw [events, List.flatMap_cons, run_append]
    have hidle' := run_act_idle ch st a hidle
    have hno' : ∀ a ∈ as, ¬ a.edits uri := fun b hb => hno b (List.mem_cons_of_mem _ hb)
    cases a with
    | edit u e =>
      have hu : u ≠ uri := hno _ List.mem_cons_self
      obtain ⟨h1, h2, _⟩ := act_edit ch st u e hidle.1 uri
      rw [if_neg hu] at h1
      refine ih _ hidle' hno' (by rw [h1]; exact hs) ?_
      intro v f hv hvu
      rw [h2] at hv
      injection hv with hv
      injection hv with hv1 _
      exact absurd (hv1.trans hvu) hu
    | tick =>
      cases hti : st.timer with
      | none =>
        rw [act_tick_none ch st hti hidle.2]
        rw [act_tick_none ch st hti hidle.2] at hidle'
        exact ih _ hidle' hno' hs ht
      | some f =>
        obtain ⟨u, e⟩ := f
        obtain ⟨h1, h2, _⟩ := act_tick_some ch st u e hti hidle.2 uri
        refine ih _ hidle' hno' ?_ (by rw [h2]; nofun)
        rw [h1]
        split
        · rename_i hu
          rw [ht u e hti hu]
          exact Or.inr ⟨_, rfl⟩
        · exact hs
    | index i => exact ih _ hidle' hno' hs ht

theorem index_only (ch : Checks D I M) (st : St D I M) (as : List (Act D I)) (h : ∀ a ∈ as, a.isIndex) (uri : Bytes) :
    (run ch st (events as)).shown uri = st.shown uri ∧ (run ch st (events as)).timer = st.timer ∧
      (run ch st (events as)).index = indexAfter st.index (events as) := by
  induction as generalizing st with
  | nil => exact ⟨rfl, rfl, rfl⟩
  | cons a as ih =>
    cases a with
    | edit _ _ => exact (h _ List.mem_cons_self).elim
    | tick => exact (h _ List.mem_cons_self).elim
    | index i => exact ih (step ch st (.index i)) fun b hb => h b (List.mem_cons_of_mem _ hb)

/-- Once the timer is spent, or set by other documents, the message for a document stays. -/
theorem settled (ch : Checks D I M) (st : St D I M) (hidle : st.sending = none ∧ st.running = []) (uri : Bytes)
    (as : List (Act D I)) (hno : ∀ a ∈ as, ¬ a.edits uri) (ht : ∀ u e, st.timer = some (u, e) → u ≠ uri) :
    (run ch st (events as)).shown uri = st.shown uri := by
  induction as generalizing st with
  | nil => rfl
  | cons a as ih =>
    rw [events, List.flatMap_cons, run_append]
    have hidle' := run_act_idle ch st a hidle
    have hno' : ∀ a ∈ as, ¬ a.edits uri := fun b hb => hno b (List.mem_cons_of_mem _ hb)
    cases a with
    | edit u e =>
      have hu : u ≠ uri := hno _ List.mem_cons_self
      obtain ⟨h1, h2, _⟩ := act_edit ch st u e hidle.1 uri
      rw [if_neg hu] at h1
      rw [← h1]
      refine ih _ hidle' hno' ?_
      intro v f hv
      rw [h2] at hv
      injection hv with hv
      injection hv with hv1 _
      exact hv1 ▸ hu
    | tick =>
      cases hti : st.timer with
      | none =>
        rw [act_tick_none ch st hti hidle.2]
        exact ih _ hidle hno' ht
      | some f =>
        obtain ⟨u, e⟩ := f
        obtain ⟨h1, h2, _⟩ := act_tick_some ch st u e hti hidle.2 uri
        rw [if_neg (ht u e hti)] at h1
        rw [← h1]
        exact ih _ hidle' hno' (by rw [h2]; nofun)
    | index i => exact ih _ hidle' hno' ht

/-! ### C76 -/

/-- Whatever is sent for a document are diagnostics of a version of this document, in every schedule. -/
theorem C76_own_versions (ch : Checks D I M) (i : I) (evs : List (Ev D I)) (uri : Bytes) (ms : List M)
    (h : (uri, ms) ∈ (run ch (start i) evs).sent) :
    ∃ d, .edit uri d ∈ evs ∧ (ms = ch.quick d ∨ ∃ j, ms = ch.all j d) := by
  have key : ∀ (evs past : List (Ev D I)) (st : St D I M),
      (∀ u d, st.sending = some (u, d) → .edit u d ∈ past) → (∀ u d, st.timer = some (u, d) → .edit u d ∈ past) →
      (∀ u d, (u, d) ∈ st.running → .edit u d ∈ past) →
      (∀ u ms, (u, ms) ∈ st.sent → ∃ d, .edit u d ∈ past ∧ (ms = ch.quick d ∨ ∃ j, ms = ch.all j d)) →
      ∀ u ms, (u, ms) ∈ (run ch st evs).sent → ∃ d, .edit u d ∈ past ++ evs ∧ (ms = ch.quick d ∨ ∃ j, ms = ch.all j d) := by
    intro evs
    induction evs with
    | nil => intro past st _ _ _ h4 u ms h; simpa using h4 u ms h
    | cons ev evs ih =>
      intro past st h1 h2 h3 h4 u ms h
      have hm : ∀ u d, (Ev.edit u d : Ev D I) ∈ past → .edit u d ∈ past ++ [ev] := fun _ _ h => List.mem_append_left _ h
      rw [show past ++ ev :: evs = (past ++ [ev]) ++ evs by simp]
      have hsent : ∀ u ms, (u, ms) ∈ st.sent →
          ∃ d, .edit u d ∈ past ++ [ev] ∧ (ms = ch.quick d ∨ ∃ j, ms = ch.all j d) := fun u ms h =>
        (h4 u ms h).imp fun d hd => ⟨hm _ _ hd.1, hd.2⟩
      refine ih (past ++ [ev]) (step ch st ev) ?_ ?_ ?_ ?_ u ms h
      all_goals clear h ih
      · intro u d hu
        cases ev with
        | edit v e =>
          simp only [step] at hu
          split at hu
          · exact hm _ _ (h1 u d hu)
          · injection hu with hu; injection hu with a b; subst a b; simp
        | send => simp only [step] at hu; split at hu <;> first | (cases hu; done) | exact hm _ _ (h1 u d hu)
        | fire => simp only [step] at hu; split at hu <;> exact hm _ _ (h1 u d hu)
        | finish n => simp only [step] at hu; split at hu <;> exact hm _ _ (h1 u d hu)
        | index j => exact hm _ _ (h1 u d hu)
      · intro u d hu
        cases ev with
        | edit v e =>
          simp only [step] at hu
          split at hu
          · exact hm _ _ (h2 u d hu)
          · injection hu with hu; injection hu with a b; subst a b; simp
        | send => simp only [step] at hu; split at hu <;> exact hm _ _ (h2 u d hu)
        | fire => simp only [step] at hu; split at hu <;> first | (cases hu; done) | exact hm _ _ (h2 u d hu)
        | finish n => simp only [step] at hu; split at hu <;> exact hm _ _ (h2 u d hu)
        | index j => exact hm _ _ (h2 u d hu)
      · intro u d hu
        cases ev with
        | edit v e => simp only [step] at hu; split at hu <;> exact hm _ _ (h3 u d hu)
        | send => simp only [step] at hu; split at hu <;> exact hm _ _ (h3 u d hu)
        | fire =>
          simp only [step] at hu
          split at hu
          · rename_i f hf
            rcases List.mem_append.1 hu with hu | hu
            · exact hm _ _ (h3 u d hu)
            · rw [List.mem_singleton] at hu
              exact hm _ _ (h2 u d (by rw [hf, hu]))
          · exact hm _ _ (h3 u d hu)
        | finish n =>
          simp only [step] at hu
          split at hu
          · exact hm _ _ (h3 u d (List.mem_of_mem_eraseIdx hu))
          · exact hm _ _ (h3 u d hu)
        | index j => exact hm _ _ (h3 u d hu)
      · intro u ms hu
        cases ev with
        | edit v e => simp only [step] at hu; split at hu <;> exact hsent u ms hu
        | send =>
          simp only [step] at hu
          split at hu
          · rename_i v e hs
            rcases List.mem_append.1 hu with hu | hu
            · exact hsent u ms hu
            · rw [List.mem_singleton] at hu
              injection hu with a b
              subst a b
              exact ⟨e, hm _ _ (h1 _ _ hs), Or.inl rfl⟩
          · exact hsent u ms hu
        | fire => simp only [step] at hu; split at hu <;> exact hsent u ms hu
        | finish n =>
          simp only [step] at hu
          split at hu
          · rename_i v e hs
            rcases List.mem_append.1 hu with hu | hu
            · exact hsent u ms hu
            · rw [List.mem_singleton] at hu
              injection hu with a b
              subst a b
              exact ⟨e, hm _ _ (h3 _ _ (List.mem_of_getElem? hs)), Or.inr ⟨_, rfl⟩⟩
          · exact hsent u ms hu
        | index j => exact hsent u ms hu
  simpa using key evs [] (start i) nofun nofun nofun nofun uri ms h

/-- The diagnostics shown for a document are always those of its latest version, with or without deprecations. Missing:
schedules in which a timer function is still running when a document is changed (`C76_false_stale`), and that the
deprecations are there (`C76_false_two`). -/
theorem C76_current_partial (ch : Checks D I M) (i : I) (before after : List (Act D I)) (uri : Bytes) (d : D)
    (hno : ∀ a ∈ after, ¬ a.edits uri) :
    let st := run ch (start i) (events (before ++ .edit uri d :: after))
    st.shown uri = some (ch.quick d) ∨ ∃ j, st.shown uri = some (ch.all j d) := by
  intro st
  have hidle := events_idle ch (start i) before ⟨rfl, rfl⟩
  obtain ⟨h1, h2, _⟩ := act_edit ch _ uri d hidle.1 uri
  have : st = run ch (run ch (run ch (start i) (events before)) (Act.edit uri d).events) (events after) := by
    simp only [st, events, List.flatMap_append, List.flatMap_cons, run_append]
  rw [this]
  refine after_edit ch _ (run_act_idle ch _ _ hidle) uri d after hno (Or.inl ?_) ?_
  · rw [h1, if_pos rfl]
  · intro u e hu _
    rw [h2] at hu
    injection hu with hu
    injection hu with _ b
    exact b.symm

/-- If nothing but the index changes for two seconds after a document was changed, the diagnostics shown for it are all
those of its latest version, and stay there until it is changed again. Missing as in `C76_current_partial`; the
deprecations are those of the index at that time. -/
theorem C76_all_partial (ch : Checks D I M) (i : I) (before between after : List (Act D I)) (uri : Bytes) (d : D)
    (hidx : ∀ a ∈ between, a.isIndex) (hno : ∀ a ∈ after, ¬ a.edits uri) :
    (run ch (start i) (events (before ++ .edit uri d :: between ++ .tick :: after))).shown uri =
      some (ch.all (run ch (start i) (events (before ++ .edit uri d :: between))).index d) := by
  have hidle := events_idle ch (start i) before ⟨rfl, rfl⟩
  obtain ⟨_, h2, _⟩ := act_edit ch _ uri d hidle.1 uri
  have hidle1 := run_act_idle ch _ (.edit uri d) hidle
  obtain ⟨_, k2, k3⟩ := index_only ch (run ch (run ch (start i) (events before)) (Act.edit uri d).events) between hidx uri
  have hidle2 := events_idle ch _ between hidle1
  rw [h2] at k2
  obtain ⟨t1, t2, _⟩ := act_tick_some ch _ uri d k2 hidle2.2 uri
  rw [if_pos rfl] at t1
  have e1 : run ch (start i) (events (before ++ .edit uri d :: between)) =
      run ch (run ch (run ch (start i) (events before)) (Act.edit uri d).events) (events between) := by
    simp only [events, List.flatMap_append, List.flatMap_cons, run_append]
  have e2 : run ch (start i) (events (before ++ .edit uri d :: between ++ .tick :: after)) =
      run ch (run ch (run ch (run ch (run ch (start i) (events before)) (Act.edit uri d).events) (events between))
        Act.tick.events) (events after) := by
    simp only [events, List.flatMap_append, List.flatMap_cons, run_append, List.append_assoc, List.cons_append]
  rw [e1, e2, settled ch _ (run_act_idle ch _ _ hidle2) uri after hno (by rw [t2]; nofun), t1]

/-! ### examples -/

/-- A version is its number; the quick diagnostic of version `n` is `n`, the deprecations are `100 + n` plus a number from
the index. -/
def demo : Checks Nat Nat Nat := ⟨fun d => [d], fun i d => [100 * i + d]⟩

/-- The theorems apply: two versions of `a`, then two seconds, then another document. -/
example : (run demo (start 1) (events [.edit b!"a" 1, .edit b!"a" 2, .index 3, .tick, .edit b!"b" 7])).shown b!"a" =
    some [2, 302] := by decide +kernel

example : (run demo (start 1) (events [.edit b!"a" 1, .edit b!"a" 2, .index 3, .tick, .edit b!"b" 7])).shown b!"a" =
    some (demo.all 3 2) :=
  C76_all_partial demo 1 [.edit b!"a" 1] [.index 3] [.edit b!"b" 7] b!"a" 2
    (by intro a h; simp at h; subst h; trivial) (by intro a h; simp at h; subst h; simp [Act.edits])

/-- Two documents are opened within two seconds: the deprecations of the first are never shown, although everything has
come to rest. -/
theorem C76_false_two : ∃ evs : List (Ev Nat Nat), (run demo (start 1) evs).Quiet ∧
    latest b!"a" evs = some 1 ∧ (run demo (start 1) evs).shown b!"a" = some [1] ∧ demo.all 1 1 = [1, 101] :=
  ⟨events [.edit b!"a" 1, .edit b!"b" 2, .tick], ⟨by decide +kernel, by decide +kernel, by decide +kernel⟩,
    by decide +kernel, by decide +kernel, by decide +kernel⟩

/-- A timer function that is still running when the document is changed shows the diagnostics of the old version, also
once everything has come to rest. -/
theorem C76_false_stale : ∃ evs : List (Ev Nat Nat), (run demo (start 1) evs).Quiet ∧
    latest b!"a" evs = some 2 ∧ (run demo (start 1) evs).shown b!"a" = some [1, 101] :=
  ⟨[.edit b!"a" 1, .send, .fire, .edit b!"a" 2, .send, .fire, .finish 1, .finish 0],
    ⟨by decide +kernel, by decide +kernel, by decide +kernel⟩, by decide +kernel, by decide +kernel⟩

/-- A function is marked as deprecated in another file: the documents that use it are not checked again. -/
theorem C76_false_index : ∃ evs : List (Ev Nat Nat), (run demo (start 1) evs).Quiet ∧
    indexAfter 1 evs = 2 ∧ latest b!"a" evs = some 1 ∧ (run demo (start 1) evs).shown b!"a" ≠ some (demo.all 2 1) :=
  ⟨events [.edit b!"a" 1, .tick, .index 2, .tick], ⟨by decide +kernel, by decide +kernel, by decide +kernel⟩,
    by decide +kernel, by decide +kernel, by decide +kernel⟩

end Verif.Server.Publish
