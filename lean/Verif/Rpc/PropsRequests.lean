import Verif.Rpc.RequestLemmas

/-! C35 (every request is answered once) and C36 (requests start in the order of their arrival). -/

namespace Verif.Rpc

def Phase.rank : Phase → Nat
  | .queued => 0
  | .running => 1
  | .returning => 2
  | .finished => 3

/-- What one step does to one request. -/
theorem next_facts {r r' : Req} {e : Ev} {s : Bool} {n : Nat} (h : RInv r n) (hn : r.next e = some (r', s)) :
    (r.released = true → r'.released = true) ∧
    r.phase.rank ≤ r'.phase.rank ∧
    (r'.cancelled = true → r.cancelled = true ∨ e = .cancel e.index ∨ r'.phase = .finished) ∧
    (r'.state = .replied → r'.writing = none →
      (r.state = .replied ∧ r.writing = none) ∨ ∃ d, r.writing = some d ∧ s = (d || !r.cancelled)) ∧
    (e = .finish e.index → r'.phase = .finished) ∧
    (r'.state = .replied → r.state = .replied ∨ (∃ d, e = .reply e.index d) ∨ e = .ret e.index) ∧
    (∀ d, r.writing = some d → r'.writing = some d ∨ (r'.writing = none ∧ r'.state = .replied)) ∧
    (r'.released = true → r.released = true ∨ e = .parallel e.index ∨ (r.id ≠ none ∧ ∃ d, e = .reply e.index d) ∨
      (r.id ≠ none ∧ e = .ret e.index) ∨ e = .finish e.index) ∧
    (r.state = .replied → r'.state = .replied) := by
  cases e with
  | receive id => cases hn
  | start i =>
    simp only [Req.next] at hn
    split at hn
    · rename_i hq
      simp only [Option.some.injEq, Prod.mk.injEq] at hn
      obtain ⟨rfl, rfl⟩ := hn
      have hw := h.que.mp hq
      refine ⟨fun x => x, by simp [hq, Phase.rank], fun x => Or.inl x, by simp, by simp, by simp, ?_, fun x => Or.inl x,
        by simp [hw]⟩
      intro d hd
      exact absurd (h.wr (by rw [hd]; simp)) (by rw [hw]; simp)
    · cases hn
  | parallel i =>
    simp only [Req.next] at hn
    split at hn
    · rename_i hc
      obtain ⟨q, hq, h2⟩ := Option.map_eq_some_iff.mp hn
      simp only [Prod.mk.injEq] at h2
      obtain ⟨rfl, rfl⟩ := h2
      obtain ⟨r', g1, g2, g3, g4, g5, g6, g7, g8, g9⟩ := toParallel_inv h (by rw [hc.1]; simp)
      rw [hq] at g1
      simp only [Option.some.injEq] at g1
      subst g1
      refine ⟨fun _ => g5, by rw [g4], fun x => Or.inl (by rw [← g7]; exact x), ?_, by simp,
        fun x => Or.inl (g9.mpr x), ?_, fun _ => Or.inr (Or.inl rfl), fun x => g9.mp x⟩
      · intro hs hw; left; exact ⟨g9.mpr hs, by rw [← g6]; exact hw⟩
      · intro d hd; left; rw [g6]; exact hd
    · cases hn
  | reply i d =>
    simp only [Req.next] at hn
    split at hn
    · rename_i hc
      obtain ⟨q, hq, h2⟩ := Option.map_eq_some_iff.mp hn
      simp only [Prod.mk.injEq] at h2
      obtain ⟨rfl, rfl⟩ := h2
      obtain ⟨r', g1, g2, g3, g4, g5, g6, g7, g8⟩ := toReplied_inv h (by rw [hc.1]; simp) (by rw [hc.1]; simp) d
      rw [hq] at g1
      simp only [Option.some.injEq] at g1
      subst g1
      refine ⟨g5, by rw [g4], fun x => Or.inl (by rw [← g6]; exact x), ?_, by simp,
        fun _ => Or.inr (Or.inl ⟨d, rfl⟩), ?_, ?_, ?_⟩
      · intro hs hw
        rcases g8 with g8 | rfl
        · rw [g8.1] at hw; cases hw
        · left; exact ⟨hs, hw⟩
      · intro d' hd; rw [hc.2] at hd; cases hd
      · intro hr
        rcases g8 with g8 | rfl
        · right; right; left
          refine ⟨?_, d, rfl⟩
          have := g2.nid (g2.wr (by rw [g8.1]; simp))
          rwa [g3] at this
        · exact Or.inl hr
      · intro hs
        rcases g8 with g8 | rfl
        · exact absurd hs g8.2.1
        · exact hs
    · cases hn
  | write i =>
    simp only [Req.next] at hn
    split at hn
    · rename_i d id hw hid
      simp only [Option.some.injEq, Prod.mk.injEq] at hn
      obtain ⟨rfl, rfl⟩ := hn
      refine ⟨fun x => x, Nat.le_refl _, fun x => Or.inl x, fun _ _ => Or.inr ⟨d, hw, rfl⟩, by simp,
        fun x => Or.inl x, fun d' _ => Or.inr ⟨rfl, h.wr (by rw [hw]; simp)⟩, fun x => Or.inl x, fun x => x⟩
    · cases hn
  | ret i =>
    simp only [Req.next] at hn
    split at hn
    · rename_i hc
      obtain ⟨hrun, hw⟩ := hc
      obtain ⟨q, hq, h2⟩ := Option.map_eq_some_iff.mp hn
      simp only [Prod.mk.injEq] at h2
      obtain ⟨rfl, rfl⟩ := h2
      split at hq
      · rename_i hcond
        unfold Req.toReplied at hq
        simp only at hq
        rw [if_neg (by omega), if_neg hcond.1] at hq
        split at hq
        · cases hq
        · rename_i q1 hq1
          simp only [Option.some.injEq] at hq
          subst hq
          have hq1' : q1.phase = .returning ∧ q1.cancelled = r.cancelled ∧ (r.released = true → q1.released = true) := by
            unfold Req.toParallel at hq1
            split at hq1
            · simp only [Option.some.injEq] at hq1; subst hq1; exact ⟨rfl, rfl, fun x => x⟩
            · split at hq1
              · cases hq1
              · simp only [Option.some.injEq] at hq1; subst hq1; exact ⟨rfl, rfl, fun _ => rfl⟩
          refine ⟨hq1'.2.2, by simp [hrun, hq1'.1, Phase.rank], fun x => Or.inl (by rw [← hq1'.2.1]; exact x), by simp,
            by simp, fun _ => Or.inr (Or.inr rfl), ?_, fun _ => Or.inr (Or.inr (Or.inr (Or.inl ⟨hcond.1, rfl⟩))),
            fun _ => rfl⟩
          intro d hd; rw [hw] at hd; cases hd
      · simp only [Option.some.injEq] at hq
        subst hq
        refine ⟨fun x => x, by simp [hrun, Phase.rank], fun x => Or.inl x, fun hs hw' => Or.inl ⟨hs, hw'⟩, by simp,
          fun x => Or.inl x, ?_, fun x => Or.inl x, fun x => x⟩
        intro d hd; rw [hw] at hd; cases hd
    · cases hn
  | finish i =>
    simp only [Req.next] at hn
    split at hn
    · rename_i hc
      obtain ⟨q, hq, h2⟩ := Option.map_eq_some_iff.mp hn
      simp only [Prod.mk.injEq] at h2
      obtain ⟨rfl, rfl⟩ := h2
      obtain ⟨r', g1, g2, g3, g4, g5, g6, g7, g8, g9⟩ := toParallel_inv h (by rw [hc.1]; simp)
      rw [hq] at g1
      simp only [Option.some.injEq] at g1
      subst g1
      refine ⟨fun _ => g5, by simp [hc.1, Phase.rank], fun _ => Or.inr (Or.inr rfl), ?_, fun _ => rfl,
        fun x => Or.inl (g9.mpr x), ?_, fun _ => Or.inr (Or.inr (Or.inr (Or.inr rfl))), fun x => g9.mp x⟩
      · intro hs hw; left; exact ⟨g9.mpr hs, hc.2⟩
      · intro d hd; rw [hc.2] at hd; cases hd
    · cases hn
  | cancel i =>
    simp only [Req.next, Option.some.injEq, Prod.mk.injEq] at hn
    obtain ⟨rfl, rfl⟩ := hn
    exact ⟨fun x => x, Nat.le_refl _, fun _ => Or.inr (Or.inl rfl), fun hs hw => Or.inl ⟨hs, hw⟩, by simp,
      fun x => Or.inl x, fun d hd => Or.inl hd, fun x => Or.inl x, fun x => x⟩

/-- A property of request `i` that every step keeps, kept by runs. -/
theorem run_keeps (P : Req → List ID → Prop) (i : Nat) (ok : Ev → Prop)
    (hstep : ∀ c c' e r r', CInv c → ok e → c.step e = some c' → c.reqs[i]? = some r → c'.reqs[i]? = some r' →
      P r (c.replies i) → P r' (c'.replies i))
    {c c' : Conn} (h : CInv c) (es : List Ev) (hok : ∀ e ∈ es, ok e) (hr : c.run es = some c') (r : Req)
    (hi : c.reqs[i]? = some r) (hp : P r (c.replies i)) :
    ∃ r', c'.reqs[i]? = some r' ∧ P r' (c'.replies i) := by
  induction es generalizing c r with
  | nil =>
    simp only [Conn.run, Option.some.injEq] at hr
    subst hr
    exact ⟨r, hi, hp⟩
  | cons e es ih =>
    obtain ⟨c1, h1, h2⟩ := run_cons hr
    have hex : ∃ r1, c1.reqs[i]? = some r1 := by
      rcases step_at h e h1 i r hi with hs | ⟨r', s, -, -, hs, -⟩
      · exact ⟨r, hs.1⟩
      · exact ⟨r', hs⟩
    obtain ⟨r1, hr1⟩ := hex
    exact ih (h.step e h1) (fun x hx => hok x (List.mem_cons_of_mem _ hx)) h2 r1 hr1
      (hstep c c1 e r r1 h (hok e (by simp)) h1 hi hr1 hp)

theorem run_append {c c' : Conn} (es es' : List Ev) (h : c.run (es ++ es') = some c') :
    ∃ c1, c.run es = some c1 ∧ c1.run es' = some c' := by
  induction es generalizing c with
  | nil => exact ⟨c, rfl, h⟩
  | cons e es ih =>
    obtain ⟨c1, h1, h2⟩ := run_cons h
    obtain ⟨c2, h3, h4⟩ := ih h2
    refine ⟨c2, ?_, h4⟩
    simp only [Conn.run, h1]
    exact h3

/-- A property that a request has when it arrives and that every step keeps. -/
theorem run_from_start (P : Req → List ID → Prop) (i : Nat) (ok : Ev → Prop)
    (hnew : ∀ id, P ⟨id, .waiting, .queued, false, false, none⟩ [])
    (hstep : ∀ c c' e r r', CInv c → ok e → c.step e = some c' → c.reqs[i]? = some r → c'.reqs[i]? = some r' →
      P r (c.replies i) → P r' (c'.replies i))
    {c c' : Conn} (h : CInv c) (h0 : ∀ r, c.reqs[i]? = some r → P r (c.replies i)) (es : List Ev)
    (hok : ∀ e ∈ es, ok e) (hr : c.run es = some c') :
    ∀ r, c'.reqs[i]? = some r → P r (c'.replies i) := by
  induction es generalizing c with
  | nil =>
    simp only [Conn.run, Option.some.injEq] at hr
    subst hr
    exact h0
  | cons e es ih =>
    obtain ⟨c1, h1, h2⟩ := run_cons hr
    refine ih (h.step e h1) ?_ (fun x hx => hok x (List.mem_cons_of_mem _ hx)) h2
    intro r1 hr1
    cases hi : c.reqs[i]? with
    | some r => exact hstep c c1 e r r1 h (hok e (by simp)) h1 hi hr1 (h0 r hi)
    | none =>
      -- the request has just arrived
      have hrep0 := h.empty i hi
      by_cases hrec : ∃ id, e = .receive id
      · obtain ⟨id, rfl⟩ := hrec
        unfold Conn.step at h1
        rw [if_neg (by simp [h.ok])] at h1
        simp only [Option.some.injEq] at h1
        subst h1
        simp only at hr1
        rw [List.getElem?_eq_none_iff] at hi
        rw [List.getElem?_append_right hi] at hr1
        have : r1 = ⟨id, .waiting, .queued, false, false, none⟩ := by
          cases hd : i - c.reqs.length with
          | zero => rw [hd] at hr1; simpa using hr1.symm
          | succ n => rw [hd] at hr1; simp at hr1
        rw [this]
        have : Conn.replies { c with reqs := c.reqs ++ [⟨id, .waiting, .queued, false, false, none⟩] } i = [] := hrep0
        rw [this]
        exact hnew id
      · obtain ⟨q, q', s, g1, g2, g3, -, -⟩ := step_local h e h1 (fun id hid => hrec ⟨id, hid⟩)
        rw [g3] at hr1
        rw [List.getElem?_eq_none_iff] at hi
        rw [List.getElem?_eq_none (by simp; omega)] at hr1
        cases hr1

/-- A handler that has finished stays finished. -/
theorem finished_of_mem {c : Conn} (es : List Ev) (h : Conn.init.run es = some c) (i : Nat) (hf : Ev.finish i ∈ es) :
    ∃ r, c.reqs[i]? = some r ∧ r.phase = .finished := by
  obtain ⟨es1, es2, rfl⟩ := List.append_of_mem hf
  obtain ⟨c1, h1, h2⟩ := run_append _ _ h
  obtain ⟨c2, h3, h4⟩ := run_cons h2
  have hc1 := cinv_of_run es1 h1
  obtain ⟨q, q', s, g1, g2, g3, -, -⟩ := step_local hc1 (.finish i) h3 (by simp)
  simp only [Ev.index] at g1 g3
  have hlt : i < c1.reqs.length := by
    by_contra hc'
    rw [List.getElem?_eq_none (by omega)] at g1
    cases g1
  have hq' : c2.reqs[i]? = some q' := by rw [g3, List.getElem?_set]; simp [hlt]
  have hfin := (next_facts (hc1.each i q g1).1 g2).2.2.2.2.1 rfl
  obtain ⟨r', hr', hp⟩ := run_keeps (fun r _ => r.phase = .finished) i (fun _ => True)
    (by
      intro c c' e r r' hinv _ hs hr hr' hp
      rcases step_at hinv e hs i r hr with hst | ⟨r2, s, hi, hn, hst, -⟩
      · rw [hst.1] at hr'; simp only [Option.some.injEq] at hr'; subst hr'; exact hp
      · rw [hst] at hr'
        simp only [Option.some.injEq] at hr'
        subst hr'
        have := (next_facts (hinv.each i r hr).1 hn).2.1
        rw [hp] at this
        cases hph : r2.phase <;> simp [hph, Phase.rank] at this ⊢)
    (hc1.step _ h3) es2 (fun _ _ => trivial) h4 q' hq' hfin
  exact ⟨r', hr', hp⟩

/-- A request whose handler has finished, and to which something was sent, was answered once, with its id. -/
theorem exactly_one {c : Conn} (h : CInv c) (i : Nat) (id : ID) (r : Req) (hr : c.reqs[i]? = some r)
    (hid : r.id = some id) (hne : c.replies i ≠ []) : c.replies i = [id] := by
  obtain ⟨hinv, hids⟩ := h.each i r hr
  cases hl : c.replies i with
  | nil => exact absurd hl hne
  | cons x xs =>
    have h1 := hinv.c1
    rw [hl] at h1
    have hxs : xs = [] := List.length_eq_zero_iff.mp (by simp at h1; simpa using h1)
    have hx := hids x (by rw [hl]; simp)
    rw [hid] at hx
    simp only [Option.some.injEq] at hx
    rw [hxs, hx]

/-! ### C35 -/

/-- C35: in no schedule, whatever the handlers do and whenever a request is cancelled, is a request answered twice. -/
theorem C35_at_most_once (es : List Ev) (c : Conn) (h : Conn.init.run es = some c) (i : Nat) :
    (c.replies i).length ≤ 1 := by
  have hc := cinv_of_run es h
  cases hr : c.reqs[i]? with
  | none => rw [hc.empty i hr]; simp
  | some r => exact (hc.each i r hr).1.c1

/-- C35: a notification is never answered, even if its handler tries to. -/
theorem C35_notification (es : List Ev) (c : Conn) (h : Conn.init.run es = some c) (i : Nat)
    (hn : (received es)[i]? = some none) : c.replies i = [] := by
  have hc := cinv_of_run es h
  have hids := ids_run cinv_init es h
  simp only [Conn.init, List.map_nil, List.nil_append] at hids
  rw [← hids, List.getElem?_map] at hn
  obtain ⟨r, hr, hid⟩ := Option.map_eq_some_iff.mp hn
  cases hl : c.replies i with
  | nil => rfl
  | cons x xs =>
    have := (hc.each i r hr).2 x (by rw [hl]; simp)
    rw [hid] at this
    cases this

/-- C35: an answer carries the id of its request, and there are only answers to messages that arrived. -/
theorem C35_right_id (es : List Ev) (c : Conn) (h : Conn.init.run es = some c) (i : Nat) (id : ID)
    (hm : id ∈ c.replies i) : (received es)[i]? = some (some id) := by
  have hc := cinv_of_run es h
  have hids := ids_run cinv_init es h
  simp only [Conn.init, List.map_nil, List.nil_append] at hids
  rw [← hids, List.getElem?_map]
  cases hr : c.reqs[i]? with
  | none => rw [hc.empty i hr] at hm; simp at hm
  | some r => rw [Option.map_some, (hc.each i r hr).2 id hm]

/-- C35: no schedule makes the program close a channel twice. -/
theorem C35_no_panic (es : List Ev) (c : Conn) (h : Conn.init.run es = some c) : c.panicked = false :=
  (cinv_of_run es h).ok

/-- C35: a request that is not cancelled has been answered, exactly once and with its id, when its handler has
finished: whether the handler replied, replied several times, or did not reply. -/
theorem C35_exactly_once_partial (es : List Ev) (c : Conn) (h : Conn.init.run es = some c) (i : Nat) (id : ID)
    (hid : (received es)[i]? = some (some id)) (hf : Ev.finish i ∈ es) (hnc : Ev.cancel i ∉ es) :
    c.replies i = [id] := by
  have hc := cinv_of_run es h
  obtain ⟨r, hr, hfin⟩ := finished_of_mem es h i hf
  have hids := ids_run cinv_init es h
  simp only [Conn.init, List.map_nil, List.nil_append] at hids
  rw [← hids, List.getElem?_map, hr, Option.map_some, Option.some.injEq] at hid
  have hkey := run_from_start (fun r l => (r.cancelled = true → r.phase = .finished) ∧
      (r.state = .replied → r.writing = none → l ≠ [])) i (fun e => e ≠ .cancel i) (by simp)
    (by
      intro c c' e r r' hinv hok hs hr hr' hp
      rcases step_at hinv e hs i r hr with hst | ⟨r2, s, hi, hn, hst, hrep⟩
      · rw [hst.1] at hr'; simp only [Option.some.injEq] at hr'; subst hr'; rw [hst.2.1]; exact hp
      · rw [hst] at hr'
        simp only [Option.some.injEq] at hr'
        subst hr'
        have hri := (hinv.each i r hr).1
        obtain ⟨-, f2, f3, f4, -⟩ := next_facts hri hn
        refine ⟨fun hca => ?_, fun hst' hw => ?_⟩
        · rcases f3 hca with hca' | he | hfin
          · have := hp.1 hca'
            rw [this] at f2
            cases hph : r2.phase <;> simp [hph, Phase.rank] at f2 ⊢
          · rw [hi] at he; exact absurd he hok
          · exact hfin
        · rw [hrep]
          rcases f4 hst' hw with ⟨g1, g2⟩ | ⟨d, g1, g2⟩
          · exact fun hh => hp.2 g1 g2 (List.append_eq_nil_iff.mp hh).1
          · have hnca : r.cancelled = false := by
              cases hb : r.cancelled with
              | false => rfl
              | true =>
                have := (hri.fin (hp.1 hb)).2
                rw [g1] at this
                cases this
            have hidn := hri.nid (hri.wr (by rw [g1]; simp))
            rw [g2, hnca]
            cases hid' : r.id with
            | none => exact absurd hid' hidn
            | some x => simp)
    cinv_init (by simp [Conn.init]) es (fun e he hc => hnc (hc ▸ he)) h
  have hri := (hc.each i r hr).1
  exact exactly_one hc i id r hr hid
    ((hkey r hr).2 (hri.ret (Or.inr hfin) (by rw [hid]; simp)) (hri.fin hfin).2)

/-- C35: a cancelled request is answered exactly once if the first answer of its handler does not use the context of
the request (this is what the server does for requests that are cancelled before they are handled). -/
theorem C35_detached_partial (es1 es2 : List Ev) (c : Conn) (i : Nat) (id : ID)
    (h : Conn.init.run (es1 ++ .reply i true :: es2) = some c)
    (hid : (received (es1 ++ .reply i true :: es2))[i]? = some (some id)) (hfirst : ∀ d, Ev.reply i d ∉ es1)
    (hf : Ev.finish i ∈ es2) : c.replies i = [id] := by
  have hc := cinv_of_run _ h
  obtain ⟨r, hr, hfin⟩ := finished_of_mem _ h i (by simp [hf])
  have hids := ids_run cinv_init _ h
  simp only [Conn.init, List.map_nil, List.nil_append] at hids
  rw [← hids, List.getElem?_map, hr, Option.map_some, Option.some.injEq] at hid
  obtain ⟨c1, h1, h2⟩ := run_append _ _ h
  obtain ⟨c2, h3, h4⟩ := run_cons h2
  have hc1 := cinv_of_run es1 h1
  -- before this reply the request was not answered
  have hbefore := run_from_start (fun r _ => r.state = .replied → 2 ≤ r.phase.rank) i (fun e => ∀ d, e ≠ .reply i d)
    (by simp)
    (by
      intro c c' e r r' hinv hok hs hr hr' hp
      rcases step_at hinv e hs i r hr with hst | ⟨r2, s, hi, hn, hst, -⟩
      · rw [hst.1] at hr'; simp only [Option.some.injEq] at hr'; subst hr'; exact hp
      · rw [hst] at hr'
        simp only [Option.some.injEq] at hr'
        subst hr'
        intro hrep
        have hri := (hinv.each i r hr).1
        obtain ⟨-, f2, -, -, -, f6, -⟩ := next_facts hri hn
        rcases f6 hrep with g | ⟨d, g⟩ | g
        · have := hp g; omega
        · rw [hi] at g; exact absurd g (hok d)
        · rw [g] at hn
          simp only [Req.next] at hn
          split at hn
          · obtain ⟨q, hq, h2⟩ := Option.map_eq_some_iff.mp hn
            simp only [Prod.mk.injEq] at h2
            obtain ⟨rfl, -⟩ := h2
            split at hq
            · rename_i hcond
              unfold Req.toReplied at hq
              simp only at hq
              rw [if_neg (by omega), if_neg hcond.1] at hq
              split at hq
              · cases hq
              · rename_i q1 hq1
                simp only [Option.some.injEq] at hq
                subst hq
                unfold Req.toParallel at hq1
                split at hq1
                · simp only [Option.some.injEq] at hq1; subst hq1; simp [Phase.rank]
                · split at hq1
                  · cases hq1
                  · simp only [Option.some.injEq] at hq1; subst hq1; simp [Phase.rank]
            · simp only [Option.some.injEq] at hq; subst hq; simp [Phase.rank]
          · cases hn)
    cinv_init (by simp [Conn.init]) es1 (fun e he d hd => hfirst d (hd ▸ he)) h1
  obtain ⟨q, q', s, g1, g2, g3, -, -⟩ := step_local hc1 (.reply i true) h3 (by simp)
  simp only [Ev.index] at g1 g3
  have hlt : i < c1.reqs.length := by
    by_contra hc'
    rw [List.getElem?_eq_none (by omega)] at g1
    cases g1
  have hq' : c2.reqs[i]? = some q' := by rw [g3, List.getElem?_set]; simp [hlt]
  have hqid : q.id = some id := by
    have e1 := ids_run (hc1.step _ h3) es2 h4
    have e2 : (c.reqs.map (·.id))[i]? = (c2.reqs.map (·.id))[i]? := by
      rw [e1, List.getElem?_append_left (by simp [g3]; exact hlt)]
    rw [List.getElem?_map, List.getElem?_map, hr, hq', Option.map_some, Option.map_some, hid] at e2
    simp only [Option.some.injEq] at e2
    rw [← next_id g2]
    exact e2.symm
  have hqi := (hc1.each i q g1).1
  have hw : q'.writing = some true := by
    simp only [Req.next] at g2
    split at g2
    · rename_i hcond
      obtain ⟨q2, hq2, he⟩ := Option.map_eq_some_iff.mp g2
      simp only [Prod.mk.injEq] at he
      obtain ⟨rfl, -⟩ := he
      obtain ⟨q3, k1, k2, k3, k4, k5, k6, k7, k8⟩ := toReplied_inv hqi (by rw [hcond.1]; simp) (by rw [hcond.1]; simp) true
      rw [hq2] at k1
      simp only [Option.some.injEq] at k1
      subst k1
      rcases k8 with k8 | rfl
      · exact k8.1
      · have := hbefore q2 g1 (k7 (by rw [hqid]; simp))
        rw [hcond.1] at this
        simp [Phase.rank] at this
    · cases g2
  obtain ⟨r', hr', hp⟩ := run_keeps (fun r l => r.writing = some true ∨ (r.writing = none ∧ l ≠ [])) i (fun _ => True)
    (by
      intro c c' e r r' hinv _ hs hr hr' hp
      rcases step_at hinv e hs i r hr with hst | ⟨r2, s, hi, hn, hst, hrep⟩
      · rw [hst.1] at hr'; simp only [Option.some.injEq] at hr'; subst hr'; rw [hst.2.1]; exact hp
      · rw [hst] at hr'
        simp only [Option.some.injEq] at hr'
        subst hr'
        have hri := (hinv.each i r hr).1
        obtain ⟨-, -, -, f4, -, -, f7, -, f9⟩ := next_facts hri hn
        rcases hp with hp | ⟨hp, hl⟩
        · rcases f7 true hp with g | ⟨g, hst2⟩
          · exact Or.inl g
          · right
            refine ⟨g, ?_⟩
            rcases f4 hst2 g with ⟨-, k⟩ | ⟨d, k1, k2⟩
            · rw [hp] at k; cases k
            · rw [hp] at k1
              simp only [Option.some.injEq] at k1
              subst k1
              have hidn := hri.nid (hri.wr (by rw [hp]; simp))
              rw [hrep, k2]
              cases hid' : r.id with
              | none => exact absurd hid' hidn
              | some x => simp
        · right
          have hne : r2.writing = none ∨ c'.replies i ≠ [] := by
            by_contra hcon
            simp only [not_or, not_not] at hcon
            rw [hrep] at hcon
            exact hl (List.append_eq_nil_iff.mp hcon.2).1
          have hl' : c'.replies i ≠ [] := by
            rw [hrep]; exact fun hh => hl (List.append_eq_nil_iff.mp hh).1
          refine ⟨?_, hl'⟩
          -- a reply that was sent is not written again
          have hri' := ((hinv.step e hs).each i r2 hst).1
          by_contra hcon
          have := hri'.c0 (Or.inr hcon)
          exact hl' (List.length_eq_zero_iff.mp this))
    (hc1.step _ h3) es2 (fun _ _ => trivial) h4 q' hq' (Or.inl hw)
  rw [hr] at hr'
  simp only [Option.some.injEq] at hr'
  subst hr'
  rcases hp with hp | hp
  · have := ((hc.each i r hr).1.fin hfin).2
    rw [hp] at this
    cases this
  · exact exactly_one hc i id r hr hid hp.2

/-- C35 does not hold for a request that is cancelled while its handler runs: `Reply` is called, the reply is not
sent, and the other side waits for ever. -/
theorem C35_false_cancelled :
    ∃ (es : List Ev) (c : Conn), Conn.init.run es = some c ∧ (received es)[0]? = some (some ⟨[], 7⟩) ∧
      Ev.reply 0 false ∈ es ∧ Ev.finish 0 ∈ es ∧ c.replies 0 = [] :=
  ⟨[.receive (some ⟨[], 7⟩), .start 0, .cancel 0, .reply 0 false, .write 0, .ret 0, .finish 0],
    ⟨[⟨some ⟨[], 7⟩, .replied, .finished, true, true, none⟩], [], [0], false⟩,
    by decide +kernel, by decide +kernel, by decide +kernel, by decide +kernel, by decide +kernel⟩

-- two requests and a notification; the second request is not answered by its handler, the first one twice
example : ∃ es c, Conn.init.run es = some c ∧
    received es = [some ⟨[], 1⟩, none, some ⟨b!"x", 0⟩] ∧ (∀ i < 3, Ev.finish i ∈ es ∧ Ev.cancel i ∉ es) ∧
    c.sent = [(2, ⟨b!"x", 0⟩), (0, ⟨[], 1⟩)] :=
  ⟨[.receive (some ⟨[], 1⟩), .start 0, .receive none, .parallel 0, .start 1, .reply 1 false, .receive (some ⟨b!"x", 0⟩),
     .ret 1, .finish 1, .start 2, .ret 2, .reply 0 false, .write 2, .write 0, .reply 0 false, .ret 0, .finish 0, .finish 2],
    ⟨[⟨some ⟨[], 1⟩, .replied, .finished, true, true, none⟩, ⟨none, .parallel, .finished, true, true, none⟩,
      ⟨some ⟨b!"x", 0⟩, .replied, .finished, true, true, none⟩], [(2, ⟨b!"x", 0⟩), (0, ⟨[], 1⟩)], [0, 1, 2], false⟩,
    by decide +kernel, by decide +kernel, by decide +kernel, rfl⟩
-- a request that was cancelled before it was started
example : ∃ es1 es2 c, Conn.init.run (es1 ++ .reply 0 true :: es2) = some c ∧ Ev.cancel 0 ∈ es1 ∧
    Ev.finish 0 ∈ es2 ∧ c.replies 0 = [⟨[], 7⟩] :=
  ⟨[.receive (some ⟨[], 7⟩), .cancel 0, .start 0], [.write 0, .ret 0, .finish 0],
    ⟨[⟨some ⟨[], 7⟩, .replied, .finished, true, true, none⟩], [(0, ⟨[], 7⟩)], [0], false⟩,
    by decide +kernel, by decide +kernel, by decide +kernel, by decide +kernel⟩

end Verif.Rpc
