import Verif.Server.RacesDisk

/-! Properties C109, C110 and C111: documents in memory while background workers are active. -/

namespace Verif.Server.Races

/-! ### C109 -/

theorem mirror_init (u : Bytes) : ∀ t, (none : Option Bytes) = some t → Mirror u .init t := by simp

/-- C109: in every schedule in which no worker is busy with the file while the editor's "open" is handled, and the server
then finds the text that the editor sent, the server has in memory exactly the editor's text whenever the file is open
and no message about it is being handled. -/
theorem C109_editor_text (es : List REv) (c : RState) (u t : Bytes) (hr : RState.init.run es = some c)
    (ha : Always (OpensAlone u) .init es) (ht : typed u es = some t) (hh : ¬ c.handling u) :
    ∃ o, c.doc u = some o ∧ o.text = t ∧ o.isOpen = true := by
  obtain ⟨-, hm⟩ := mirror_run es none .init c .init (mirror_init u) ha hr
  obtain ⟨-, id, h1, ⟨o, h2, -, h3⟩, ⟨o', h4, -, h5⟩⟩ := (hm t ht).other hh
  rw [h2] at h4
  cases h4
  exact ⟨o, by simp [RState.doc, h1, h2], h3, h5⟩

/-- C109: ... and a change is applied to the editor's text: when it is taken up, the server has the text from before. -/
theorem C109_change_applied (es : List REv) (c : RState) (u t : Bytes) (f : Bytes → Bytes)
    (hr : RState.init.run (es ++ [.message u (.change f)]) = some c)
    (ha : Always (OpensAlone u) .init (es ++ [.message u (.change f)])) (ht : typed u es = some t) :
    ∃ o, c.doc u = some o ∧ o.text = t ∧ o.isOpen = true := by
  have hrun : ∀ (es : List REv) (c0 : RState), c0.run (es ++ [.message u (.change f)]) = some c →
      Always (OpensAlone u) c0 (es ++ [.message u (.change f)]) → ∃ c1, c0.run es = some c1 ∧
        c1.step (.message u (.change f)) = some c ∧ Always (OpensAlone u) c0 es := by
    intro es
    induction es with
    | nil =>
      intro c0 h ha
      simp only [List.nil_append, RState.run, Option.bind_eq_some_iff, Option.some.injEq] at h
      obtain ⟨c1, h1, rfl⟩ := h
      exact ⟨c0, rfl, h1, ha.1⟩
    | cons e es ih =>
      intro c0 h ha
      simp only [List.cons_append, RState.run, Option.bind_eq_some_iff] at h ⊢
      obtain ⟨c2, h1, h2⟩ := h
      obtain ⟨c1, k1, k2, k3⟩ := ih c2 h2 (ha.2 c2 h1)
      exact ⟨c1, ⟨c2, h1, k1⟩, k2, ha.1, fun c' hc' => by rw [h1] at hc'; cases hc'; exact k3⟩
  obtain ⟨c1, h1, h2, h3⟩ := hrun es .init hr ha
  simp only [RState.step] at h2
  split at h2
  · next hc =>
    cases h2
    simp only [Bool.and_eq_true, Option.isNone_iff_eq_none] at hc
    exact C109_editor_text es c1 u t h1 h3 ht (by rintro ⟨x, hx, -⟩; rw [hc.2] at hx; cases hx)
  · cases h2

/-! ### C110 -/

/-- C110: if moreover no worker is busy with the file while a change of it is handled, and nobody removes it from the index,
the index has the complete symbols of the editor's text whenever the file is open and no message about it is being
handled. -/
theorem C110_index (es : List REv) (c : RState) (u t : Bytes) (hr : RState.init.run es = some c)
    (ha : Always (fun c => OpensAlone u c ∧ ChangesAlone u c) .init es) (hs : Spares u .init es)
    (ht : typed u es = some t) (hh : ¬ c.handling u) : c.index u = some ⟨t, .loaded⟩ :=
  ((indexed_run es none .init c .init (mirror_init u) (by simp) ha hs hr t ht).other hh).index

/-! ### C111 -/

theorem run_valid (es : List REv) (c c' : RState) (hv : Valid c) (h : c.run es = some c') : Valid c' := by
  induction es generalizing c with
  | nil => cases h; exact hv
  | cons e es ih =>
    simp only [RState.run, Option.bind_eq_some_iff] at h
    obtain ⟨c1, h1, h2⟩ := h
    exact ih c1 (hv.step h1) h2

/-- A call can make its next step. -/
def Call.enabled (c : RState) (t : Call) : Prop := (t.next c).isSome

/-- A call only waits for the lock of the document it was given. -/
theorem waits_for_lock {c : RState} {t : Call} (hfit : Fits t.job t.pc)
    (hid : ∀ id, t.pc.id? = some id → ∃ o : Obj, c.heap[id]? = some o ∧ o.uri = t.uri) (h : ¬ t.enabled c) :
    ∃ (id : Nat) (o : Obj), t.pc = .got id ∧ c.heap[id]? = some o ∧ o.locked = true := by
  obtain ⟨u, j, pc⟩ := t
  simp only at hfit hid
  unfold Call.enabled at h
  cases pc with
  | look => cases hd : c.docs u <;> simp [Call.next, hd] at h
  | miss => cases hd : c.disk u <;> simp [Call.next, hd] at h
  | read x => simp [Call.next] at h
  | got id =>
    obtain ⟨o, ho, -⟩ := hid id rfl
    refine ⟨id, o, rfl, ho, ?_⟩
    cases j <;> simp only [Call.next, ho] at h
    · by_cases hl : o.locked = true
      · exact hl
      · simp [hl] at h
    · simp at h
    · by_cases hl : o.locked = true
      · exact hl
      · simp [hl] at h
    · simp at h
    · by_cases hl : o.locked = true
      · exact hl
      · simp [hl] at h
    · exact hfit.elim
  | locked id =>
    obtain ⟨o, ho, -⟩ := hid id rfl
    cases j <;> simp only [Call.next, ho] at h
    · simp at h
    · exact hfit.elim
    · simp at h
    · exact hfit.elim
    · cases hs : c.synced u <;> simp [hs] at h
    · exact hfit.elim
  | unsynced id => obtain ⟨o, ho, -⟩ := hid id rfl; simp [Call.next, ho] at h
  | toLoad id =>
    obtain ⟨o, ho, -⟩ := hid id rfl
    cases hp : o.phase <;> simp [Call.next, ho, hp] at h
  | loading id => simp [Call.next] at h
  | ready id =>
    obtain ⟨o, ho, -⟩ := hid id rfl
    cases j <;> simp [Call.next, ho] at h
  | written id => simp [Call.next] at h
  | unlocked id =>
    obtain ⟨o, ho, -⟩ := hid id rfl
    cases hp : o.isOpen <;> simp [Call.next, ho, hp] at h
  | drop id => simp [Call.next] at h
  | cloned id => obtain ⟨o, ho, -⟩ := hid id rfl; simp [Call.next, ho] at h
  | stored id => simp [Call.next] at h
  | del => simp [Call.next] at h

/-- C111: no deadlock. In every state that a schedule reaches, a call that has not returned can make its next step, or waits
for the lock of a document while another call holds this lock and can make its next step. -/
theorem C111_no_deadlock (es : List REv) (c : RState) (hr : RState.init.run es = some c) (t : Call) (ht : t ∈ c.calls) :
    t.enabled c ∨ ∃ (id : Nat) (t' : Call), t.pc = .got id ∧ t' ∈ c.calls ∧ Holding t'.job t'.pc id ∧ t'.enabled c := by
  have hv := run_valid es .init c .init hr
  by_cases h : t.enabled c
  · exact .inl h
  right
  obtain ⟨id, o, h1, h2, h3⟩ := waits_for_lock (hv.fits t ht) (hv.holds t ht) h
  obtain ⟨t', k1, k2⟩ := hv.lock id o h2 h3
  refine ⟨id, t', h1, k1, k2, ?_⟩
  by_cases he : t'.enabled c
  · exact he
  · exfalso
    obtain ⟨id', -, e, -⟩ := waits_for_lock (hv.fits t' k1) (hv.holds t' k1) he
    obtain ⟨v, j, pc⟩ := t'
    simp only at e k2
    subst e
    cases j <;> exact k2

/-- How many steps a call has left at most. -/
def PC.left : PC → Nat
  | .look => 12
  | .miss => 11
  | .read _ => 10
  | .got _ => 9
  | .locked _ => 8
  | .unsynced _ => 7
  | .toLoad _ => 6
  | .loading _ => 5
  | .ready _ => 4
  | .written _ => 3
  | .unlocked _ | .cloned _ => 2
  | .drop _ | .stored _ | .del => 1

theorem left_next {t : Call} {c c' : RState} {pc' : Option PC} (h : t.next c = some (c', pc')) :
    (pc'.map PC.left).getD 0 + 1 ≤ t.pc.left := by
  obtain ⟨u, j, pc⟩ := t
  have hcmp : ∀ id o h, (compare id o h).left ≤ 6 := by
    intro id o h; unfold compare; split <;> simp [PC.left]
  cases pc <;> simp only [Call.next] at h
  all_goals first | (cases h; simp [PC.left]; done) | skip
  · split at h <;> cases h <;> simp [PC.left]
  · split at h <;> cases h <;> simp [PC.left]
  · split at h
    · cases h
    · split at h
      · cases h; simp [PC.left]
      · cases h; simp [PC.left]
      · split at h <;> cases h; simp [PC.left]
  · split at h
    · cases h; simp [PC.left]
    · cases h; simp [PC.left]
    · split at h
      · cases h
      · cases h
        have := hcmp
        simp only [Option.map_some, Option.getD_some, PC.left]
        exact Nat.le_trans (Nat.add_le_add_right (hcmp _ _ _) 1) (by decide)
      · cases h; simp [PC.left]
  · split at h
    · cases h
    · cases h
      simp only [Option.map_some, Option.getD_some, PC.left]
      exact Nat.add_le_add_right (hcmp _ _ _) 1
  · split at h
    · cases h
    · split at h <;> cases h <;> simp [PC.left]
  · split at h <;> cases h <;> simp [PC.left]
  · split at h
    · cases h
    · split at h <;> cases h <;> simp [PC.left]
  · split at h <;> cases h; simp [PC.left]

/-- The steps that all calls under way have left at most. -/
def RState.left (c : RState) : Nat := (c.front.map fun t => t.pc.left).getD 0 + (c.workers.map fun t => t.pc.left).sum

/-- A call is begun; a call makes a step. -/
def REv.begins : REv → Bool
  | .message _ _ | .worker _ _ => true
  | _ => false

def REv.steps : REv → Bool
  | .handler | .work _ => true
  | _ => false

theorem sum_set {l : List Call} {i : Nat} {t t' : Call} (h : l[i]? = some t) :
    ((l.set i t').map fun t => t.pc.left).sum + t.pc.left = (l.map fun t => t.pc.left).sum + t'.pc.left := by
  induction l generalizing i with
  | nil => simp at h
  | cons x l ih =>
    cases i with
    | zero => simp only [List.getElem?_cons_zero, Option.some.injEq] at h; subst h; simp; omega
    | succ i =>
      simp only [List.getElem?_cons_succ] at h
      have := ih h
      simp only [List.set_cons_succ, List.map_cons, List.sum_cons]
      omega

theorem sum_erase {l : List Call} {i : Nat} {t : Call} (h : l[i]? = some t) :
    ((l.eraseIdx i).map fun t => t.pc.left).sum + t.pc.left = (l.map fun t => t.pc.left).sum := by
  induction l generalizing i with
  | nil => simp at h
  | cons x l ih =>
    cases i with
    | zero => simp only [List.getElem?_cons_zero, Option.some.injEq] at h; subst h; simp; omega
    | succ i =>
      simp only [List.getElem?_cons_succ] at h
      have := ih h
      simp only [List.eraseIdx_cons_succ, List.map_cons, List.sum_cons]
      omega

theorem left_step {c c' : RState} {e : REv} (hv : Valid c) (h : c.step e = some c') :
    c'.left + (if e.steps then 1 else 0) ≤ c.left + (if e.begins then 12 else 0) := by
  have hstart : ∀ j : Job, j.start.left ≤ 12 := by intro j; cases j <;> simp [Job.start, PC.left]
  cases e with
  | message u j =>
    simp only [RState.step] at h
    split at h
    · next hc =>
      simp only [Bool.and_eq_true, Option.isNone_iff_eq_none] at hc
      cases h
      have := hstart j
      simp only [RState.left, hc.2, Option.map_some, Option.map_none, Option.getD_some, Option.getD_none, REv.steps,
        REv.begins, Bool.false_eq_true, if_false, if_true]
      omega
    · cases h
  | worker u j =>
    simp only [RState.step] at h
    split at h
    · cases h
    · cases h
      have := hstart j
      simp only [RState.left, List.map_append, List.sum_append, List.map_cons, List.map_nil, List.sum_cons, List.sum_nil,
        REv.steps, REv.begins, Bool.false_eq_true, if_false, if_true]
      omega
  | handler =>
    simp only [RState.step] at h
    cases hf : c.front with
    | none => rw [hf] at h; cases h
    | some t =>
      simp only [hf] at h
      cases hn : t.next c with
      | none => rw [hn] at h; cases h
      | some r =>
        obtain ⟨c1, pc'⟩ := r
        simp only [hn] at h
        cases h
        have fr := hv.framed (by simp [RState.calls, hf]) hn
        have := left_next hn
        simp only [RState.left, hf, fr.workers, Option.map_some, Option.getD_some, Option.map_map, Function.comp_def,
          REv.steps, REv.begins, Bool.false_eq_true, if_false, if_true]
        change (Option.map PC.left pc').getD 0 + _ + 1 ≤ _
        omega
  | work i =>
    simp only [RState.step] at h
    cases hf : c.workers[i]? with
    | none => rw [hf] at h; cases h
    | some t =>
      simp only [hf] at h
      cases hn : t.next c with
      | none => rw [hn] at h; cases h
      | some r =>
        obtain ⟨c1, pc'⟩ := r
        simp only [hn] at h
        have htw : t ∈ c.workers := List.mem_of_getElem? hf
        have fr := hv.framed (t := t) (by simp [RState.calls, htw]) hn
        have hl := left_next hn
        cases pc' with
        | none =>
          simp only [Option.some.injEq] at h
          subst h
          have := sum_erase hf
          simp only [RState.left, fr.front, fr.workers, REv.steps, REv.begins, Bool.false_eq_true, if_false, if_true]
          simp only [Option.map_none, Option.getD_none] at hl
          omega
        | some pc =>
          simp only [Option.some.injEq] at h
          subst h
          have := sum_set (t' := { t with pc }) hf
          simp only [RState.left, fr.front, fr.workers, REv.steps, REv.begins, Bool.false_eq_true, if_false, if_true]
          simp only [Option.map_some, Option.getD_some] at hl
          simp only at this
          omega
  | write u x => simp only [RState.step] at h; cases h; simp [RState.left, REv.steps, REv.begins]
  | prepare => simp only [RState.step] at h; cases h; simp [RState.left, REv.steps, REv.begins]
  | finish => simp only [RState.step] at h; cases h; simp [RState.left, REv.steps, REv.begins]

/-- C111: every call returns. However the calls are interleaved, all of them together make at most twelve steps for each
message and each job of a worker. -/
theorem C111_bounded (es : List REv) (c : RState) (hr : RState.init.run es = some c) :
    es.countP REv.steps ≤ 12 * es.countP REv.begins := by
  have key : ∀ (es : List REv) (c c' : RState), Valid c → c.run es = some c' →
      c'.left + es.countP REv.steps ≤ c.left + 12 * es.countP REv.begins := by
    intro es
    induction es with
    | nil => intro c c' _ h; cases h; simp
    | cons e es ih =>
      intro c c' hv h
      simp only [RState.run, Option.bind_eq_some_iff] at h
      obtain ⟨c1, h1, h2⟩ := h
      have := ih c1 c' (hv.step h1) h2
      have := left_step hv h1
      simp only [List.countP_cons]
      split at this <;> split at this <;> simp_all <;> omega
  have := key es .init c .init hr
  simp only [RState.left, RState.init, Option.map_none, Option.getD_none, List.map_nil, List.sum_nil] at this
  omega

/-- C111: two calls never have the lock of the same document. -/
theorem C111_exclusive (es : List REv) (c : RState) (hr : RState.init.run es = some c) (i j : Nat) (a b : Call)
    (ha : c.calls[i]? = some a) (hb : c.calls[j]? = some b) (hij : i ≠ j) (id : Nat) :
    ¬ (Holding a.job a.pc id ∧ Holding b.job b.pc id) :=
  pairwise_at (locks_run es .init c Valid.init Locks.init hr).2.pair hij hb ha id

/-- C112: whatever the workers do, and however many are busy with the same file: as long as the editor sends nothing
about it, what the index records about the file is complete, and describes a text that the file has had. -/
theorem C112_workers (es : List REv) (c : RState) (u : Bytes) (hr : RState.init.run es = some c)
    (he : ∀ e ∈ es, ∀ j, e ≠ .message u j) (r : Rec) (h : c.index u = some r) :
    r.symbols = .loaded ∧ .write u (some r.text) ∈ es :=
  (whole_run es .init c Valid.init Locks.init (Whole.init u fun x => .write u (some x) ∈ es) he (fun _ h => h) hr).index r h

/-! ### Examples -/

namespace Demo

def uR : Bytes := b!"file:///w/a.php"
def handler (n : Nat) : List REv := List.replicate n .handler
def work0 (n : Nat) : List REv := List.replicate n (.work 0)

/-- The editor opens the file, a worker indexes it, the editor changes it while the worker is at work. -/
def shared : List REv :=
  [.write uR (some b!"a"), .message uR (.openDoc b!"a")] ++ handler 10 ++ [.worker uR .create] ++ work0 2 ++
    [.message uR (.change (· ++ b!"b"))] ++ handler 2 ++ work0 4 ++ handler 2

/-- The same, one after the other. -/
def apart : List REv :=
  [.write uR (some b!"a"), .message uR (.openDoc b!"a")] ++ handler 10 ++ [.message uR (.change (· ++ b!"b"))] ++
    handler 4 ++ [.worker uR .create] ++ work0 3 ++ [.message uR .request] ++ handler 2 ++ work0 1

/-- The worker reads the file before it is opened, and drops the document after it was changed. -/
def dropped : List REv :=
  [.write uR (some b!"a"), .worker uR .create] ++ work0 2 ++ [.message uR (.openDoc b!"a")] ++ handler 10 ++
    [.message uR (.change (· ++ b!"b"))] ++ handler 4 ++ work0 10

/-- The worker holds the document from before the change. -/
def older : List REv :=
  [.write uR (some b!"a"), .message uR (.openDoc b!"a")] ++ handler 10 ++ [.message uR (.change (· ++ b!"b"))] ++
    handler 3 ++ [.worker uR .create] ++ work0 8 ++ handler 1

/-- Two workers have the same file, which is written again in between. -/
def twice : List REv :=
  [.write uR (some b!"a"), .worker uR .create, .worker uR .create] ++ work0 3 ++ [.work 1, .write uR (some b!"b")] ++
    work0 8 ++ [.work 0, .work 0]

/-- A hover is analysing the document when a worker takes it up. -/
def partly : List REv :=
  [.write uR (some b!"a"), .message uR .request] ++ handler 5 ++ [.worker uR .create] ++ work0 6 ++ handler 2 ++ work0 3

end Demo

/-! The conditions on the schedules, to be computed. -/

def idle (c : RState) (u : Bytes) : Bool := c.workers.all fun w => w.uri != u || match w.pc with
  | .look | .del => true
  | _ => false

theorem quiet_of_idle {c : RState} {u : Bytes} (h : idle c u = true) : c.quiet u := by
  intro w hw hu hb
  have := List.all_eq_true.1 h w hw
  unfold Call.busy at hb
  obtain ⟨v, j, p⟩ := w
  simp only at hu
  cases p <;> simp_all

def alone (u : Bytes) (c : RState) : Bool :=
  (match c.front with
  | some ⟨v, .openDoc t, pc⟩ => v != u || idle c u && ((pc != .look && pc != .miss) || c.view u == some t)
  | some ⟨v, .change _, _⟩ => v != u || idle c u
  | _ => true) && c.workers.all fun w => w.uri != u || w.pc != .del

theorem of_alone {u : Bytes} {c : RState} (h : alone u c = true) : OpensAlone u c ∧ ChangesAlone u c := by
  unfold alone at h
  rw [Bool.and_eq_true] at h
  obtain ⟨h1, h2⟩ := h
  refine ⟨fun t pc hf => ?_, fun f pc hf => ?_, fun w hw hu => ?_⟩
  · rw [hf] at h1
    simp only [bne_self_eq_false, Bool.false_or, Bool.and_eq_true] at h1
    refine ⟨quiet_of_idle h1.1, fun hp => ?_⟩
    have := h1.2
    rcases hp with rfl | rfl <;> simpa using this
  · rw [hf] at h1
    simp only [bne_self_eq_false, Bool.false_or] at h1
    exact quiet_of_idle h1
  · have := List.all_eq_true.1 h2 w hw
    simp only [hu, bne_self_eq_false, Bool.false_or, bne_iff_ne, ne_eq] at this
    exact this

def onlyOpens (u : Bytes) (c : RState) : Bool :=
  match c.front with
  | some ⟨v, .openDoc t, pc⟩ => v != u || idle c u && ((pc != .look && pc != .miss) || c.view u == some t)
  | _ => true

theorem of_onlyOpens {u : Bytes} {c : RState} (h : onlyOpens u c = true) : OpensAlone u c := by
  intro t pc hf
  unfold onlyOpens at h
  rw [hf] at h
  simp only [bne_self_eq_false, Bool.false_or, Bool.and_eq_true] at h
  refine ⟨quiet_of_idle h.1, fun hp => ?_⟩
  have := h.2
  rcases hp with rfl | rfl <;> simpa using this

def all (p : RState → Bool) (c : RState) : List REv → Bool
  | [] => p c
  | e :: es => p c && match c.step e with
    | none => true
    | some c => all p c es

theorem always_of_all {p : RState → Bool} {P : RState → Prop} (hp : ∀ c, p c = true → P c) (es : List REv) (c : RState)
    (h : all p c es = true) : Always P c es := by
  induction es generalizing c with
  | nil => exact hp c h
  | cons e es ih =>
    simp only [all, Bool.and_eq_true] at h
    exact ⟨hp c h.1, fun c' hc => ih c' (by have := h.2; rw [hc] at this; exact this)⟩

/-- `C109_editor_text`: the worker and the change overlap, and the editor's text is kept. -/
example : Always (OpensAlone Demo.uR) .init Demo.shared ∧ typed Demo.uR Demo.shared = some b!"ab" ∧
    (RState.init.run Demo.shared).map (fun c => (c.front.isNone, (c.doc Demo.uR).map Obj.text)) =
      some (true, some b!"ab") :=
  ⟨always_of_all (p := onlyOpens Demo.uR) (fun _ => of_onlyOpens) _ _ (by decide +kernel), by decide +kernel,
    by decide +kernel⟩

theorem Demo.spares : Spares Demo.uR .init Demo.apart := by
  have key : ∀ (es : List REv), (∀ e ∈ es, e.begins ∨ e.steps ∨ ∃ u x, e = .write u x) → ∀ c, Spares Demo.uR c es := by
    intro es
    induction es with
    | nil => intro _ _; trivial
    | cons e es ih =>
      intro h c
      refine ⟨?_, fun c' _ => ih (fun e he => h e (List.mem_cons_of_mem _ he)) c'⟩
      have := h e (List.mem_cons_self ..)
      cases e <;> simp_all [REv.begins, REv.steps]
  refine key _ ?_ _
  simp [Demo.apart, Demo.handler, Demo.work0, REv.begins, REv.steps, or_imp, forall_and, List.mem_replicate]

/-- `C110_index`: open, change, a worker and a request that overlap. -/
example : Always (fun c => OpensAlone Demo.uR c ∧ ChangesAlone Demo.uR c) .init Demo.apart ∧
    Spares Demo.uR .init Demo.apart ∧ typed Demo.uR Demo.apart = some b!"ab" ∧
    (RState.init.run Demo.apart).map (fun c => (c.workers.length, c.index Demo.uR)) = some (1, some ⟨b!"ab", .loaded⟩) :=
  ⟨always_of_all (p := alone Demo.uR) (fun _ => of_alone) _ _ (by decide +kernel), Demo.spares, by decide +kernel,
    by decide +kernel⟩

/-- `C111_no_deadlock`: the worker waits for the lock that the handler of "open" holds. -/
example : (RState.init.run ([.write Demo.uR (some b!"a"), .message Demo.uR (.openDoc b!"a")] ++ Demo.handler 4 ++
      [.worker Demo.uR .create, .work 0])).map (fun c => (c.calls.map Call.pc, c.calls.map fun t => (t.next c).isSome)) =
    some ([.locked 0, .got 0], [true, false]) := by decide +kernel

/-- Why C109 is restricted: a worker that read the file before the editor opened it puts its own document in the place of
the open one, and removes it afterwards; the editor's change is lost. -/
theorem C109_needs_quiet : typed Demo.uR Demo.dropped = some b!"ab" ∧
    (RState.init.run Demo.dropped).map (fun c => (c.front.isNone, (c.doc Demo.uR).isNone, c.view Demo.uR)) =
      some (true, true, some b!"a") := by decide +kernel

/-- Why C110 is restricted: a worker that holds the document from before a change writes it to the index after the new
one. -/
theorem C110_needs_quiet : typed Demo.uR Demo.older = some b!"ab" ∧
    (RState.init.run Demo.older).map (fun c => (c.front.isNone, c.view Demo.uR, c.index Demo.uR)) =
      some (true, some b!"ab", some ⟨b!"a", .loaded⟩) := by decide +kernel

/-- `C112_workers`: one worker indexes the document that another has read. -/
example : (∀ e ∈ Demo.twice, ∀ j, e ≠ .message Demo.uR j) ∧
    (RState.init.run Demo.twice).map (fun c => (c.workers.length, c.index Demo.uR)) =
      some (1, some ⟨b!"a", .loaded⟩) := by
  refine ⟨fun e he j => ?_, by decide +kernel⟩
  simp only [Demo.twice, Demo.work0, List.mem_append, List.mem_cons, List.mem_replicate, List.not_mem_nil, or_false] at he
  rcases he with ((((rfl | rfl | rfl) | ⟨-, rfl⟩) | rfl | rfl) | ⟨-, rfl⟩) | rfl | rfl <;> nofun

/-- Why C112 is restricted: a hover calls `Load` without the lock; a worker that takes up the document in the meantime
finds it analysed, and records what symbols there are, with the hash of the whole text. Nothing is left to be done
then, and the next pass over the files does not replace the record. -/
theorem C112_needs_no_request :
    (RState.init.run Demo.partly).map (fun c => (c.calls.length, c.view Demo.uR, c.index Demo.uR)) =
      some (0, some b!"a", some ⟨b!"a", .loading⟩) ∧
    (RState.init.run (Demo.partly ++ [.prepare, .worker Demo.uR .create] ++ Demo.work0 8 ++ [.finish])).map
        (fun c => (c.calls.length, c.view Demo.uR, c.index Demo.uR)) =
      some (0, some b!"a", some ⟨b!"a", .loading⟩) := by constructor <;> decide +kernel

end Verif.Server.Races
