import Verif.Server.Docs
import Verif.Common.Tactics

/-! C41: open documents. C42: changes made on disk. C62: closing a document. -/

namespace Verif.Server

/-! ### specification -/

/-- The editor's side: the text of each open document. -/
def edStep (e : Bytes → Option Bytes) : DEv → Bytes → Option Bytes
  | .openDoc u t => upd e u (some t)
  | .change u f => upd e u ((e u).map f)
  | .close u => upd e u none
  | _ => e

def editor (h : List DEv) : Bytes → Option Bytes := h.foldl edStep fun _ => none

/-- The editor keeps to the protocol: it opens only documents that are not open, and changes and closes only open
ones. -/
def Legal : (Bytes → Option Bytes) → List DEv → Prop
  | _, [] => True
  | e, ev :: h =>
    (match ev with
      | .openDoc u _ => e u = none
      | .change u _ => e u ≠ none
      | .close u => e u ≠ none
      | _ => True) ∧ Legal (edStep e ev) h

/-- The text the server would use for a file: the copy in memory or else the file on disk. -/
def DState.view (s : DState) (u : Bytes) : Option Bytes :=
  match s.cache u with
  | some d => some d.text
  | none => s.disk u

/-- Whenever the editor opens a file, the server has a text for it; if `exact`, it is the text the editor sends. -/
def Opens (exact : Bool) : DState → List DEv → Prop
  | _, [] => True
  | s, ev :: h =>
    (match ev with
      | .openDoc u t => ∃ x, s.view u = some x ∧ (exact = true → x = t)
      | _ => True) ∧ Opens exact (s.step ev) h

/-! ### invariant -/

structure DInv (exact : Bool) (e : Bytes → Option Bytes) (s : DState) : Prop where
  opened : ∀ u t, e u = some t → ∃ x, s.cache u = some ⟨x, true, true⟩ ∧ (exact = true → x = t)
  closed : ∀ u d, e u = none → s.cache u = some d → d.isOpen = false
  honest : ∀ u i, s.index u = some i → i.symbols = some i.hash

theorem upd_same {α : Type} (f : Bytes → Option α) (u : Bytes) (v : Option α) : upd f u v u = v := by simp [upd]
theorem upd_other {α : Type} (f : Bytes → Option α) {u x : Bytes} (v : Option α) (h : x ≠ u) : upd f u v x = f x := by
  simp [upd, h]

theorem getOrCreate_cases (s : DState) (u : Bytes) :
    (s.cache u = none ∧ s.disk u = none ∧ s.getOrCreate u = (s, none)) ∨
    (∃ d, s.cache u = some d ∧ s.getOrCreate u = (s, some d)) ∨
    (∃ t, s.cache u = none ∧ s.disk u = some t ∧ s.getOrCreate u =
      ({ s with cache := upd s.cache u (some ⟨t, false, false⟩) }, some ⟨t, false, false⟩)) := by
  unfold DState.getOrCreate
  cases h1 : s.cache u with
  | some d => exact .inr (.inl ⟨d, rfl, rfl⟩)
  | none =>
    cases h2 : s.disk u with
    | none => exact .inl ⟨rfl, rfl, rfl⟩
    | some t => exact .inr (.inr ⟨t, rfl, rfl, rfl⟩)

theorem upd_upd {α : Type} (f : Bytes → Option α) (u : Bytes) (v w : Option α) : upd (upd f u v) u w = upd f u w := by
  funext x
  simp only [upd]
  split <;> rfl

/-- What opening does when the server has a text for the file. -/
theorem openDoc_eq {s : DState} {u t x : Bytes} (h : s.view u = some x) :
    s.openDoc u t = { s with cache := upd s.cache u (some ⟨x, true, true⟩),
                             index := upd s.index u (some ⟨x, some x⟩) } := by
  unfold DState.view at h
  unfold DState.openDoc
  rcases getOrCreate_cases s u with ⟨h1, h2, h3⟩ | ⟨d, h1, h3⟩ | ⟨y, h1, h2, h3⟩
  · rw [h1] at h; simp only [h2] at h; cases h
  · rw [h1] at h
    rw [h3]
    cases h
    simp [DState.sync, DState.release]
  · rw [h1] at h
    simp only [h2, Option.some.injEq] at h
    subst h
    rw [h3]
    simp [DState.sync, DState.release, upd_upd]

theorem change_eq {s : DState} {u : Bytes} {f : Bytes → Bytes} {d : CDoc} (h : s.cache u = some d) :
    s.change u f = { s with cache := upd s.cache u (some ⟨f d.text, true, d.isOpen⟩),
                            index := upd s.index u (some ⟨f d.text, some (f d.text)⟩) } := by
  unfold DState.change DState.getOrCreate
  rw [h]
  simp [DState.sync]

theorem close_eq {s : DState} {u : Bytes} {d : CDoc} (h : s.cache u = some d) :
    s.close u = { s with cache := upd s.cache u none,
                         index := upd s.index u (some ⟨d.text, if d.loaded then some d.text else none⟩) } := by
  unfold DState.close DState.getOrCreate
  rw [h]
  simp [DState.sync, DState.release, upd_upd]

theorem upd_cache_same {s : DState} {u : Bytes} {d : CDoc} (h : s.cache u = some d) : upd s.cache u (some d) = s.cache := by
  funext x
  simp only [upd]
  split
  · rename_i hx; rw [hx, h]
  · rfl

/-- A change notification for an open, loaded document. -/
theorem watched_open {s : DState} {u x : Bytes} (h : s.cache u = some ⟨x, true, true⟩) :
    s.watched u = s ∨ s.watched u = { s with index := upd s.index u (some ⟨x, some x⟩) } := by
  unfold DState.watched DState.getOrCreate
  rw [h]
  simp only [DState.release, DState.sync]
  split
  · exact .inl rfl
  · right
    simp [upd_cache_same h]

/-- A change notification for a document that is not open: the copy in memory is dropped, and the index is either
left alone, its hash being that of the text looked at, or filled with that text. -/
theorem watched_closed {s : DState} {u x : Bytes} (h : s.view u = some x)
    (hc : ∀ d, s.cache u = some d → d.isOpen = false) :
    (((s.index u).map Indexed.hash = some x) ∧ s.watched u = { s with cache := upd s.cache u none }) ∨
    s.watched u = { s with cache := upd s.cache u none, index := upd s.index u (some ⟨x, some x⟩) } := by
  unfold DState.view at h
  unfold DState.watched
  rcases getOrCreate_cases s u with ⟨h1, h2, h3⟩ | ⟨d, h1, h3⟩ | ⟨y, h1, h2, h3⟩
  · rw [h1] at h; simp only [h2] at h; cases h
  · rw [h1] at h
    rw [h3]
    have := hc d h1
    cases h
    simp only
    split
    · rename_i heq
      exact .inl ⟨heq, by simp [DState.release, this]⟩
    · right
      simp [DState.release, DState.sync, this, upd_upd]
  · rw [h1] at h
    simp only [h2, Option.some.injEq] at h
    subst h
    rw [h3]
    simp only
    split
    · rename_i heq
      exact .inl ⟨heq, by simp [DState.release, upd_upd]⟩
    · right
      simp [DState.release, DState.sync, upd_upd]

theorem watched_nothing {s : DState} {u : Bytes} (h : s.view u = none) : s.watched u = s := by
  unfold DState.view at h
  unfold DState.watched DState.getOrCreate
  cases h1 : s.cache u with
  | some d => rw [h1] at h; cases h
  | none => rw [h1] at h; simp only at h; simp only [h]

theorem DInv.step {exact : Bool} {e : Bytes → Option Bytes} {s : DState} {ev : DEv} (hi : DInv exact e s)
    (hl : Legal e [ev]) (ho : Opens exact s [ev]) : DInv exact (edStep e ev) (s.step ev) := by
  cases ev with
  | openDoc u t =>
    obtain ⟨x, hx, hxt⟩ := ho.1
    simp only [DState.step, openDoc_eq hx, edStep]
    refine ⟨fun v t' hv => ?_, fun v d hv hd => ?_, fun v i hv => ?_⟩
    · by_cases huv : v = u
      · subst huv
        simp only [upd_same] at hv ⊢
        cases hv
        exact ⟨x, rfl, hxt⟩
      · simp only [upd_other _ _ huv] at hv ⊢
        exact hi.opened v t' hv
    · by_cases huv : v = u
      · subst huv
        simp only [upd_same] at hv
        cases hv
      · simp only [upd_other _ _ huv] at hv hd
        exact hi.closed v d hv hd
    · by_cases huv : v = u
      · subst huv
        simp only [upd_same] at hv
        cases hv
        rfl
      · simp only [upd_other _ _ huv] at hv
        exact hi.honest v i hv
  | change u f =>
    have hne : e u ≠ none := hl.1
    obtain ⟨t, ht⟩ := Option.ne_none_iff_exists'.mp hne
    obtain ⟨x, hx, hxt⟩ := hi.opened u t ht
    simp only [DState.step, change_eq hx, edStep, ht, Option.map_some]
    refine ⟨fun v t' hv => ?_, fun v d hv hd => ?_, fun v i hv => ?_⟩
    · by_cases huv : v = u
      · subst huv
        simp only [upd_same] at hv ⊢
        cases hv
        exact ⟨f x, rfl, fun h => by rw [hxt h]⟩
      · simp only [upd_other _ _ huv] at hv ⊢
        exact hi.opened v t' hv
    · by_cases huv : v = u
      · subst huv
        simp only [upd_same] at hv
        cases hv
      · simp only [upd_other _ _ huv] at hv hd
        exact hi.closed v d hv hd
    · by_cases huv : v = u
      · subst huv
        simp only [upd_same] at hv
        cases hv
        rfl
      · simp only [upd_other _ _ huv] at hv
        exact hi.honest v i hv
  | close u =>
    have hne : e u ≠ none := hl.1
    obtain ⟨t, ht⟩ := Option.ne_none_iff_exists'.mp hne
    obtain ⟨x, hx, hxt⟩ := hi.opened u t ht
    simp only [DState.step, close_eq hx, edStep]
    refine ⟨fun v t' hv => ?_, fun v d hv hd => ?_, fun v i hv => ?_⟩
    · by_cases huv : v = u
      · subst huv
        simp only [upd_same] at hv
        cases hv
      · simp only [upd_other _ _ huv] at hv ⊢
        exact hi.opened v t' hv
    · by_cases huv : v = u
      · subst huv
        simp only [upd_same] at hd
        cases hd
      · simp only [upd_other _ _ huv] at hv hd
        exact hi.closed v d hv hd
    · by_cases huv : v = u
      · subst huv
        simp only [upd_same] at hv
        cases hv
        rfl
      · simp only [upd_other _ _ huv] at hv
        exact hi.honest v i hv
  | request u =>
    simp only [DState.step, DState.request, edStep]
    rcases getOrCreate_cases s u with ⟨h1, h2, h3⟩ | ⟨d, h1, h3⟩ | ⟨y, h1, h2, h3⟩
    · rw [h3]; exact hi
    · rw [h3]
      refine ⟨fun v t' hv => ?_, fun v d' hv hd => ?_, hi.honest⟩
      · by_cases huv : v = u
        · subst huv
          obtain ⟨x, hx, hxt⟩ := hi.opened v t' hv
          rw [h1] at hx
          cases hx
          exact ⟨x, upd_same _ _ _, hxt⟩
        · simp only [upd_other _ _ huv]
          exact hi.opened v t' hv
      · by_cases huv : v = u
        · subst huv
          simp only [upd_same] at hd
          cases hd
          exact hi.closed v d hv h1
        · simp only [upd_other _ _ huv] at hd
          exact hi.closed v d' hv hd
    · rw [h3]
      refine ⟨fun v t' hv => ?_, fun v d' hv hd => ?_, hi.honest⟩
      · by_cases huv : v = u
        · subst huv
          obtain ⟨x, hx, hxt⟩ := hi.opened v t' hv
          rw [h1] at hx
          cases hx
        · simp only [upd_other _ _ huv]
          exact hi.opened v t' hv
      · by_cases huv : v = u
        · subst huv
          simp only [upd_same] at hd
          cases hd
          rfl
        · simp only [upd_other _ _ huv] at hd
          exact hi.closed v d' hv hd
  | write u t => exact ⟨hi.opened, hi.closed, hi.honest⟩
  | watched u =>
    simp only [DState.step, edStep]
    cases he : e u with
    | some t =>
      obtain ⟨x, hx, hxt⟩ := hi.opened u t he
      rcases watched_open hx with h | h
      · rw [h]; exact hi
      · rw [h]
        refine ⟨hi.opened, hi.closed, fun v i hv => ?_⟩
        by_cases huv : v = u
        · subst huv
          simp only [upd_same] at hv
          cases hv
          rfl
        · simp only [upd_other _ _ huv] at hv
          exact hi.honest v i hv
    | none =>
      cases hv : s.view u with
      | none => rw [watched_nothing hv]; exact hi
      | some x =>
        have hcl : ∀ d, s.cache u = some d → d.isOpen = false := fun d hd => hi.closed u d he hd
        have ho : ∀ v t', e v = some t' → ∃ x, upd s.cache u none v = some ⟨x, true, true⟩ ∧ (exact = true → x = t') := by
          intro v t' hvt
          have huv : v ≠ u := by rintro rfl; rw [he] at hvt; cases hvt
          simp only [upd_other _ _ huv]
          exact hi.opened v t' hvt
        have hc : ∀ v d, e v = none → upd s.cache u none v = some d → d.isOpen = false := by
          intro v d hv hd
          by_cases huv : v = u
          · subst huv
            simp only [upd_same] at hd
            cases hd
          · simp only [upd_other _ _ huv] at hd
            exact hi.closed v d hv hd
        rcases watched_closed hv hcl with ⟨-, h⟩ | h
        · rw [h]; exact ⟨ho, hc, hi.honest⟩
        · rw [h]
          refine ⟨ho, hc, fun v i hv => ?_⟩
          by_cases huv : v = u
          · subst huv
            simp only [upd_same] at hv
            cases hv
            rfl
          · simp only [upd_other _ _ huv] at hv
            exact hi.honest v i hv
  | deleted u =>
    refine ⟨hi.opened, hi.closed, fun v i hv => ?_⟩
    simp only [DState.step, DState.deleted] at hv
    by_cases huv : v = u
    · subst huv
      simp only [upd_same] at hv
      cases hv
    · simp only [upd_other _ _ huv] at hv
      exact hi.honest v i hv

theorem run_dinv {exact : Bool} {h : List DEv} (hl : Legal (fun _ => none) h) (ho : Opens exact .init h) :
    DInv exact (editor h) (DState.run h) := by
  have key : ∀ (h : List DEv) (e : Bytes → Option Bytes) (s : DState), DInv exact e s → Legal e h → Opens exact s h →
      DInv exact (h.foldl edStep e) (h.foldl DState.step s) := by
    intro h
    induction h with
    | nil => intro e s hi _ _; exact hi
    | cons ev h ih =>
      intro e s hi hl ho
      exact ih _ _ (hi.step ⟨hl.1, trivial⟩ ⟨ho.1, trivial⟩) hl.2 ho.2
  exact key h _ _ ⟨by simp, by simp [DState.init], by simp [DState.init]⟩ hl ho

/-! ## C41 -/

/-- C41, as far as it holds: for any history of the protocol, with any requests, changes on disk and notifications
in between: if whenever a file is opened the text the editor sends is the one the server has (in memory, else on
disk), then every open document has in memory exactly the editor's text. Missing: opening a file whose text in the
editor differs. -/
theorem C41_mirror_partial (h : List DEv) (hl : Legal (fun _ => none) h) (ho : Opens true .init h) (u t : Bytes)
    (ht : editor h u = some t) : (DState.run h).view u = some t := by
  obtain ⟨x, h1, h2⟩ := (run_dinv hl ho).opened u t ht
  simp only [DState.view, h1, h2 rfl]

/-- ... and right after a change the index describes the editor's text. -/
theorem C41_change_indexed_partial (h : List DEv) (u : Bytes) (f : Bytes → Bytes)
    (hl : Legal (fun _ => none) (h ++ [.change u f])) (ho : Opens true .init (h ++ [.change u f])) (t : Bytes)
    (ht : editor h u = some t) : (DState.run (h ++ [.change u f])).index u = some ⟨f t, some (f t)⟩ := by
  have hl' : ∀ (h : List DEv) (e : Bytes → Option Bytes) (g : List DEv), Legal e (h ++ g) → Legal e h := by
    intro h
    induction h with
    | nil => intro e g _; trivial
    | cons ev h ih => intro e g hl; exact ⟨hl.1, ih _ g hl.2⟩
  have ho' : ∀ (h : List DEv) (s : DState) (g : List DEv), Opens true s (h ++ g) → Opens true s h := by
    intro h
    induction h with
    | nil => intro s g _; trivial
    | cons ev h ih => intro s g ho; exact ⟨ho.1, ih _ g ho.2⟩
  obtain ⟨x, h1, h2⟩ := (run_dinv (hl' _ _ _ hl) (ho' _ _ _ ho)).opened u t ht
  simp only [DState.run, List.foldl_append, List.foldl_cons, List.foldl_nil]
  show (DState.change (DState.run h) u f).index u = _
  rw [change_eq h1, h2 rfl]
  exact upd_same _ _ _

/-- A history that meets the hypotheses: open a file, change it twice, with a request, a change on disk and a
notification in between. -/
def Demo.session : List DEv :=
  [.write b!"u" (some b!"<?php "), .openDoc b!"u" b!"<?php ", .change b!"u" (· ++ b!"a"), .request b!"u",
   .write b!"u" (some b!"other"), .watched b!"u", .change b!"u" (· ++ b!"b")]

example : Legal (fun _ => none) Demo.session ∧ Opens true .init Demo.session ∧
    editor Demo.session b!"u" = some b!"<?php ab" := by
  refine ⟨?_, ?_, rfl⟩
  · simp [Legal, Demo.session, edStep, upd]
  · exact ⟨trivial, ⟨_, rfl, fun _ => rfl⟩, trivial, trivial, trivial, trivial, trivial, trivial⟩

/-- C41 is false: the text sent with "open" is ignored. The file on disk is `a`, the editor (with unsaved changes)
opens it with `b`: the server works with `a`, and after the editor appends `c` with `ac` instead of `bc`. -/
theorem C41_false_open_text :
    ∃ (h : List DEv) (u : Bytes), Legal (fun _ => none) h ∧ editor h u = some b!"bc" ∧
      (DState.run h).view u = some b!"ac" :=
  ⟨[.write b!"u" (some b!"a"), .openDoc b!"u" b!"b", .change b!"u" (· ++ b!"c")], b!"u",
    by simp [Legal, edStep, upd], by decide, by decide⟩

/-- C41 is false: a document that is not on disk yet is not known to the server at all. -/
theorem C41_false_unsaved_file :
    ∃ (h : List DEv) (u : Bytes), Legal (fun _ => none) h ∧ editor h u = some b!"bc" ∧ (DState.run h).view u = none :=
  ⟨[.openDoc b!"u" b!"b", .change b!"u" (· ++ b!"c")], b!"u", by simp [Legal, edStep, upd], by decide, by decide⟩

/-! ## C42 -/

/-- C42, as far as it holds: after the notification that a file which is not open was created or changed, the index
describes the file on disk, if no copy of the file was left in memory by an earlier request. -/
theorem C42_reaches_index_partial (h : List DEv) (hl : Legal (fun _ => none) h) (ho : Opens false .init h)
    (u t : Bytes) (hm : (DState.run h).cache u = none) (hd : (DState.run h).disk u = some t) :
    (DState.run (h ++ [.watched u])).index u = some ⟨t, some t⟩ := by
  have hi := run_dinv hl ho
  simp only [DState.run, List.foldl_append, List.foldl_cons, List.foldl_nil]
  show (DState.watched (DState.run h) u).index u = _
  have hv : (DState.run h).view u = some t := by simp only [DState.view, hm, hd]
  rcases watched_closed hv (fun d hd => by rw [hm] at hd; cases hd) with ⟨heq, h⟩ | h
  · rw [h]
    simp only
    cases hx : (DState.run ‹_›).index u with
    | none => rw [hx] at heq; cases heq
    | some i =>
      rw [hx] at heq
      simp only [Option.map_some, Option.some.injEq] at heq
      have := hi.honest u i hx
      obtain ⟨a, b⟩ := i
      simp only at heq this
      rw [this, heq]
  · rw [h]
    exact upd_same _ _ _

/-- C42: the first notification drops the copy, so a second one is always effective. -/
theorem C42_second_notification (h : List DEv) (hl : Legal (fun _ => none) h) (ho : Opens false .init h) (u t : Bytes)
    (hc : editor h u = none) (hd : (DState.run h).disk u = some t) :
    (DState.run (h ++ [.watched u, .watched u])).index u = some ⟨t, some t⟩ := by
  have hi := run_dinv hl ho
  have hl' : ∀ (h : List DEv) (e : Bytes → Option Bytes), Legal e h → Legal e (h ++ [.watched u]) := by
    intro h
    induction h with
    | nil => intro e _; exact ⟨trivial, trivial⟩
    | cons ev h ih => intro e hl; exact ⟨hl.1, ih _ hl.2⟩
  have ho' : ∀ (h : List DEv) (s : DState), Opens false s h → Opens false s (h ++ [.watched u]) := by
    intro h
    induction h with
    | nil => intro s _; exact ⟨trivial, trivial⟩
    | cons ev h ih => intro s ho; exact ⟨ho.1, ih _ ho.2⟩
  have hrun : DState.run (h ++ [.watched u]) = (DState.run h).watched u := by
    simp only [DState.run, List.foldl_append, List.foldl_cons, List.foldl_nil]
    rfl
  have hv : ∃ x, (DState.run h).view u = some x := by
    simp only [DState.view]
    cases (DState.run h).cache u with
    | none => exact ⟨t, hd⟩
    | some d => exact ⟨d.text, rfl⟩
  obtain ⟨x, hv⟩ := hv
  have hcl : ∀ d, (DState.run h).cache u = some d → d.isOpen = false := fun d hd => hi.closed u d hc hd
  have := C42_reaches_index_partial (h ++ [.watched u]) (hl' h _ hl) (ho' h _ ho) u t (by
      rw [hrun]
      rcases watched_closed hv hcl with ⟨-, h⟩ | h <;> rw [h] <;> exact upd_same _ _ _) (by
      rw [hrun]
      rcases watched_closed hv hcl with ⟨-, h⟩ | h <;> rw [h] <;> exact hd)
  simpa using this

/-- C42: for an open document a notification changes neither its text nor, if the index describes it, the index. -/
theorem C42_open_documents (h : List DEv) (hl : Legal (fun _ => none) h) (ho : Opens true .init h) (u t : Bytes)
    (ht : editor h u = some t) :
    (DState.run (h ++ [.watched u])).view u = some t ∧
    (DState.run (h ++ [.watched u])).index u = some ⟨t, some t⟩ := by
  have hi := run_dinv hl ho
  obtain ⟨x, h1, h2⟩ := hi.opened u t ht
  have hx := h2 rfl
  subst hx
  have hrun : DState.run (h ++ [.watched u]) = (DState.run h).watched u := by
    simp only [DState.run, List.foldl_append, List.foldl_cons, List.foldl_nil]
    rfl
  rw [hrun]
  have hw : (DState.run h).watched u = DState.run h ∧ ((DState.run h).index u).map Indexed.hash = some x ∨
      (DState.run h).watched u = { DState.run h with index := upd (DState.run h).index u (some ⟨x, some x⟩) } := by
    unfold DState.watched DState.getOrCreate
    rw [h1]
    simp only [DState.release, DState.sync]
    split
    · rename_i heq; exact .inl ⟨rfl, heq⟩
    · right
      simp [upd_cache_same h1]
  rcases hw with ⟨h, heq⟩ | h
  · rw [h]
    refine ⟨by simp only [DState.view, h1], ?_⟩
    cases hx : (DState.run ‹_›).index u with
    | none => rw [hx] at heq; cases heq
    | some i =>
      rw [hx] at heq
      simp only [Option.map_some, Option.some.injEq] at heq
      have := hi.honest u i hx
      obtain ⟨a, b⟩ := i
      simp only at heq this
      rw [this, heq]
  · rw [h]
    exact ⟨by simp only [DState.view, h1], upd_same _ _ _⟩

example : Legal (fun _ => none) [.write b!"u" (some b!"a"), .watched b!"u", .write b!"u" (some b!"b")] ∧
    (DState.run [.write b!"u" (some b!"a"), .watched b!"u", .write b!"u" (some b!"b")]).cache b!"u" = none ∧
    (DState.run [.write b!"u" (some b!"a"), .watched b!"u", .write b!"u" (some b!"b")]).index b!"u"
      = some ⟨b!"a", some b!"a"⟩ := by
  refine ⟨by simp [Legal], by decide, by decide⟩

/-- C42 is false: a request about a file that is not open (say, "hover" in a file the user only looks at) leaves a
copy in memory; when the file then changes on disk, the notification is answered from the copy. -/
theorem C42_false_copy_in_memory :
    ∃ (h : List DEv) (u : Bytes), Legal (fun _ => none) h ∧ Opens true .init h ∧ editor h u = none ∧
      (DState.run h).disk u = some b!"b" ∧
      (DState.run (h ++ [.watched u])).index u = some ⟨b!"a", some b!"a"⟩ :=
  ⟨[.write b!"u" (some b!"a"), .watched b!"u", .request b!"u", .write b!"u" (some b!"b")], b!"u",
    by simp [Legal], ⟨trivial, trivial, trivial, trivial, trivial⟩, by decide, by decide, by decide⟩

/-! ## C62 -/

/-- C62, as far as it holds: closing a document that was opened properly and whose text is saved leaves the index
describing the file on disk, and no copy in memory. Missing: unsaved changes, and documents the server did not know
when they were opened. -/
theorem C62_close_partial (h : List DEv) (hl : Legal (fun _ => none) h) (ho : Opens true .init h) (u t : Bytes)
    (ht : editor h u = some t) (_hd : (DState.run h).disk u = some t) :
    (DState.run (h ++ [.close u])).index u = some ⟨t, some t⟩ ∧ (DState.run (h ++ [.close u])).cache u = none := by
  obtain ⟨x, h1, h2⟩ := (run_dinv hl ho).opened u t ht
  simp only [DState.run, List.foldl_append, List.foldl_cons, List.foldl_nil]
  show (DState.close (DState.run h) u).index u = _ ∧ (DState.close (DState.run h) u).cache u = _
  rw [close_eq h1, h2 rfl]
  exact ⟨upd_same _ _ _, upd_same _ _ _⟩

/-- C62 is false: unsaved changes that are thrown away on closing stay in the index. -/
theorem C62_false_unsaved :
    ∃ (h : List DEv) (u : Bytes), Legal (fun _ => none) h ∧ Opens true .init h ∧ editor h u = none ∧
      (DState.run h).disk u = some b!"a" ∧ (DState.run h).index u = some ⟨b!"ab", some b!"ab"⟩ :=
  ⟨[.write b!"u" (some b!"a"), .openDoc b!"u" b!"a", .change b!"u" (· ++ b!"b"), .close b!"u"], b!"u",
    by simp [Legal, edStep, upd], ⟨trivial, ⟨_, rfl, fun _ => rfl⟩, trivial, trivial, trivial⟩,
    by decide, by decide, by decide⟩

/-- C62 is false: a document that was not on disk when it was opened, was then saved and indexed, loses all its
symbols from the index when it is closed, and no number of change notifications brings them back. -/
theorem C62_false_lost (n : Nat) :
    ∃ (h : List DEv) (u : Bytes), Legal (fun _ => none) (h ++ [.close u]) ∧ editor (h ++ [.close u]) u = none ∧
      (DState.run (h ++ [.close u])).disk u = some b!"a" ∧
      (DState.run h).index u = some ⟨b!"a", some b!"a"⟩ ∧
      (DState.run (h ++ [.close u] ++ List.replicate n (.watched u))).index u = some ⟨b!"a", none⟩ := by
  refine ⟨[.openDoc b!"u" b!"a", .write b!"u" (some b!"a"), .watched b!"u"], b!"u", by simp [Legal, edStep, upd],
    by decide, by decide, by decide, ?_⟩
  simp only [DState.run, List.foldl_append]
  generalize hs : List.foldl DState.step _ [DEv.close b!"u"] = s
  have hcache : s.cache b!"u" = none := by rw [← hs]; decide
  have hdisk : s.disk b!"u" = some b!"a" := by rw [← hs]; decide
  have hindex : s.index b!"u" = some ⟨b!"a", none⟩ := by rw [← hs]; decide
  clear hs
  induction n generalizing s with
  | zero => exact hindex
  | succ n ih =>
    rw [List.replicate_succ, List.foldl_cons]
    have hw : s.step (.watched b!"u") = { s with cache := upd s.cache b!"u" none } := by
      simp [DState.step, DState.watched, DState.getOrCreate, hcache, hdisk, hindex, DState.release, upd_upd]
    exact ih _ (by rw [hw]; simp [upd]) (by rw [hw]; exact hdisk) (by rw [hw]; exact hindex)

end Verif.Server
