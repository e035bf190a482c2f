import Verif.Server.Workers
import Verif.Rpc.CallLemmas
import Verif.Common.Tactics

/-! C40: background indexing finishes. -/

namespace Verif.Server

open Verif.Rpc (set_get)

theorem countP_set {α : Type} (P : α → Bool) (l : List α) (i : Nat) (x y : α) (h : l[i]? = some x) :
    (l.set i y).countP P + (if P x then 1 else 0) = l.countP P + (if P y then 1 else 0) := by
  induction l generalizing i with
  | nil => simp at h
  | cons a l ih =>
    cases i with
    | zero =>
      simp only [List.getElem?_cons_zero, Option.some.injEq] at h
      subst h
      simp only [List.set_cons_zero, List.countP_cons]
      omega
    | succ i =>
      simp only [List.getElem?_cons_succ] at h
      have := ih i h
      simp only [List.set_cons_succ, List.countP_cons]
      omega

theorem sum_map_set {α : Type} (f : α → Nat) (l : List α) (i : Nat) (x y : α) (h : l[i]? = some x) :
    ((l.set i y).map f).sum + f x = (l.map f).sum + f y := by
  induction l generalizing i with
  | nil => simp at h
  | cons a l ih =>
    cases i with
    | zero =>
      simp only [List.getElem?_cons_zero, Option.some.injEq] at h
      subst h
      simp only [List.set_cons_zero, List.map_cons, List.sum_cons]
      omega
    | succ i =>
      simp only [List.getElem?_cons_succ] at h
      have := ih i h
      simp only [List.set_cons_succ, List.map_cons, List.sum_cons]
      omega

/-- Workers busy with the file `j` of pass `p`; workers busy with any file of pass `p`. -/
def busyWith (p : Nat) (j : Job) (o : Option (Nat × Job)) : Bool := o == some (p, j)
def busyFor (p : Nat) : Option (Nat × Job) → Bool
  | none => false
  | some e => e.1 == p
def failedFor (p : Nat) (e : Nat × Job) : Bool := e.1 == p && !e.2.decodes

theorem busyFor_none (p : Nat) : busyFor p none = false := rfl
theorem busyFor_some (p q : Nat) (j : Job) : busyFor p (some (q, j)) = (q == p) := rfl
theorem busyWith_none (p : Nat) (j : Job) : busyWith p j none = false := rfl
theorem busyWith_same (p : Nat) (j x : Job) : busyWith p x (some (p, j)) = (j == x) := by
  unfold busyWith
  by_cases hjx : j = x
  · simp [hjx]
  · simp [hjx]
theorem busyWith_other {p q : Nat} (h : ¬ p = q) (j x : Job) : busyWith q x (some (p, j)) = false := by
  simp [busyWith, h]
theorem failedFor_mk (p q : Nat) (j : Job) : failedFor p (q, j) = (q == p && !j.decodes) := rfl

/-- What is known of pass `p`, that started with the files `f`. -/
structure PassInv (c : Crew) (p : Nat) (f : List Job) (a : Pass) : Prop where
  all : ∀ j, c.log.count (p, j) + c.workers.countP (busyWith p j) + a.todo.count j = f.count j
  group : a.count = c.workers.countP (busyFor p) + c.log.countP (failedFor p)
  fin : a.finished = true → a.todo = [] ∧ a.count = 0

structure CrewInv (n : Nat) (files : List (List Job)) (c : Crew) : Prop where
  passes : c.passes.length = files.length
  workers : c.workers.length = n
  valid : ∀ (w p : Nat) (j : Job), c.workers[w]? = some (some (p, j)) → p < files.length
  each : ∀ (p : Nat) (f : List Job) (a : Pass), files[p]? = some f → c.passes[p]? = some a → PassInv c p f a

theorem start_inv (n : Nat) (files : List (List Job)) : CrewInv n files (Crew.start n files) := by
  refine ⟨by simp [Crew.start], by simp [Crew.start], ?_, ?_⟩
  · intro w p j h
    simp only [Crew.start, List.getElem?_replicate] at h
    split at h
    · cases h
    · cases h
  · intro p f a hf ha
    simp only [Crew.start, List.getElem?_map, hf, Option.map_some, Option.some.injEq] at ha
    subst ha
    refine ⟨fun j => ?_, ?_, by simp⟩
    · simp [Crew.start, List.countP_replicate, busyWith]
    · simp [Crew.start, List.countP_replicate, busyFor]

theorem send_eq {c c' : Crew} {p w : Nat} (h : c.send p w = some c') :
    ∃ j rest n, c.passes[p]? = some ⟨j :: rest, n, false⟩ ∧ c.workers[w]? = some none ∧
      c' = { c with passes := c.passes.set p ⟨rest, n + 1, false⟩, workers := c.workers.set w (some (p, j)) } := by
  unfold Crew.send at h
  split at h
  · rename_i j rest n h1 h2
    exact ⟨j, rest, n, h1, h2, (Option.some.inj h).symm⟩
  · cases h

theorem done_eq {c c' : Crew} {w : Nat} (h : c.done w = some c') :
    ∃ p j a, c.workers[w]? = some (some (p, j)) ∧ c.passes[p]? = some a ∧
      c' = { passes := c.passes.set p (if j.decodes then { a with count := a.count - 1 } else a)
             workers := c.workers.set w none
             log := (p, j) :: c.log } := by
  unfold Crew.done at h
  split at h
  · rename_i p j h1
    split at h
    · rename_i a h2
      exact ⟨p, j, a, h1, h2, (Option.some.inj h).symm⟩
    · cases h
  · cases h

theorem finish_eq {c c' : Crew} {p : Nat} (h : c.finish p = some c') :
    c.passes[p]? = some ⟨[], 0, false⟩ ∧ c' = { c with passes := c.passes.set p ⟨[], 0, true⟩ } := by
  unfold Crew.finish at h
  split at h
  · rename_i h1
    exact ⟨h1, (Option.some.inj h).symm⟩
  · cases h

theorem step_crew {n : Nat} {files : List (List Job)} {c c' : Crew} {e : CEv} (hi : CrewInv n files c)
    (h : c.step e = some c') : CrewInv n files c' := by
  cases e with
  | send p w =>
    obtain ⟨j, rest, k, h1, h2, rfl⟩ := send_eq h
    have hp : p < files.length := by
      rw [← hi.passes]
      exact (List.getElem?_eq_some_iff.mp h1).1
    refine ⟨by simp [hi.passes], by simp [hi.workers], ?_, ?_⟩
    · intro w' p' j' hw
      rw [set_get h2] at hw
      split at hw
      · cases hw; exact hp
      · exact hi.valid w' p' j' hw
    · intro q f a hf ha
      simp only [set_get h1] at ha
      have hb := fun x => countP_set (busyWith q x) c.workers w none (some (p, j)) h2
      have hf' := countP_set (busyFor q) c.workers w none (some (p, j)) h2
      simp only [busyWith_none, busyFor_none, busyFor_some, Bool.false_eq_true, if_false, Nat.add_zero] at hb hf'
      split at ha
      · rename_i hq
        subst hq
        cases ha
        have pi := hi.each q f _ hf h1
        refine ⟨fun x => ?_, ?_, by simp⟩
        · have h0 := pi.all x
          have h4 := hb x
          simp only [List.count_cons] at h0
          simp only [busyWith_same] at h4
          simp only
          omega
        · have h0 := pi.group
          simp only [beq_self_eq_true, if_true] at hf'
          simp only at h0 ⊢
          omega
      · rename_i hq
        have pi := hi.each q f a hf ha
        refine ⟨fun x => ?_, ?_, pi.fin⟩
        · have h0 := pi.all x
          have h4 := hb x
          rw [busyWith_other (fun h => hq h.symm)] at h4
          simp only [Bool.false_eq_true, if_false] at h4
          simp only
          omega
        · have h0 := pi.group
          have : (p == q) = false := by simp; exact fun h => hq h.symm
          simp only [this, Bool.false_eq_true, if_false] at hf'
          simp only
          omega
  | done w =>
    obtain ⟨p, j, a0, h1, h2, rfl⟩ := done_eq h
    refine ⟨by simp [hi.passes], by simp [hi.workers], ?_, ?_⟩
    · intro w' p' j' hw
      rw [set_get h1] at hw
      split at hw
      · cases hw
      · exact hi.valid w' p' j' hw
    · intro q f a hf ha
      simp only [set_get h2] at ha
      have hb := fun x => countP_set (busyWith q x) c.workers w (some (p, j)) none h1
      have hf' := countP_set (busyFor q) c.workers w (some (p, j)) none h1
      simp only [busyWith_none, busyFor_none, busyFor_some, Bool.false_eq_true, if_false, Nat.add_zero] at hb hf'
      split at ha
      · rename_i hq
        subst hq
        have pi := hi.each q f a0 hf h2
        have hg : 0 < c.workers.countP (busyFor q) :=
          List.countP_pos_iff.mpr ⟨_, List.mem_of_getElem? h1, by simp [busyFor]⟩
        cases ha
        refine ⟨fun x => ?_, ?_, ?_⟩
        · have h0 := pi.all x
          have h4 := hb x
          have hx' : ((q, j) == (q, x)) = (j == x) := by
            by_cases hjx : j = x
            · simp [hjx]
            · simp [hjx]
          simp only [busyWith_same] at h4
          have ht : (if j.decodes then { a0 with count := a0.count - 1 } else a0).todo = a0.todo := by
            split <;> rfl
          rw [ht]
          simp only [List.count_cons, hx']
          omega
        · have h0 := pi.group
          simp only [beq_self_eq_true, if_true] at hf'
          simp only [List.countP_cons, failedFor_mk, beq_self_eq_true, Bool.true_and]
          cases hdec : j.decodes <;> simp <;> omega
        · intro hfin
          have h0 := pi.group
          have : a0.finished = true := by revert hfin; split <;> exact id
          have := (pi.fin this).2
          omega
      · rename_i hq
        have pi := hi.each q f a hf ha
        have hpq : ¬ p = q := fun h => hq h.symm
        refine ⟨fun x => ?_, ?_, pi.fin⟩
        · have h0 := pi.all x
          have h4 := hb x
          have hy' : ((p, j) == (q, x)) = false := by simp [hpq]
          rw [busyWith_other hpq] at h4
          simp only [Bool.false_eq_true, if_false] at h4
          simp only [List.count_cons, hy', Bool.false_eq_true, if_false]
          omega
        · have h0 := pi.group
          have : (p == q) = false := by simp [hpq]
          simp only [this, Bool.false_eq_true, if_false] at hf'
          simp only [List.countP_cons, failedFor_mk, this, Bool.false_and, Bool.false_eq_true, if_false]
          omega
  | finish p =>
    obtain ⟨h1, rfl⟩ := finish_eq h
    refine ⟨by simp [hi.passes], hi.workers, hi.valid, ?_⟩
    intro q f a hf ha
    simp only [set_get h1] at ha
    split at ha
    · rename_i hq
      subst hq
      cases ha
      have pi := hi.each q f _ hf h1
      exact ⟨pi.all, pi.group, fun _ => ⟨rfl, rfl⟩⟩
    · have pi := hi.each q f a hf ha
      exact ⟨pi.all, pi.group, pi.fin⟩

theorem run_crew {n : Nat} {files : List (List Job)} {c c' : Crew} {es : List CEv} (hi : CrewInv n files c)
    (h : c.run es = some c') : CrewInv n files c' := by
  induction es generalizing c with
  | nil => cases h; exact hi
  | cons e es ih =>
    simp only [Crew.run] at h
    cases hs : c.step e with
    | none => rw [hs] at h; cases h
    | some d => rw [hs] at h; exact ih (step_crew hi hs) h

/-- How much is left to do. -/
def Pass.left (a : Pass) : Nat := 2 * a.todo.length + if a.finished then 0 else 1
def Crew.left (c : Crew) : Nat := (c.passes.map Pass.left).sum + c.workers.countP Option.isSome

theorem step_left {c c' : Crew} {e : CEv} (h : c.step e = some c') : c'.left + 1 = c.left := by
  cases e with
  | send p w =>
    obtain ⟨j, rest, k, h1, h2, rfl⟩ := send_eq h
    have a1 := sum_map_set Pass.left c.passes p _ ⟨rest, k + 1, false⟩ h1
    have a2 := countP_set Option.isSome c.workers w none (some (p, j)) h2
    have a3 : (Pass.mk (j :: rest) k false).left = (Pass.mk rest (k + 1) false).left + 2 := by
      simp only [Pass.left, List.length_cons]; omega
    simp only [a3, Option.isSome_none, Option.isSome_some, Bool.false_eq_true,
      if_false, if_true] at a1 a2
    unfold Crew.left
    simp only
    omega
  | done w =>
    obtain ⟨p, j, a0, h1, h2, rfl⟩ := done_eq h
    have a1 := sum_map_set Pass.left c.passes p _ (if j.decodes then { a0 with count := a0.count - 1 } else a0) h2
    have a2 := countP_set Option.isSome c.workers w (some (p, j)) none h1
    have a3 : (if j.decodes then { a0 with count := a0.count - 1 } else a0).left = a0.left := by
      split <;> rfl
    rw [a3] at a1
    simp only [Option.isSome_none, Option.isSome_some, Bool.false_eq_true, if_false, if_true] at a2
    unfold Crew.left
    simp only
    omega
  | finish p =>
    obtain ⟨h1, rfl⟩ := finish_eq h
    have a1 := sum_map_set Pass.left c.passes p _ ⟨[], 0, true⟩ h1
    have a3 : (Pass.mk [] 0 false).left = 1 := rfl
    have a4 : (Pass.mk [] 0 true).left = 0 := rfl
    rw [a3, a4] at a1
    unfold Crew.left
    simp only
    omega

/-! ## C40 -/

/-- C40: no schedule goes on for ever: a run has at most two steps per file and one per pass. -/
theorem C40_bounded (n : Nat) (files : List (List Job)) (es : List CEv) (c : Crew)
    (h : (Crew.start n files).run es = some c) :
    es.length ≤ (files.map fun f => 2 * f.length + 1).sum := by
  have key : ∀ (es : List CEv) (d c : Crew), d.run es = some c → c.left + es.length = d.left := by
    intro es
    induction es with
    | nil => intro d c h; cases h; rfl
    | cons e es ih =>
      intro d c h
      simp only [Crew.run] at h
      cases hs : d.step e with
      | none => rw [hs] at h; cases h
      | some d' =>
        rw [hs] at h
        have h1 := ih d' c h
        have h2 := step_left hs
        simp only [List.length_cons]
        omega
  have h1 := key es _ c h
  have h2 : (Crew.start n files).left = (files.map fun f => 2 * f.length + 1).sum := by
    unfold Crew.left Crew.start
    simp only [List.map_map, List.countP_replicate, Option.isSome_none, Bool.false_eq_true, if_false]
    rfl
  omega

/-- C40: at any time, no file has been processed more often than it was found, and when a pass makes its last
step (the clean-up) all its files have been processed, each once per time it was found. -/
theorem C40_cleanup_last (n : Nat) (files : List (List Job)) (es : List CEv) (c : Crew)
    (h : (Crew.start n files).run es = some c) (p : Nat) (f : List Job) (a : Pass) (hf : files[p]? = some f)
    (ha : c.passes[p]? = some a) :
    (∀ j, c.log.count (p, j) ≤ f.count j) ∧
    (a.finished = true → ∀ j, c.log.count (p, j) = f.count j) := by
  have hi := (run_crew (start_inv n files) h).each p f a hf ha
  refine ⟨fun j => by have := hi.all j; omega, fun hfin j => ?_⟩
  obtain ⟨h1, h2⟩ := hi.fin hfin
  have h3 := hi.all j
  have h4 := hi.group
  have h5 : c.workers.countP (busyWith p j) ≤ c.workers.countP (busyFor p) := by
    refine List.countP_mono_left fun o _ ho => ?_
    simp only [busyWith, beq_iff_eq] at ho
    rw [ho]
    simp [busyFor]
  rw [h1] at h3
  simp only [List.count_nil] at h3
  omega

theorem failed_iff {c : Crew} {p : Nat} : c.log.countP (failedFor p) = 0 ↔ ∀ j, (p, j) ∈ c.log → j.decodes = true := by
  rw [List.countP_eq_zero]
  constructor
  · intro h j hj
    have := h _ hj
    simpa [failedFor] using this
  · rintro h ⟨q, j⟩ hj hc
    simp only [failedFor, Bool.and_eq_true, beq_iff_eq, Bool.not_eq_true'] at hc
    rw [hc.1] at hj
    have := h j hj
    rw [hc.2] at this
    cases this

/-- C40, what happens in general: when nothing can happen any more, the files of every pass have been processed,
each exactly as often as it was found, whatever the other passes did; and a pass has made its last step exactly
if all its URIs can be decoded. -/
theorem C40_at_rest (n : Nat) (hn : 0 < n) (files : List (List Job)) (es : List CEv) (c : Crew)
    (h : (Crew.start n files).run es = some c) (hrest : ∀ e, c.step e = none) (p : Nat) (f : List Job) (a : Pass)
    (hf : files[p]? = some f) (ha : c.passes[p]? = some a) :
    (∀ j, c.log.count (p, j) = f.count j) ∧ (a.finished = true ↔ ∀ j ∈ f, j.decodes = true) := by
  have hi := run_crew (start_inv n files) h
  have pi := hi.each p f a hf ha
  have idle : ∀ (w : Nat) (o : Option (Nat × Job)), c.workers[w]? = some o → o = none := by
    intro w o hw
    cases o with
    | none => rfl
    | some e =>
      obtain ⟨q, j⟩ := e
      have hq := hi.valid w q j hw
      rw [← hi.passes] at hq
      have := hrest (.done w)
      simp only [Crew.step, Crew.done, hw, List.getElem?_eq_getElem hq] at this
      cases this
  have hbusy : ∀ P : Option (Nat × Job) → Bool, P none = false → c.workers.countP P = 0 := by
    intro P hP
    rw [List.countP_eq_zero]
    intro o ho
    obtain ⟨w, hw⟩ := List.getElem?_of_mem ho
    rw [idle w o hw, hP]
    simp
  have hw0 : c.workers[0]? = some none := by
    have hlt : 0 < c.workers.length := by rw [hi.workers]; exact hn
    have := List.getElem?_eq_getElem hlt
    rw [this]
    exact congrArg some (idle 0 _ this)
  have htodo : a.todo = [] := by
    obtain ⟨todo, count, finished⟩ := a
    cases todo with
    | nil => rfl
    | cons j rest =>
      cases finished with
      | true => exact (pi.fin rfl).1
      | false =>
        have := hrest (.send p 0)
        simp only [Crew.step, Crew.send, ha, hw0] at this
        cases this
  have hall : ∀ j, c.log.count (p, j) = f.count j := by
    intro j
    have h1 := pi.all j
    rw [hbusy _ rfl, htodo] at h1
    simpa using h1
  have hgroup := pi.group
  rw [hbusy _ rfl, Nat.zero_add] at hgroup
  have hmem : ∀ j, (p, j) ∈ c.log ↔ j ∈ f := by
    intro j
    rw [← List.count_pos_iff, ← List.count_pos_iff, hall]
  refine ⟨hall, ?_, ?_⟩
  · intro hfin j hj
    rw [(pi.fin hfin).2] at hgroup
    exact failed_iff.mp hgroup.symm j ((hmem j).mpr hj)
  · intro hdec
    have h0 : c.log.countP (failedFor p) = 0 := failed_iff.mpr fun j hj => hdec j ((hmem j).mp hj)
    rw [h0] at hgroup
    obtain ⟨todo, count, finished⟩ := a
    simp only at htodo hgroup
    subst htodo hgroup
    cases finished with
    | true => rfl
    | false =>
      have := hrest (.finish p)
      simp only [Crew.step, Crew.finish, ha] at this
      cases this

/-- C40, as far as it holds: if all URIs can be decoded, then with any schedule all passes finish: as long as one
has not, something can happen, and (`C40_bounded`) something can happen only boundedly often. Missing: URIs that can
not be decoded. -/
theorem C40_finishes_partial (n : Nat) (hn : 0 < n) (files : List (List Job)) (hdec : ∀ f ∈ files, ∀ j ∈ f, j.decodes = true)
    (es : List CEv) (c : Crew) (h : (Crew.start n files).run es = some c) :
    (∃ e, c.step e ≠ none) ∨ ∀ a ∈ c.passes, a.finished = true := by
  by_cases hr : ∀ e, c.step e = none
  · right
    intro a ha
    obtain ⟨p, hp⟩ := List.getElem?_of_mem ha
    have hlt : p < files.length := by
      rw [← (run_crew (start_inv n files) h).passes]
      exact (List.getElem?_eq_some_iff.mp hp).1
    have hf := List.getElem?_eq_getElem hlt
    exact (C40_at_rest n hn files es c h hr p _ a hf hp).2.mpr (hdec _ (List.getElem_mem hlt))
  · left
    by_contra hcon
    exact hr fun e => by
      by_contra he
      exact hcon ⟨e, he⟩

/-- A pass that meets a URI that can not be decoded never makes its last step, under any schedule. -/
theorem C40_undecodable_never_finishes (n : Nat) (files : List (List Job)) (es : List CEv) (c : Crew)
    (h : (Crew.start n files).run es = some c) (p : Nat) (f : List Job) (a : Pass) (hf : files[p]? = some f)
    (ha : c.passes[p]? = some a) (j : Job) (hj : j ∈ f) (hd : j.decodes = false) : a.finished = false := by
  cases hfin : a.finished with
  | false => rfl
  | true =>
    have pi := (run_crew (start_inv n files) h).each p f a hf ha
    have hall := (C40_cleanup_last n files es c h p f a hf ha).2 hfin j
    have hg := pi.group
    rw [(pi.fin hfin).2] at hg
    have hmem : (p, j) ∈ c.log := by
      rw [← List.count_pos_iff, hall]
      exact List.count_pos_iff.mpr hj
    have := failed_iff.mp (by omega) j hmem
    rw [hd] at this
    cases this

/-- Two passes and two workers; the first pass contains a file whose name is not well escaped. -/
def Demo.jobs : List (List Job) :=
  [[⟨b!"file:///w/a.php", true⟩, ⟨b!"file:///w/100%25.php", false⟩], [⟨b!"file:///v/c.php", true⟩]]

def Demo.goes : List CEv := [.send 0 0, .send 1 1, .done 1, .finish 1, .send 0 1, .done 0, .done 1]

/-- C40 is false: of these two passes one never finishes: its clean-up is never run, although there is a schedule
after which nothing can happen any more and all files were processed. -/
theorem C40_false_undecodable :
    (∀ es c, (Crew.start 2 Demo.jobs).run es = some c → (c.passes[0]?.map Pass.finished) = some false) ∧
    ∃ c, (Crew.start 2 Demo.jobs).run Demo.goes = some c ∧ c.log.length = 3 ∧
      c.passes[1]?.map Pass.finished = some true := by
  refine ⟨fun es c h => ?_, ?_⟩
  · have hi := run_crew (start_inv 2 Demo.jobs) h
    have hlt : 0 < c.passes.length := by rw [hi.passes]; decide
    have ha := List.getElem?_eq_getElem hlt
    rw [ha, Option.map_some,
      C40_undecodable_never_finishes 2 Demo.jobs es c h 0 _ _ rfl ha ⟨b!"file:///w/100%25.php", false⟩ (by simp) rfl]
  · exact ⟨_, rfl, rfl, rfl⟩

/-- The hypotheses of `C40_finishes_partial` and `C40_at_rest` are met. -/
example : ∃ c, (Crew.start 2 [[⟨b!"a", true⟩, ⟨b!"b", true⟩]]).run [.send 0 0, .send 0 1, .done 1, .done 0, .finish 0]
    = some c ∧ c.passes.all Pass.finished = true := ⟨_, rfl, rfl⟩

end Verif.Server
