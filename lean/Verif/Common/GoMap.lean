import Verif.Common.Bytes

/-! Go maps as lists of entries with different keys. The order of the entries stands for the unspecified
order in which Go iterates over a map: no theorem depends on it unless it says so. -/

namespace Verif

/-- `map[α]β`. -/
abbrev GoMap (α β : Type) := List (α × β)

namespace GoMap
variable {α β : Type} [DecidableEq α]

/-- `m[k]` with the `ok` result. -/
def get (m : GoMap α β) (k : α) : Option β :=
  match m with
  | [] => none
  | (k', v) :: t => if k' = k then some v else get t k

/-- `m[k] = v`. -/
def set (m : GoMap α β) (k : α) (v : β) : GoMap α β :=
  match m with
  | [] => [(k, v)]
  | (k', v') :: t => if k' = k then (k, v) :: t else (k', v') :: set t k v

/-- `delete(m, k)`. -/
def erase (m : GoMap α β) (k : α) : GoMap α β := m.filter fun e => e.1 ≠ k

/-- All keys are different. -/
def WF (m : GoMap α β) : Prop := (m.map Prod.fst).Nodup

theorem get_set (m : GoMap α β) (k : α) (v : β) (x : α) :
    (m.set k v).get x = if x = k then some v else m.get x := by
  induction m with
  | nil =>
    simp only [set, get]
    by_cases h : x = k
    · subst h; simp
    · simp [h, Ne.symm h]
  | cons e t ih =>
    obtain ⟨k', v'⟩ := e
    simp only [set]
    by_cases hk : k' = k
    · subst hk
      rw [if_pos rfl]
      simp only [get]
      by_cases h : x = k'
      · subst h; simp
      · simp [h, Ne.symm h]
    · rw [if_neg hk]
      simp only [get, ih]
      by_cases h : x = k
      · subst h; simp [hk]
      · simp [h]

theorem set_keys (m : GoMap α β) (k : α) (v : β) (x : α) :
    x ∈ (m.set k v).map Prod.fst ↔ x = k ∨ x ∈ m.map Prod.fst := by
  induction m with
  | nil => simp [set]
  | cons e t ih =>
    obtain ⟨k', v'⟩ := e
    simp only [set]
    by_cases hk : k' = k
    · subst hk; simp
    · rw [if_neg hk, List.map_cons, List.mem_cons, ih, List.map_cons, List.mem_cons]
      constructor
      · rintro (h | h | h)
        · exact .inr (.inl h)
        · exact .inl h
        · exact .inr (.inr h)
      · rintro (h | h | h)
        · exact .inr (.inl h)
        · exact .inl h
        · exact .inr (.inr h)

theorem wf_set {m : GoMap α β} (h : m.WF) (k : α) (v : β) : (m.set k v).WF := by
  induction m with
  | nil => simp [set, WF]
  | cons e t ih =>
    obtain ⟨k', v'⟩ := e
    simp only [WF, List.map_cons, List.nodup_cons] at h
    simp only [set]
    by_cases hk : k' = k
    · subst hk; simpa [WF] using h
    · rw [if_neg hk]
      simp only [WF, List.map_cons, List.nodup_cons, set_keys, not_or]
      exact ⟨⟨hk, h.1⟩, ih h.2⟩

theorem get_erase (m : GoMap α β) (k x : α) : (m.erase k).get x = if x = k then none else m.get x := by
  induction m with
  | nil => simp [erase, get]
  | cons e t ih =>
    obtain ⟨k', v'⟩ := e
    simp only [erase] at ih ⊢
    by_cases hk : k' = k
    · subst hk
      simp only [List.filter_cons, ne_eq, not_true, decide_false, Bool.false_eq_true, if_false, get]
      rw [ih]
      by_cases h : x = k'
      · simp [h]
      · simp [h, Ne.symm h]
    · simp only [List.filter_cons, ne_eq, hk, not_false_eq_true, decide_true, if_true, get]
      rw [ih]
      by_cases h : x = k
      · subst h; simp [hk]
      · simp [h]

theorem wf_erase {m : GoMap α β} (h : m.WF) (k : α) : (m.erase k).WF :=
  List.Nodup.sublist (List.Sublist.map _ List.filter_sublist) h

theorem mem_of_get {m : GoMap α β} {k : α} {v : β} (h : m.get k = some v) : (k, v) ∈ m := by
  induction m with
  | nil => simp [get] at h
  | cons e t ih =>
    obtain ⟨k', v'⟩ := e
    simp only [get] at h
    by_cases hk : k' = k
    · rw [if_pos hk] at h; simp at h; simp [hk, h]
    · rw [if_neg hk] at h; exact List.mem_cons_of_mem _ (ih h)

theorem mem_iff_get {m : GoMap α β} (h : m.WF) (k : α) (v : β) : (k, v) ∈ m ↔ m.get k = some v := by
  refine ⟨fun hm => ?_, mem_of_get⟩
  induction m with
  | nil => simp at hm
  | cons e t ih =>
    obtain ⟨k', v'⟩ := e
    simp only [WF, List.map_cons, List.nodup_cons] at h
    simp only [get]
    rw [List.mem_cons] at hm
    rcases hm with hm | hm
    · simp only [Prod.mk.injEq] at hm; rw [if_pos hm.1.symm, hm.2]
    · rw [if_neg ?_]
      · exact ih h.2 hm
      · rintro rfl
        exact h.1 (List.mem_map.mpr ⟨_, hm, rfl⟩)

end GoMap
end Verif
