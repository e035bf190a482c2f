import Verif.Infer.Spec
import Verif.Symbols.PropsVars
import Verif.Common.Tactics

/-! What the operations on unions do to the types, and what `get` finds. -/

namespace Verif.Infer
open Verif.Types (Ty Union add merge mergeWithArrayLevel hasFQN)
open Verif.Symbols (Var VarTable Rec record IsLatest Recorded)
open Verif.Position (Before)

/-! ### unions -/

/-- Everything that comes out was there or is one of `G a`. -/
def Within {α : Type} (f : Union → α → Union) (G : α → List Kind) : Prop :=
  ∀ u a k, k ∈ kinds (f u a) → k ∈ kinds u ∨ k ∈ G a

/-- As long as everything is in `S`: what comes out is what was there and `G a`. -/
def Adds {α : Type} (S : List Kind) (f : Union → α → Union) (G : α → List Kind) : Prop :=
  ∀ u a, (∀ k ∈ kinds u, k ∈ S) → (∀ k ∈ G a, k ∈ S) → ∀ k, k ∈ kinds u ∨ k ∈ G a → k ∈ kinds (f u a)

theorem within_foldl {α : Type} {f : Union → α → Union} {G : α → List Kind} (h : Within f G) (u : Union)
    (l : List α) (k : Kind) (hk : k ∈ kinds (l.foldl f u)) : k ∈ kinds u ∨ k ∈ l.flatMap G := by
  induction l generalizing u with
  | nil => exact Or.inl hk
  | cons a l ih =>
    rcases ih (f u a) hk with h1 | h1
    · rcases h u a k h1 with h2 | h2
      · exact Or.inl h2
      · exact Or.inr (List.mem_flatMap.2 ⟨a, List.mem_cons_self, h2⟩)
    · obtain ⟨b, hb, hk⟩ := List.mem_flatMap.1 h1
      exact Or.inr (List.mem_flatMap.2 ⟨b, List.mem_cons_of_mem _ hb, hk⟩)

theorem adds_foldl {α : Type} {S : List Kind} {f : Union → α → Union} {G : α → List Kind} (hw : Within f G)
    (h : Adds S f G) (u : Union) (l : List α) (hu : ∀ k ∈ kinds u, k ∈ S) (hl : ∀ k ∈ l.flatMap G, k ∈ S) (k : Kind)
    (hk : k ∈ kinds u ∨ k ∈ l.flatMap G) : k ∈ kinds (l.foldl f u) := by
  induction l generalizing u with
  | nil => simpa using hk
  | cons a l ih =>
    have ha : ∀ k ∈ G a, k ∈ S := fun k hk => hl k (List.mem_flatMap.2 ⟨a, List.mem_cons_self, hk⟩)
    refine ih (f u a) ?_ ?_ ?_
    · intro k hk
      rcases hw u a k hk with h1 | h1
      · exact hu k h1
      · exact ha k h1
    · intro k hk
      obtain ⟨b, hb, hk⟩ := List.mem_flatMap.1 hk
      exact hl k (List.mem_flatMap.2 ⟨b, List.mem_cons_of_mem _ hb, hk⟩)
    · rcases hk with h1 | h1
      · exact Or.inl (h u a hu ha k (Or.inl h1))
      · rw [List.flatMap_cons, List.mem_append] at h1
        rcases h1 with h1 | h1
        · exact Or.inl (h u a hu ha k (Or.inr h1))
        · exact Or.inr h1

theorem kinds_append (u v : Union) : kinds (u ++ v) = kinds u ++ kinds v := by simp [kinds]

theorem kinds_nil : kinds [] = [] := rfl

theorem within_add : Within add (fun t => [kind t]) := by
  intro u t k hk
  unfold add at hk
  split at hk
  · exact Or.inl hk
  · rw [kinds_append, List.mem_append] at hk
    exact hk

theorem adds_add {S : List Kind} (hS : Clean S) : Adds S add (fun t => [kind t]) := by
  intro u t hu ht k hk
  unfold add
  split
  · rename_i h
    rcases hk with h1 | h1
    · exact h1
    · rw [List.mem_singleton] at h1
      subst h1
      obtain ⟨t', ht', e⟩ := List.any_eq_true.1 h
      have e : t'.fqn = t.fqn := by simpa using e
      have h2 : kind t' ∈ kinds u := List.mem_map_of_mem ht'
      rw [hS (kind t) (ht _ (by simp)) (kind t') (hu _ h2) e.symm]
      exact h2
  · rw [kinds_append, List.mem_append]
    exact hk

theorem flatMap_kinds (v : Union) : v.flatMap (fun t => [kind t]) = kinds v := by
  induction v with
  | nil => rfl
  | cons t v ih => rw [List.flatMap_cons, ih]; rfl

theorem within_merge : Within merge kinds := by
  intro u v k hk
  have := within_foldl within_add u v k hk
  rwa [flatMap_kinds] at this

theorem adds_merge {S : List Kind} (hS : Clean S) : Adds S merge kinds := by
  intro u v hu hv k hk
  exact adds_foldl within_add (adds_add hS) u v hu (by rwa [flatMap_kinds]) k (by rwa [flatMap_kinds])

/-- A depth is added. -/
def deeper (level : Int) (k : Kind) : Kind := (k.1, k.2 + level)

theorem within_deeper : Within (fun u (p : Union × Int) => mergeWithArrayLevel u p.1 p.2)
    (fun p => (kinds p.1).map (deeper p.2)) := by
  intro u p k hk
  have := within_foldl (f := fun (u : Union) (t : Ty) => add u { t with arrayLevel := t.arrayLevel + p.2 })
    (G := fun t => [deeper p.2 (kind t)])
    (fun u t k hk => within_add u { t with arrayLevel := t.arrayLevel + p.2 } k hk) u p.1 k hk
  rcases this with h | h
  · exact Or.inl h
  · obtain ⟨t, ht, e⟩ := List.mem_flatMap.1 h
    rw [List.mem_singleton] at e
    subst e
    exact Or.inr (List.mem_map_of_mem (List.mem_map_of_mem ht))

theorem adds_deeper {S : List Kind} (hS : Clean S) :
    Adds S (fun u (p : Union × Int) => mergeWithArrayLevel u p.1 p.2) (fun p => (kinds p.1).map (deeper p.2)) := by
  intro u p hu hp k hk
  refine adds_foldl (S := S) (f := fun (u : Union) (t : Ty) => add u { t with arrayLevel := t.arrayLevel + p.2 })
    (G := fun t => [deeper p.2 (kind t)])
    (fun u t k hk => within_add u { t with arrayLevel := t.arrayLevel + p.2 } k hk)
    (fun u t hu ht k hk => adds_add hS u { t with arrayLevel := t.arrayLevel + p.2 } hu ht k hk) u p.1 hu ?_ k ?_
  · intro k hk
    obtain ⟨t, ht, e⟩ := List.mem_flatMap.1 hk
    rw [List.mem_singleton] at e
    subst e
    exact hp _ (List.mem_map_of_mem (List.mem_map_of_mem ht))
  · rcases hk with h | h
    · exact Or.inl h
    · obtain ⟨k', h', rfl⟩ := List.mem_map.1 h
      obtain ⟨t, ht, rfl⟩ := List.mem_map.1 h'
      exact Or.inr (List.mem_flatMap.2 ⟨t, ht, List.mem_singleton.2 rfl⟩)

/-- What one of the types that a method returns stands for. -/
def one (on : List Kind) (t : Ty) : List Kind :=
  if t.original = b!"static" ∨ t.original = b!"$this" then on.map fun k => (k.1, k.2 + t.arrayLevel) else [kind t]

theorem returned_eq (on : List Kind) (ret : List Ty) : returned on ret = ret.flatMap (one on) := rfl

theorem isSelf_iff (t : Ty) : isSelf t = true ↔ t.original = b!"static" ∨ t.original = b!"$this" := by
  simp [isSelf]

theorem within_self (on : Union) : Within (fun u t => if isSelf t then mergeWithArrayLevel u on t.arrayLevel else add u t)
    (one (kinds on)) := by
  intro u t k hk
  by_cases h : isSelf t = true
  · simp only [h, if_true] at hk
    unfold one
    rw [if_pos ((isSelf_iff t).1 h)]
    exact within_deeper u (on, t.arrayLevel) k hk
  · simp only [h, Bool.false_eq_true, if_false] at hk
    unfold one
    rw [if_neg fun h' => h ((isSelf_iff t).2 h')]
    exact within_add u t k hk

theorem adds_self {S : List Kind} (hS : Clean S) (on : Union) :
    Adds S (fun u t => if isSelf t then mergeWithArrayLevel u on t.arrayLevel else add u t) (one (kinds on)) := by
  intro u t hu ht k hk
  by_cases h : isSelf t = true
  · unfold one at ht hk
    rw [if_pos ((isSelf_iff t).1 h)] at ht hk
    simp only [h, if_true]
    exact adds_deeper hS u (on, t.arrayLevel) hu ht k hk
  · unfold one at ht hk
    rw [if_neg fun h' => h ((isSelf_iff t).2 h')] at ht hk
    simp only [h, Bool.false_eq_true, if_false]
    exact adds_add hS u t hu ht k hk

theorem within_ret (on : Union) : Within (fun u ret => merge u (resolveMemberTypes ret on)) (returned (kinds on)) := by
  intro u ret k hk
  rcases within_merge u _ k hk with h | h
  · exact Or.inl h
  · rcases within_foldl (within_self on) [] ret k h with h | h
    · cases h
    · exact Or.inr h

theorem adds_ret {S : List Kind} (hS : Clean S) (on : Union) :
    Adds S (fun u ret => merge u (resolveMemberTypes ret on)) (returned (kinds on)) := by
  intro u ret hu hr k hk
  have hin : ∀ k ∈ kinds (resolveMemberTypes ret on), k ∈ S := by
    intro k hk
    rcases within_foldl (within_self on) [] ret k hk with h | h
    · cases h
    · exact hr k h
  refine adds_merge hS u _ hu hin k (hk.imp_right fun h => ?_)
  exact adds_foldl (within_self on) (adds_self hS on) [] ret (by simp [kinds_nil]) hr k (Or.inr h)

/-- The kinds of the members that are offered for types. -/
def offered (offers : Bytes → List Union) (on : Union) : List Kind :=
  on.flatMap fun t => (offers t.fqn).flatMap kinds

/-- The kinds of the methods that are offered for types. -/
def offeredRet (offers : Bytes → List Union) (on : Union) : List Kind :=
  on.flatMap fun t => (offers t.fqn).flatMap (returned (kinds on))

theorem within_memberLoop (offers : Bytes → List Union) (on : Union) (k : Kind)
    (h : k ∈ kinds (memberLoop offers on [])) : k ∈ offered offers on := by
  rcases within_foldl (f := fun (u : Union) (t : Ty) => (offers t.fqn).foldl merge u)
    (G := fun t => (offers t.fqn).flatMap kinds)
    (fun u t k hk => within_foldl within_merge u (offers t.fqn) k hk) [] on k h with h | h
  · cases h
  · exact h

theorem adds_memberLoop {S : List Kind} (hS : Clean S) (offers : Bytes → List Union) (on : Union)
    (h : ∀ k ∈ offered offers on, k ∈ S) (k : Kind) (hk : k ∈ offered offers on) :
    k ∈ kinds (memberLoop offers on []) :=
  adds_foldl (f := fun (u : Union) (t : Ty) => (offers t.fqn).foldl merge u)
    (G := fun t => (offers t.fqn).flatMap kinds)
    (fun u t k hk => within_foldl within_merge u (offers t.fqn) k hk)
    (fun u t hu ht k hk => adds_foldl within_merge (adds_merge hS) u (offers t.fqn) hu ht k hk) [] on
    (by simp [kinds_nil]) h k (Or.inr hk)

theorem within_methodLoop (offers : Bytes → List Union) (on : Union) (k : Kind)
    (h : k ∈ kinds (methodLoop offers on [])) : k ∈ offeredRet offers on := by
  rcases within_foldl (f := fun (u : Union) (t : Ty) =>
      (offers t.fqn).foldl (fun u ret => merge u (resolveMemberTypes ret on)) u)
    (G := fun t => (offers t.fqn).flatMap (returned (kinds on)))
    (fun u t k hk => within_foldl (within_ret on) u (offers t.fqn) k hk) [] on k h with h | h
  · cases h
  · exact h

theorem adds_methodLoop {S : List Kind} (hS : Clean S) (offers : Bytes → List Union) (on : Union)
    (h : ∀ k ∈ offeredRet offers on, k ∈ S) (k : Kind) (hk : k ∈ offeredRet offers on) :
    k ∈ kinds (methodLoop offers on []) :=
  adds_foldl (f := fun (u : Union) (t : Ty) =>
      (offers t.fqn).foldl (fun u ret => merge u (resolveMemberTypes ret on)) u)
    (G := fun t => (offers t.fqn).flatMap (returned (kinds on)))
    (fun u t k hk => within_foldl (within_ret on) u (offers t.fqn) k hk)
    (fun u t hu ht k hk => adds_foldl (within_ret on) (adds_ret hS on) u (offers t.fqn) hu ht k hk) [] on
    (by simp [kinds_nil]) h k (Or.inr hk)

theorem mem_elements (ts : List Kind) (k : Kind) : k ∈ elements ts ↔ (k.1, k.2 + 1) ∈ ts ∧ k.2 + 1 ≠ 0 := by
  unfold elements
  rw [List.mem_filterMap]
  constructor
  · rintro ⟨x, hx, e⟩
    split at e
    · cases e
    · rename_i h
      cases e
      refine ⟨?_, ?_⟩
      · have : (x.1, x.2 - 1 + 1) = x := by rw [Int.sub_add_cancel]
        simpa using hx
      · simpa using h
  · rintro ⟨h, hn⟩
    refine ⟨_, h, ?_⟩
    rw [if_neg hn]
    simp

theorem dearray_pos (t : Ty) (h : t.arrayLevel = 0) (u : Union) : addElement u t = u ∧ elements [kind t] = [] := by
  simp [addElement, Ty.dearray, elements, kind, h]

theorem dearray_neg (t : Ty) (h : t.arrayLevel ≠ 0) (u : Union) :
    addElement u t = add u { t with arrayLevel := t.arrayLevel - 1 } ∧
      elements [kind t] = [kind { t with arrayLevel := t.arrayLevel - 1 }] := by
  simp [addElement, Ty.dearray, elements, kind, h]

theorem within_dearray : Within addElement (fun t => elements [kind t]) := by
  intro u t k hk
  by_cases h : t.arrayLevel = 0
  · rw [(dearray_pos t h u).1] at hk
    exact Or.inl hk
  · rw [(dearray_neg t h u).1] at hk
    have := within_add u _ k hk
    simp only [(dearray_neg t h u).2]
    exact this

theorem adds_dearray {S : List Kind} (hS : Clean S) : Adds S addElement (fun t => elements [kind t]) := by
  intro u t hu ht k hk
  by_cases h : t.arrayLevel = 0
  · rw [(dearray_pos t h u).1]
    simp only [(dearray_pos t h u).2] at hk
    simpa using hk
  · rw [(dearray_neg t h u).1]
    simp only [(dearray_neg t h u).2] at hk ht
    exact adds_add hS u _ hu ht k hk

theorem flatMap_elements (u : Union) : u.flatMap (fun t => elements [kind t]) = elements (kinds u) := by
  induction u with
  | nil => rfl
  | cons t u ih =>
    rw [List.flatMap_cons, ih]
    show elements [kind t] ++ elements (kinds u) = elements (kind t :: kinds u)
    unfold elements
    rw [← List.filterMap_append]
    rfl

theorem within_dearrayAll (u : Union) (k : Kind) (h : k ∈ kinds (dearrayAll u)) : k ∈ elements (kinds u) := by
  rcases within_foldl within_dearray [] u k h with h | h
  · cases h
  · rwa [flatMap_elements] at h

theorem adds_dearrayAll {S : List Kind} (hS : Clean S) (u : Union) (h : ∀ k ∈ elements (kinds u), k ∈ S) (k : Kind)
    (hk : k ∈ elements (kinds u)) : k ∈ kinds (dearrayAll u) :=
  adds_foldl within_dearray (adds_dearray hS) [] u (by simp [kinds_nil]) (by rwa [flatMap_elements]) k
    (Or.inr (by rwa [flatMap_elements]))

/-! ### what is found in a table -/

theorem upto_trans {a b c : Pos} (h : Upto a b) (h' : Upto b c) : Upto a c := by
  unfold Upto Before at *
  omega

theorem upto_of_before {a b : Pos} (h : Before a b) : Upto a b := by
  unfold Upto Before at *
  omega

theorem upto_refl (a : Pos) : Upto a a := by
  unfold Upto Before
  omega

/-- The recorded variable with that name that starts last among those not after the position. -/
def lastOf (rs : List Rec) (name : Bytes) (pos : Pos) : Option Rec :=
  (rs.filter fun r => decide (r.v.name = name) && !decide (pos.line < r.start.line ∨ (pos.line = r.start.line ∧ pos.character < r.start.character))).getLast?

theorem find_sorted (rs : List Rec) (h : rs.Pairwise fun a b => Upto a.start b.start) (name : Bytes) (pos : Pos) :
    (record rs).find name pos = (lastOf rs name pos).map (·.v) := by
  rcases Symbols.C45_lookup rs name pos with ⟨e, hn⟩ | ⟨k, r, ⟨hr, hrn⟩, e, hp, hmax⟩
  · rw [e, lastOf]
    have : (rs.filter fun r => decide (r.v.name = name) && !decide (pos.line < r.start.line ∨ (pos.line = r.start.line ∧ pos.character < r.start.character))) = [] := by
      rw [List.filter_eq_nil_iff]
      intro r hr hc
      obtain ⟨i, hi⟩ := List.mem_iff_getElem?.1 hr
      simp only [Bool.and_eq_true, decide_eq_true_eq, Bool.not_eq_true', decide_eq_false_iff_not] at hc
      exact hn i r ⟨hi, hc.1⟩ hc.2
    rw [this]
    rfl
  · obtain ⟨hk, hk'⟩ := List.getElem?_eq_some_iff.1 hr
    have hsplit : rs = rs.take k ++ r :: rs.drop (k + 1) := by
      rw [← hk', List.getElem_cons_drop, List.take_append_drop]
    have hrest : ∀ r' ∈ rs.drop (k + 1), ¬ (r'.v.name = name ∧ ¬ Before pos r'.start) := by
      intro r' hr' ⟨hn', hp'⟩
      obtain ⟨i, hi⟩ := List.mem_iff_getElem?.1 hr'
      rw [List.getElem?_drop] at hi
      obtain ⟨hi', hi''⟩ := List.getElem?_eq_some_iff.1 hi
      have hs : Upto r.start r'.start := by
        have := List.pairwise_iff_getElem.1 h k (k + 1 + i) hk hi' (by omega)
        rwa [hk', hi''] at this
      rcases hmax _ _ ⟨hi, hn'⟩ hp' with h1 | ⟨_, h2⟩
      · exact hs h1
      · omega
    rw [e, lastOf, hsplit, List.filter_append, List.filter_cons_of_pos, List.getLast?_append]
    · have : (rs.drop (k + 1)).filter (fun r => decide (r.v.name = name) && !decide (pos.line < r.start.line ∨ (pos.line = r.start.line ∧ pos.character < r.start.character))) = [] := by
        rw [List.filter_eq_nil_iff]
        intro r' hr' hc
        simp only [Bool.and_eq_true, decide_eq_true_eq, Bool.not_eq_true', decide_eq_false_iff_not] at hc
        exact hrest r' hr' hc
      rw [this]
      rfl
    · simp only [Bool.and_eq_true, decide_eq_true_eq, Bool.not_eq_true', decide_eq_false_iff_not]
      exact ⟨hrn, hp⟩

end Verif.Infer
