import Verif.Symbols.Vars
import Verif.Common.Tactics

/-! C45: variables and scopes. -/

namespace Verif.Symbols
open Verif.Position

/-- The order of a list of variables with the numbers of the calls that recorded them. -/
def Ordered (P : List (Nat × CtxVar)) : Prop :=
  P.Pairwise fun a b => Before a.2.start b.2.start ∨ (a.2.start = b.2.start ∧ a.1 < b.1)

/-- What is known about the variables of one name. -/
structure VInv (rs : List Rec) (name : Bytes) (L : List CtxVar) (P : List (Nat × CtxVar)) : Prop where
  list : P.map Prod.snd = L
  ordered : Ordered P
  sound : ∀ k c, (k, c) ∈ P → Recorded rs name k ⟨c.v, c.start, c.isDeclaration⟩
  complete : ∀ k r, Recorded rs name k r → ∃ c, (k, c) ∈ P
  used : ∀ k c, (k, c) ∈ P → c.isUsed = true → c.isDeclaration = true ∧
    ∃ j u, k < j ∧ Recorded rs name j u ∧ u.isDeclaration = false ∧ Before c.v.range.start u.v.range.start
  usedAll : UsesInOrder rs name → ∀ k c, (k, c) ∈ P → c.isDeclaration = true → UsedAfter rs name k → c.isUsed = true

theorem recorded_append {rs : List Rec} {r : Rec} {name : Bytes} {k : Nat} {r' : Rec} :
    Recorded (rs ++ [r]) name k r' ↔ Recorded rs name k r' ∨ (k = rs.length ∧ r' = r ∧ r.v.name = name) := by
  unfold Recorded
  rw [List.getElem?_append]
  split
  · rename_i h
    constructor
    · exact .inl
    · rintro (h' | ⟨h', _⟩)
      · exact h'
      · omega
  · rename_i h
    rw [List.getElem?_eq_none (by omega : rs.length ≤ k)]
    constructor
    · rintro ⟨h1, h2⟩
      have hk : k = rs.length := by
        by_contra hne
        rw [List.getElem?_eq_none (by simp; omega)] at h1
        cases h1
      subst hk
      simp only [Nat.sub_self, List.getElem?_cons_zero, Option.some.injEq] at h1
      subst h1
      exact .inr ⟨rfl, rfl, h2⟩
    · rintro (⟨h', _⟩ | ⟨h1, h2, h3⟩)
      · cases h'
      · subst h1 h2
        simp [h3]

theorem recorded_lt {rs : List Rec} {name : Bytes} {k : Nat} {r : Rec} (h : Recorded rs name k r) : k < rs.length := by
  by_contra hn
  rw [Recorded, List.getElem?_eq_none (by omega)] at h
  cases h.1

/-- Binary search in a list ordered by the condition. -/
theorem search_split {α : Type} (L : List α) (f : α → Bool) (hmono : L.Pairwise fun a b => f a = true → f b = true) :
    let i := searchList L f
    (∀ c ∈ L.take i, f c = false) ∧ (∀ c ∈ L.drop i, f c = true) ∧ i ≤ L.length := by
  intro i
  have hm := List.pairwise_iff_getElem.mp hmono
  obtain ⟨h1, h2, h3⟩ := goSearch_spec L.length (fun i => match L[i]? with | some c => f c | none => true) (by
    intro a b hab hb ha
    have ha' : a < L.length := by omega
    simp only [List.getElem?_eq_getElem ha', List.getElem?_eq_getElem hb] at ha ⊢
    rcases Nat.lt_or_eq_of_le hab with h | rfl
    · exact hm a b ha' hb h ha
    · exact ha)
  have hi0 : (goSearch L.length fun i => match L[i]? with | some c => f c | none => true) = i := rfl
  rw [hi0] at h1 h2 h3
  clear_value i
  refine ⟨fun c hc => ?_, fun c hc => ?_, h2⟩
  · obtain ⟨j, hj, rfl⟩ := List.getElem_of_mem hc
    simp only [List.length_take] at hj
    have := h1 j (by omega)
    rw [List.getElem?_eq_getElem (by omega)] at this
    rw [List.getElem_take]
    exact this
  · obtain ⟨j, hj, rfl⟩ := List.getElem_of_mem hc
    simp only [List.length_drop] at hj
    have hi : i < L.length := by omega
    have hfi := h3 hi
    rw [List.getElem?_eq_getElem hi] at hfi
    rw [List.getElem_drop]
    cases j with
    | zero => exact hfi
    | succ j => exact hm i (i + (j + 1)) hi (by omega) (by omega) hfi

theorem markUsed_spec (name : Bytes) (pos : Pos) (L : List CtxVar) :
    (markUsed name pos L).map (fun c => (c.v, c.start, c.isDeclaration)) = L.map (fun c => (c.v, c.start, c.isDeclaration)) := by
  induction L with
  | nil => rfl
  | cons c L ih =>
    simp only [markUsed]
    split
    · rfl
    · simp only [List.map_cons, ih]
      split <;> rfl

/-- Marking, with the numbers of the calls kept. -/
def markP (name : Bytes) (pos : Pos) : List (Nat × CtxVar) → List (Nat × CtxVar)
  | [] => []
  | a :: P =>
    if comparePos pos a.2.v.range.start ≤ 0 then a :: P
    else (a.1, if a.2.isDeclaration ∧ a.2.v.name = name then { a.2 with isUsed := true } else a.2) :: markP name pos P

theorem markP_snd (name : Bytes) (pos : Pos) (P : List (Nat × CtxVar)) :
    (markP name pos P).map Prod.snd = markUsed name pos (P.map Prod.snd) := by
  induction P with
  | nil => rfl
  | cons a P ih =>
    simp only [markP, List.map_cons, markUsed]
    split
    · rfl
    · simp [ih]

theorem markP_mem (name : Bytes) (pos : Pos) (P : List (Nat × CtxVar)) (k : Nat) (c : CtxVar)
    (h : (k, c) ∈ markP name pos P) :
    ∃ c', (k, c') ∈ P ∧ c.v = c'.v ∧ c.start = c'.start ∧ c.isDeclaration = c'.isDeclaration ∧
      (c = c' ∨ (c.isUsed = true ∧ c'.isDeclaration = true ∧ Before c'.v.range.start pos)) := by
  induction P with
  | nil => simp [markP] at h
  | cons a P ih =>
    simp only [markP] at h
    split at h
    · exact ⟨c, h, rfl, rfl, rfl, .inl rfl⟩
    · rename_i hpos
      rcases List.mem_cons.mp h with h | h
      · obtain ⟨rfl, rfl⟩ := Prod.mk.inj h
        refine ⟨a.2, by simp, ?_⟩
        have hb : Before a.2.v.range.start pos := by
          rw [le_zero_iff, not_not] at hpos; exact hpos
        split
        · rename_i hd
          exact ⟨rfl, rfl, rfl, .inr ⟨rfl, hd.1, hb⟩⟩
        · exact ⟨rfl, rfl, rfl, .inl rfl⟩
      · obtain ⟨c', h1, h2⟩ := ih h
        exact ⟨c', List.mem_cons_of_mem _ h1, h2⟩

theorem markP_complete (name : Bytes) (pos : Pos) (P : List (Nat × CtxVar)) (k : Nat) (c : CtxVar)
    (h : (k, c) ∈ P) : ∃ c', (k, c') ∈ markP name pos P ∧ c'.v = c.v ∧ c'.start = c.start ∧ c'.isDeclaration = c.isDeclaration := by
  induction P with
  | nil => simp at h
  | cons a P ih =>
    simp only [markP]
    split
    · exact ⟨c, h, rfl, rfl, rfl⟩
    · rcases List.mem_cons.mp h with h | h
      · refine ⟨_, by rw [List.mem_cons]; left; rw [← h], ?_⟩
        simp only
        split <;> exact ⟨rfl, rfl, rfl⟩
      · obtain ⟨c', h1, h2⟩ := ih h
        exact ⟨c', List.mem_cons_of_mem _ h1, h2⟩

theorem markP_all (name : Bytes) (pos : Pos) (P : List (Nat × CtxVar))
    (hall : ∀ a ∈ P, Before a.2.v.range.start pos ∧ a.2.v.name = name) (k : Nat) (c : CtxVar)
    (h : (k, c) ∈ markP name pos P) (hd : c.isDeclaration = true) : c.isUsed = true := by
  induction P with
  | nil => simp [markP] at h
  | cons a P ih =>
    simp only [markP] at h
    obtain ⟨h1, h2⟩ := hall a (by simp)
    rw [if_neg (by rw [le_zero_iff, not_not]; exact h1)] at h
    rcases List.mem_cons.mp h with h | h
    · obtain ⟨rfl, rfl⟩ := Prod.mk.inj h
      simp only [h2, and_true] at hd ⊢
      split
      · rfl
      · rename_i hn
        rw [if_neg hn] at hd
        exact absurd hd (by simpa using hn)
    · exact ih (fun b hb => hall b (List.mem_cons_of_mem _ hb)) h

theorem markP_ordered (name : Bytes) (pos : Pos) (P : List (Nat × CtxVar)) (h : Ordered P) : Ordered (markP name pos P) := by
  have hmap : (markP name pos P).map (fun a => (a.1, a.2.start)) = P.map (fun a => (a.1, a.2.start)) := by
    clear h
    induction P with
    | nil => rfl
    | cons a P ih =>
      simp only [markP]
      split
      · rfl
      · simp only [List.map_cons, ih]
        split <;> rfl
  have key : ∀ Q : List (Nat × CtxVar), Ordered Q ↔
      (Q.map (fun a => (a.1, a.2.start))).Pairwise (fun a b => Before a.2 b.2 ∨ (a.2 = b.2 ∧ a.1 < b.1)) := by
    intro Q
    rw [List.pairwise_map]
    rfl
  rw [key, hmap, ← key]
  exact h

/-- The insertion step of `add`. -/
def insertCtx (L : List CtxVar) (c : CtxVar) : List CtxVar :=
  let index := if L.length > 0 then
      searchList L fun d => decide (comparePos c.start d.start < 0)
    else 0
  L.take index ++ c :: L.drop index

theorem get_add (vt : VarTable) (r : Rec) (n : Bytes) :
    GoMap.get (vt.add r.v r.start r.isDeclaration) n =
      if n = r.v.name then
        some (insertCtx (if r.isDeclaration then (GoMap.get vt n).getD []
          else markUsed r.v.name r.v.range.start ((GoMap.get vt n).getD [])) ⟨r.v, r.start, r.isDeclaration, false⟩)
      else GoMap.get vt n := by
  unfold VarTable.add
  by_cases hn : n = r.v.name
  · subst hn
    rw [if_pos rfl]
    cases hd : r.isDeclaration
    · cases hg : GoMap.get vt r.v.name with
      | none => simp [hg, GoMap.get_set, insertCtx, markUsed]
      | some L => simp [GoMap.get_set, insertCtx]
    · cases hg : GoMap.get vt r.v.name with
      | none => simp [hg, GoMap.get_set, insertCtx]
      | some L => simp [hg, GoMap.get_set, insertCtx]
  · rw [if_neg hn]
    cases hd : r.isDeclaration
    · cases hg : GoMap.get vt r.v.name with
      | none => simp [hg, GoMap.get_set, hn]
      | some L => simp [GoMap.get_set, hn]
    · cases hg : GoMap.get vt r.v.name with
      | none => simp [hg, GoMap.get_set, hn]
      | some L => simp [hg, GoMap.get_set, hn]

theorem wf_add {vt : VarTable} (h : GoMap.WF vt) (v : Var) (s : Pos) (d : Bool) : GoMap.WF (vt.add v s d) := by
  unfold VarTable.add
  have key : ∀ vt' : VarTable, GoMap.WF vt' → GoMap.WF (match GoMap.get vt' v.name with
    | some prevVars =>
      let index := if prevVars.length > 0 then
          searchList prevVars fun c => decide (comparePos s c.start < 0)
        else 0
      GoMap.set vt' v.name (prevVars.take index ++ ⟨v, s, d, false⟩ :: prevVars.drop index)
    | none => GoMap.set vt' v.name [⟨v, s, d, false⟩]) := by
    intro vt' h'
    split
    · exact GoMap.wf_set h' _ _
    · exact GoMap.wf_set h' _ _
  apply key
  split
  · split
    · exact GoMap.wf_set h _ _
    · exact h
  · exact h

theorem cmp_neg {a b : Pos} : comparePos a b < 0 ↔ Before a b := by
  have h := C50_compare a b
  have h6 := C50_total_order.2.2.2.2.2 a b
  constructor
  · intro hlt
    rcases h6 with h6 | h6 | h6
    · exact h.1.mp h6
    · omega
    · omega
  · intro hb
    have := h.1.mpr hb
    omega

theorem before_trans {a b c : Pos} (h1 : Before a b) (h2 : Before b c) : Before a c := by
  unfold Before at *; omega

theorem before_irrefl {a : Pos} : ¬ Before a a := by
  unfold Before; omega

theorem before_or {a b : Pos} (h : ¬ Before a b) : Before b a ∨ b = a := by
  obtain ⟨al, ac⟩ := a
  obtain ⟨bl, bc⟩ := b
  simp only [Before, Pos.mk.injEq] at *
  omega

/-- The insertion, with the numbers kept. -/
theorem insert_ordered (P : List (Nat × CtxVar)) (h : Ordered P) (k : Nat) (hk : ∀ a ∈ P, a.1 < k) (c : CtxVar) :
    ∃ P', P'.map Prod.snd = insertCtx (P.map Prod.snd) c ∧ Ordered P' ∧ ∀ a, a ∈ P' ↔ a = (k, c) ∨ a ∈ P := by
  have hsp := search_split (P.map Prod.snd) (fun d => decide (comparePos c.start d.start < 0)) (by
    rw [List.pairwise_map]
    refine h.imp ?_
    intro a b hab ha
    simp only [decide_eq_true_eq, cmp_neg] at ha ⊢
    rcases hab with hab | ⟨hab, _⟩
    · exact before_trans ha hab
    · rw [← hab]; exact ha)
  simp only at hsp
  unfold insertCtx
  by_cases hlen : (P.map Prod.snd).length > 0
  · rw [if_pos hlen]
    generalize (searchList (P.map Prod.snd) fun d => decide (comparePos c.start d.start < 0)) = i at hsp ⊢
    obtain ⟨h1, h2, h3⟩ := hsp
    refine ⟨P.take i ++ (k, c) :: P.drop i, by simp [List.map_take, List.map_drop], ?_, ?_⟩
    · unfold Ordered
      rw [List.pairwise_append]
      refine ⟨h.sublist (List.take_sublist _ _), ?_, ?_⟩
      · rw [List.pairwise_cons]
        refine ⟨?_, h.sublist (List.drop_sublist _ _)⟩
        intro b hb
        have := h2 b.2 (by rw [← List.map_drop]; exact List.mem_map_of_mem hb)
        simp only [decide_eq_true_eq, cmp_neg] at this
        exact .inl this
      · intro a ha b hb
        have ha' := h1 a.2 (by rw [← List.map_take]; exact List.mem_map_of_mem ha)
        simp only [decide_eq_false_iff_not, cmp_neg] at ha'
        rcases List.mem_cons.mp hb with rfl | hb
        · rcases before_or ha' with hh | hh
          · exact .inl hh
          · exact .inr ⟨hh, hk a (List.mem_of_mem_take ha)⟩
        · have hab := List.take_append_drop i P ▸ h
          exact (List.pairwise_append.mp hab).2.2 a ha b hb
    · intro a
      have hmem : a ∈ P ↔ a ∈ P.take i ∨ a ∈ P.drop i := by
        rw [← List.mem_append, List.take_append_drop]
      rw [hmem]
      simp only [List.mem_append, List.mem_cons]
      tauto
  · rw [if_neg hlen]
    have : P = [] := by
      cases P with
      | nil => rfl
      | cons a P => simp at hlen
    subst this
    exact ⟨[(k, c)], by simp, by simp [Ordered], by simp⟩

theorem vinv_step {rs : List Rec} {r : Rec} {n : Bytes} {L : List CtxVar} {P : List (Nat × CtxVar)} (h : VInv rs n L P)
    (hn : n = r.v.name) :
    ∃ P', VInv (rs ++ [r]) n (insertCtx (if r.isDeclaration then L else markUsed r.v.name r.v.range.start L)
      ⟨r.v, r.start, r.isDeclaration, false⟩) P' := by
  subst hn
  -- the list after marking
  generalize hM : (if r.isDeclaration then P else markP r.v.name r.v.range.start P) = M
  have hML : M.map Prod.snd = if r.isDeclaration then L else markUsed r.v.name r.v.range.start L := by
    rw [← hM]
    split
    · exact h.list
    · rw [markP_snd, h.list]
  have hMo : Ordered M := by
    rw [← hM]
    split
    · exact h.ordered
    · exact markP_ordered _ _ _ h.ordered
  have hMm : ∀ k c, (k, c) ∈ M → ∃ c', (k, c') ∈ P ∧ c.v = c'.v ∧ c.start = c'.start ∧
      c.isDeclaration = c'.isDeclaration ∧
      (c = c' ∨ (r.isDeclaration = false ∧ c.isUsed = true ∧ c'.isDeclaration = true ∧ Before c'.v.range.start r.v.range.start)) := by
    intro k c hc
    rw [← hM] at hc
    split at hc
    · exact ⟨c, hc, rfl, rfl, rfl, .inl rfl⟩
    · rename_i hd
      obtain ⟨c', h1, h2, h3, h4, h5⟩ := markP_mem _ _ _ _ _ hc
      refine ⟨c', h1, h2, h3, h4, ?_⟩
      rcases h5 with h5 | ⟨h5, h6, h7⟩
      · exact .inl h5
      · exact .inr ⟨by simpa using hd, h5, h6, h7⟩
  have hlt : ∀ a ∈ M, a.1 < rs.length := by
    intro a ha
    obtain ⟨c', h1, _⟩ := hMm a.1 a.2 ha
    exact recorded_lt (h.sound _ _ h1)
  obtain ⟨P', hP1, hP2, hP3⟩ := insert_ordered M hMo rs.length hlt ⟨r.v, r.start, r.isDeclaration, false⟩
  refine ⟨P', ?_⟩
  constructor
  · rw [hP1, hML]
  · exact hP2
  · intro k c hc
    rcases (hP3 _).mp hc with hc | hc
    · obtain ⟨rfl, rfl⟩ := Prod.mk.inj hc
      exact recorded_append.mpr (.inr ⟨rfl, rfl, rfl⟩)
    · obtain ⟨c', h1, h2, h3, h4, _⟩ := hMm k c hc
      have := h.sound _ _ h1
      rw [← h2, ← h3, ← h4] at this
      exact recorded_append.mpr (.inl this)
  · intro k r' hr
    rcases recorded_append.mp hr with hr | ⟨rfl, rfl, _⟩
    · obtain ⟨c, hc⟩ := h.complete k r' hr
      have : ∃ c', (k, c') ∈ M := by
        rw [← hM]
        split
        · exact ⟨c, hc⟩
        · obtain ⟨c', h1, _⟩ := markP_complete r.v.name r.v.range.start P k c hc
          exact ⟨c', h1⟩
      obtain ⟨c', hc'⟩ := this
      exact ⟨c', (hP3 _).mpr (.inr hc')⟩
    · exact ⟨_, (hP3 _).mpr (.inl rfl)⟩
  · intro k c hc hu
    rcases (hP3 _).mp hc with hc | hc
    · obtain ⟨rfl, rfl⟩ := Prod.mk.inj hc
      simp at hu
    · obtain ⟨c', h1, h2, h3, h4, h5⟩ := hMm k c hc
      rcases h5 with rfl | ⟨h5, _, h6, h7⟩
      · obtain ⟨hd, j, u, hj, hu1, hu2, hu3⟩ := h.used _ _ h1 hu
        exact ⟨hd, j, u, hj, recorded_append.mpr (.inl hu1), hu2, hu3⟩
      · refine ⟨by rw [h4, h6], rs.length, r, hlt _ hc, recorded_append.mpr (.inr ⟨rfl, rfl, rfl⟩), h5, ?_⟩
        rw [h2]; exact h7
  · intro hord k c hc hd ⟨j, u, hj, hu1, hu2⟩
    rcases (hP3 _).mp hc with hc | hc
    · obtain ⟨rfl, rfl⟩ := Prod.mk.inj hc
      have := recorded_lt hu1
      simp at this
      omega
    · have hord' : UsesInOrder rs r.v.name := by
        intro i j a b hij ha hb hbd
        exact hord i j a b hij (recorded_append.mpr (.inl ha)) (recorded_append.mpr (.inl hb)) hbd
      rcases recorded_append.mp hu1 with hu1 | ⟨rfl, rfl, _⟩
      · obtain ⟨c', h1, h2, h3, h4, h5⟩ := hMm k c hc
        rcases h5 with rfl | ⟨_, h5, _⟩
        · exact h.usedAll hord' _ _ h1 hd ⟨j, u, hj, hu1, hu2⟩
        · exact h5
      · rw [← hM, if_neg (by simp [hu2])] at hc
        refine markP_all _ _ _ ?_ k c hc hd
        intro a ha
        have hs := h.sound a.1 a.2 ha
        refine ⟨hord a.1 rs.length _ u (recorded_lt hs) (recorded_append.mpr (.inl hs)) hu1 hu2, hs.2⟩

theorem reverseRec {α : Type} {motive : List α → Prop} (l : List α) (nil : motive [])
    (append_singleton : ∀ l a, motive l → motive (l ++ [a])) : motive l := by
  have : ∀ l : List α, motive l.reverse := by
    intro l
    induction l with
    | nil => exact nil
    | cons a l ih => rw [List.reverse_cons]; exact append_singleton _ _ ih
  simpa using this l.reverse

theorem record_append (rs : List Rec) (r : Rec) :
    record (rs ++ [r]) = (record rs).add r.v r.start r.isDeclaration := by
  simp [record]

theorem record_wf (rs : List Rec) : GoMap.WF (record rs) := by
  induction rs using reverseRec with
  | nil => simp [record, GoMap.WF]
  | append_singleton rs r ih => rw [record_append]; exact wf_add ih _ _ _

theorem record_inv (rs : List Rec) (n : Bytes) : ∃ P, VInv rs n ((GoMap.get (record rs) n).getD []) P := by
  induction rs using reverseRec with
  | nil =>
    refine ⟨[], ?_⟩
    constructor <;> simp [record, GoMap.get, Ordered, Recorded]
  | append_singleton rs r ih =>
    obtain ⟨P, hP⟩ := ih
    rw [record_append, get_add]
    split
    · rename_i hn
      obtain ⟨P', hP'⟩ := vinv_step hP hn
      exact ⟨P', hP'⟩
    · rename_i hn
      have hrec : ∀ k r', Recorded (rs ++ [r]) n k r' ↔ Recorded rs n k r' := by
        intro k r'
        rw [recorded_append]
        constructor
        · rintro (h | ⟨_, _, h⟩)
          · exact h
          · exact absurd h.symm hn
        · exact .inl
      refine ⟨P, ?_⟩
      obtain ⟨h1, h2, h3, h4, h5, h6⟩ := hP
      refine ⟨h1, h2, ?_, ?_, ?_, ?_⟩
      · intro k c hc; exact (hrec _ _).mpr (h3 k c hc)
      · intro k r' hr; exact h4 k r' ((hrec _ _).mp hr)
      · intro k c hc hu
        obtain ⟨hd, j, u, hj, hu1, hu2⟩ := h5 k c hc hu
        exact ⟨hd, j, u, hj, (hrec _ _).mpr hu1, hu2⟩
      · intro ho k c hc hd ⟨j, u, hj, hu1, hu2⟩
        refine h6 ?_ k c hc hd ⟨j, u, hj, (hrec _ _).mp hu1, hu2⟩
        intro i j a b hij ha hb hbd
        exact ho i j a b hij ((hrec _ _).mpr ha) ((hrec _ _).mpr hb) hbd

/-- The element before the search result is the latest one. -/
theorem latest_of_search {rs : List Rec} {n : Bytes} {L : List CtxVar} {P : List (Nat × CtxVar)} (h : VInv rs n L P)
    (f : CtxVar → Bool) (Q : Pos → Prop) (hf : ∀ c, f c = false ↔ Q c.start)
    (hmono : ∀ a b, Q b → ¬ Before b a → Q a) :
    let i := searchList L f
    IsLatest rs n Q (if i = 0 then none else (L[i - 1]?).map (·.v)) := by
  intro i
  have hpw : L.Pairwise fun a b => f a = true → f b = true := by
    rw [← h.list, List.pairwise_map]
    refine h.ordered.imp ?_
    intro a b hab ha
    by_contra hb
    rw [Bool.not_eq_true, hf] at hb
    have : Q a.2.start := by
      refine hmono _ _ hb ?_
      rcases hab with hab | ⟨hab, _⟩
      · intro h'; exact before_irrefl (before_trans hab h')
      · rw [hab]; exact before_irrefl
    rw [← hf, ha] at this
    cases this
  obtain ⟨h1, h2, h3⟩ := search_split L f hpw
  change (∀ c ∈ L.take i, f c = false) at h1
  change (∀ c ∈ L.drop i, f c = true) at h2
  change i ≤ L.length at h3
  have hlen : P.length = L.length := by rw [← h.list]; simp
  by_cases hi : i = 0
  · rw [if_pos hi]
    refine .inl ⟨rfl, ?_⟩
    intro k r hr hq
    obtain ⟨c, hc⟩ := h.complete k r hr
    have hcL : c ∈ L := by rw [← h.list]; exact List.mem_map_of_mem hc
    have := h2 c (by rw [hi]; simpa using hcL)
    have hs := h.sound k c hc
    have : r = ⟨c.v, c.start, c.isDeclaration⟩ := by
      have := hr.1.symm.trans hs.1
      exact Option.some.inj this
    subst this
    rw [(hf c).mpr hq] at *
    simp_all
  · rw [if_neg hi]
    right
    have hi1 : i - 1 < P.length := by omega
    have hL : L[i - 1]? = some (P[i - 1].2) := by
      rw [← h.list, List.getElem?_map, List.getElem?_eq_getElem hi1]; rfl
    rw [hL]
    have hmem : ((P[i - 1]).1, (P[i - 1]).2) ∈ P := List.getElem_mem hi1
    have hs := h.sound _ _ hmem
    refine ⟨(P[i - 1]).1, _, hs, rfl, ?_, ?_⟩
    · rw [← hf]
      apply h1
      rw [List.mem_take_iff_getElem]
      refine ⟨i - 1, by omega, ?_⟩
      have := List.getElem?_eq_getElem (by omega : i - 1 < L.length) ▸ hL
      exact Option.some.inj this
    · intro j r' hr' hq
      obtain ⟨c, hc⟩ := h.complete j r' hr'
      have hs' := h.sound j c hc
      have hr : r' = ⟨c.v, c.start, c.isDeclaration⟩ := by
        have := hr'.1.symm.trans hs'.1
        exact Option.some.inj this
      subst hr
      obtain ⟨m, hm, hmc⟩ := List.getElem_of_mem hc
      have hm' : m ≤ i - 1 := by
        by_contra hgt
        have : c ∈ L.drop i := by
          rw [← h.list, ← List.map_drop]
          have : (j, c) ∈ P.drop i := by
            rw [List.mem_drop_iff_getElem]
            exact ⟨m - i, by omega, by simp only [show i + (m - i) = m by omega]; exact hmc⟩
          exact List.mem_map_of_mem (f := Prod.snd) this
        have h5 := h2 c this
        rw [(hf c).mpr hq] at h5
        cases h5
      rcases Nat.lt_or_eq_of_le hm' with hlt | heq
      · have := List.pairwise_iff_getElem.mp h.ordered m (i - 1) hm hi1 hlt
        rw [hmc] at this
        rcases this with h6 | ⟨h6, h7⟩
        · exact .inl h6
        · exact .inr ⟨h6, by simp only at h7; omega⟩
      · subst heq
        rw [hmc]
        exact .inr ⟨rfl, Nat.le_refl _⟩

/-- C45: looking a variable up at a position gives the variable of that name that starts latest among those that start
at or before the position; the one recorded last if several start there; none if there is none. -/
theorem C45_lookup (rs : List Rec) (name : Bytes) (pos : Pos) :
    IsLatest rs name (fun s => ¬ Before pos s) ((record rs).find name pos) := by
  obtain ⟨P, hP⟩ := record_inv rs name
  have := latest_of_search hP (fun c => decide (comparePos pos c.start < 0)) (fun s => ¬ Before pos s)
    (by intro c; simp only [decide_eq_false_iff_not, cmp_neg])
    (by
      intro a b hb hab ha
      rcases before_or hab with h | h
      · exact hb (before_trans ha h)
      · rw [h] at ha; exact hb ha)
  unfold VarTable.find
  cases hg : GoMap.get (record rs) name with
  | some L => rw [hg] at this; exact this
  | none =>
    rw [hg] at this
    simpa [searchList, goSearch, goSearchLoop] using this

/-- C45: the variables offered at a position are, for every name, the one that starts latest strictly before the position
(the one recorded last if several do), each name once. -/
theorem C45_offered (rs : List Rec) (pos : Pos) :
    (∀ v, v ∈ (record rs).getVariables pos ↔ IsLatest rs v.name (fun s => Before s pos) (some v)) ∧
    ((record rs).getVariables pos).Pairwise (fun v w => v.name ≠ w.name) := by
  have hwf := record_wf rs
  have hl : ∀ name L, GoMap.get (record rs) name = some L → IsLatest rs name (fun s => Before s pos) (lastBefore pos L) := by
    intro name L hg
    obtain ⟨P, hP⟩ := record_inv rs name
    rw [hg] at hP
    have := latest_of_search hP (fun c => decide (comparePos c.start pos ≥ 0)) (fun s => Before s pos)
      (by intro c; rw [← cmp_neg]; simp)
      (by
        intro a b hb hab
        rcases before_or hab with h | h
        · exact before_trans h hb
        · rw [h]; exact hb)
    unfold lastBefore
    by_cases h0 : L.length = 0
    · rw [if_pos h0]
      have h0' : L = [] := List.length_eq_zero_iff.mp h0
      subst h0'
      simpa [searchList, goSearch, goSearchLoop] using this
    · rw [if_neg h0]
      exact this
  have hname : ∀ name v P, IsLatest rs name P (some v) → v.name = name := by
    intro name v P h
    rcases h with ⟨h, _⟩ | ⟨k, r, hr, hv, _⟩
    · cases h
    · cases hv; exact hr.2
  constructor
  · intro v
    unfold VarTable.getVariables
    rw [List.mem_filterMap]
    constructor
    · rintro ⟨⟨name, L⟩, hmem, hv⟩
      have := hl name L ((GoMap.mem_iff_get hwf _ _).mp hmem)
      rw [hv] at this
      rw [hname _ _ _ this]
      exact this
    · intro h
      have hrec : ∃ k r, Recorded rs v.name k r := by
        rcases h with ⟨h, _⟩ | ⟨k, r, hr, _⟩
        · cases h
        · exact ⟨k, r, hr⟩
      obtain ⟨k, r, hr⟩ := hrec
      obtain ⟨P, hP⟩ := record_inv rs v.name
      cases hg : GoMap.get (record rs) v.name with
      | none =>
        rw [hg] at hP
        obtain ⟨c, hc⟩ := hP.complete k r hr
        have := hP.list
        simp only [Option.getD_none, List.map_eq_nil_iff] at this
        rw [this] at hc
        cases hc
      | some L =>
        refine ⟨(v.name, L), (GoMap.mem_iff_get hwf _ _).mpr hg, ?_⟩
        have h2 := hl v.name L hg
        -- the latest one is unique
        rcases h with ⟨h, _⟩ | ⟨k1, r1, hr1, hv1, hb1, hm1⟩
        · cases h
        · rcases h2 with ⟨_, hno⟩ | ⟨k2, r2, hr2, hv2, hb2, hm2⟩
          · exact absurd hb1 (hno _ _ hr1)
          · rw [hv2, hv1]
            have e1 := hm1 _ _ hr2 hb2
            have e2 := hm2 _ _ hr1 hb1
            have : k1 = k2 := by
              rcases e1 with e1 | ⟨e1, e1'⟩
              · rcases e2 with e2 | ⟨e2, e2'⟩
                · exact absurd (before_trans e1 e2) before_irrefl
                · rw [e2] at e1; exact absurd e1 before_irrefl
              · rcases e2 with e2 | ⟨e2, e2'⟩
                · rw [e1] at e2; exact absurd e2 before_irrefl
                · omega
            subst this
            have := hr1.1.symm.trans hr2.1
            rw [Option.some.inj this]
  · unfold VarTable.getVariables
    rw [List.pairwise_filterMap]
    have hkeys : (record rs).Pairwise fun a b => a.1 ≠ b.1 := by
      have := hwf
      simp only [GoMap.WF, List.Nodup, List.pairwise_map] at this
      exact this
    have hkeys' := List.Pairwise.imp_of_mem (R := fun a b : Bytes × List CtxVar => a.1 ≠ b.1)
      (S := fun a b : Bytes × List CtxVar => ∀ v, lastBefore pos a.2 = some v → ∀ w, lastBefore pos b.2 = some w → v.name ≠ w.name) (by
        intro a b ha hb hab v hv w hw
        have h1 := hl a.1 a.2 ((GoMap.mem_iff_get hwf _ _).mp ha)
        have h2 := hl b.1 b.2 ((GoMap.mem_iff_get hwf _ _).mp hb)
        rw [hv] at h1
        rw [hw] at h2
        rw [hname _ _ _ h1, hname _ _ _ h2]
        exact hab) hkeys
    exact hkeys'

theorem mem_unused (rs : List Rec) (v : Var) : v ∈ (record rs).unusedVariables ↔
    ∃ name L c, GoMap.get (record rs) name = some L ∧ c ∈ L ∧ c.isDeclaration = true ∧ c.isUsed = false ∧ c.v = v := by
  unfold VarTable.unusedVariables
  simp only [List.mem_flatMap, List.mem_map, List.mem_filter, Bool.and_eq_true, Bool.not_eq_true']
  constructor
  · rintro ⟨⟨name, L⟩, hm, c, ⟨hc, h1, h2⟩, hv⟩
    exact ⟨name, L, c, (GoMap.mem_iff_get (record_wf rs) _ _).mp hm, hc, h1, h2, hv⟩
  · rintro ⟨name, L, c, hg, hc, h1, h2, hv⟩
    exact ⟨(name, L), (GoMap.mem_iff_get (record_wf rs) _ _).mpr hg, c, ⟨hc, h1, h2⟩, hv⟩

/-- C45: every declaration after which no use of its name is recorded is reported as unused. -/
theorem C45_unused_reported (rs : List Rec) (k : Nat) (r : Rec) (h : rs[k]? = some r) (hd : r.isDeclaration = true)
    (hno : ¬ UsedAfter rs r.v.name k) : r.v ∈ (record rs).unusedVariables := by
  rw [mem_unused]
  obtain ⟨P, hP⟩ := record_inv rs r.v.name
  obtain ⟨c, hc⟩ := hP.complete k r ⟨h, rfl⟩
  have hs := (hP.sound k c hc).1
  rw [h, Option.some.injEq] at hs
  subst hs
  cases hg : GoMap.get (record rs) c.v.name with
  | none =>
    rw [hg] at hP
    have := hP.list
    simp only [Option.getD_none, List.map_eq_nil_iff] at this
    rw [this] at hc
    cases hc
  | some L =>
    refine ⟨c.v.name, L, c, hg, ?_, hd, ?_, rfl⟩
    · have := hP.list
      rw [hg] at this
      simp only [Option.getD_some] at this
      rw [← this]
      exact List.mem_map_of_mem (f := Prod.snd) hc
    · by_contra hu
      rw [Bool.not_eq_false] at hu
      obtain ⟨_, j, u, hj, hu1, hu2, _⟩ := hP.used k c hc hu
      exact hno ⟨j, u, hj, hu1, hu2⟩

/-- C45, partial: a variable is reported as unused only if it is a declaration after which no use of the name is
recorded, for a scope in which every use is in the text after the earlier recorded variables of its name. Missing:
the hypothesis is needed (`C45_false_break`). -/
theorem C45_unused_partial (rs : List Rec) (v : Var) (hord : ∀ name, UsesInOrder rs name) :
    v ∈ (record rs).unusedVariables ↔
      ∃ k r, rs[k]? = some r ∧ r.v = v ∧ r.isDeclaration = true ∧ ¬ UsedAfter rs r.v.name k := by
  constructor
  · rw [mem_unused]
    rintro ⟨name, L, c, hg, hc, hd, hu, rfl⟩
    obtain ⟨P, hP⟩ := record_inv rs name
    have hl := hP.list
    rw [hg] at hl
    simp only [Option.getD_some] at hl
    rw [← hl, List.mem_map] at hc
    obtain ⟨⟨k, c'⟩, hm, rfl⟩ := hc
    have hs := hP.sound k c' hm
    refine ⟨k, _, hs.1, rfl, hd, ?_⟩
    simp only
    rw [hs.2]
    intro hua
    have := hP.usedAll (hord name) k c' hm hd hua
    simp only at hu
    rw [hu] at this
    cases this
  · rintro ⟨k, r, hr, rfl, hd, hno⟩
    exact C45_unused_reported rs k r hr hd hno

/-- C45 does not hold for arbitrary recordings: a variable that starts early but stands late in the text stops the
marking, so the declaration at 1:0, whose use at 2:0 is recorded later, is still reported. -/
theorem C45_false_break : ∃ rs v, v ∈ (record rs).unusedVariables ∧
    ∃ r, rs[1]? = some r ∧ r.v = v ∧ UsedAfter rs r.v.name 1 :=
  ⟨[⟨⟨b!"$a", ⟨⟨9, 0⟩, ⟨9, 2⟩⟩, 0⟩, ⟨0, 0⟩, false⟩, ⟨⟨b!"$a", ⟨⟨1, 0⟩, ⟨1, 2⟩⟩, 1⟩, ⟨1, 2⟩, true⟩,
      ⟨⟨b!"$a", ⟨⟨2, 0⟩, ⟨2, 2⟩⟩, 2⟩, ⟨2, 2⟩, false⟩],
    ⟨b!"$a", ⟨⟨1, 0⟩, ⟨1, 2⟩⟩, 1⟩, by decide +kernel,
    ⟨⟨b!"$a", ⟨⟨1, 0⟩, ⟨1, 2⟩⟩, 1⟩, ⟨1, 2⟩, true⟩, by decide +kernel, rfl,
    2, ⟨⟨b!"$a", ⟨⟨2, 0⟩, ⟨2, 2⟩⟩, 2⟩, ⟨2, 2⟩, false⟩, by omega, ⟨rfl, rfl⟩, rfl⟩

/-- `$a = 1; $b = $a; $a = 2;` -/
def threeStatements : List Rec :=
  [⟨⟨b!"$a", ⟨⟨0, 0⟩, ⟨0, 2⟩⟩, 0⟩, ⟨0, 6⟩, true⟩,
    ⟨⟨b!"$a", ⟨⟨0, 13⟩, ⟨0, 15⟩⟩, 1⟩, ⟨0, 15⟩, false⟩,
    ⟨⟨b!"$b", ⟨⟨0, 8⟩, ⟨0, 10⟩⟩, 2⟩, ⟨0, 15⟩, true⟩,
    ⟨⟨b!"$a", ⟨⟨0, 17⟩, ⟨0, 19⟩⟩, 3⟩, ⟨0, 23⟩, true⟩]

-- the first `$a` is used, `$b` and the second `$a` are not
example : ((record threeStatements).unusedVariables.map (·.tag)) = [3, 2] ∧
    (((record threeStatements).find b!"$a" ⟨0, 20⟩).map (·.tag)) = some 1 ∧
    (((record threeStatements).getVariables ⟨0, 15⟩).map (·.tag)) = [0] := by decide +kernel

-- the uses are in order
example : ∀ name, UsesInOrder threeStatements name := by
  intro name i j r u hij hr hu hd
  have hj := recorded_lt hu
  simp [threeStatements] at hj
  obtain ⟨hu1, rfl⟩ := hu
  obtain ⟨hr1, hr2⟩ := hr
  rcases (by omega : j = 0 ∨ j = 1 ∨ j = 2 ∨ j = 3) with rfl | rfl | rfl | rfl <;> simp [threeStatements] at hu1 <;> subst hu1 <;> simp at hd
  have hi : i = 0 := by omega
  subst hi
  simp [threeStatements] at hr1
  subst hr1
  simp [Before]

theorem isInRange_zero (p : Pos) (r : Rng) : isInRange p r = 0 ↔ ¬ Before p r.start ∧ Before p r.stop := (C50_in_range p r).2.1

mutual

theorem findScope_spec (pos : Pos) : (root : Tree Rng) → ∃ p, Descends pos root p (findScope pos root) ∧
    ∀ c ∈ (findScope pos root).kids, ¬ (¬ Before pos c.info.start ∧ Before pos c.info.stop)
  | .node r kids => by
    rw [findScope]
    have h := findScopeIn_spec pos kids
    cases hf : findScopeIn pos kids with
    | none =>
      rw [hf] at h
      exact ⟨[], .here _, h⟩
    | some t =>
      rw [hf] at h
      obtain ⟨i, c, p, h1, h2, h3, h4, h5⟩ := h
      exact ⟨i :: p, .down h1 h2 h3 h4, h5⟩

theorem findScopeIn_spec (pos : Pos) : (kids : List (Tree Rng)) → match findScopeIn pos kids with
    | none => ∀ c ∈ kids, ¬ (¬ Before pos c.info.start ∧ Before pos c.info.stop)
    | some t => ∃ (i : Nat) (c : Tree Rng) (p : List Nat), kids[i]? = some c ∧ ¬ Before pos c.info.start ∧ Before pos c.info.stop ∧ Descends pos c p t ∧
        ∀ c ∈ t.kids, ¬ (¬ Before pos c.info.start ∧ Before pos c.info.stop)
  | [] => by simp [findScopeIn]
  | c :: cs => by
    rw [findScopeIn]
    by_cases hc : isInRange pos c.info = 0
    · rw [if_pos hc]
      rw [isInRange_zero] at hc
      obtain ⟨p, h1, h2⟩ := findScope_spec pos c
      exact ⟨0, c, p, rfl, hc.1, hc.2, h1, h2⟩
    · rw [if_neg hc]
      rw [isInRange_zero] at hc
      have h := findScopeIn_spec pos cs
      cases hf : findScopeIn pos cs with
      | none =>
        rw [hf] at h
        intro d hd
        rcases List.mem_cons.mp hd with rfl | hd
        · exact hc
        · exact h d hd
      | some t =>
        rw [hf] at h
        obtain ⟨i, d, p, h1, h2⟩ := h
        exact ⟨i + 1, d, p, by simpa using h1, h2⟩

end

/-- C66: the scope of a position is reached from the document's scope through scopes that contain the position, and no
scope directly inside it contains the position. -/
theorem C66_scope (pos : Pos) (root : Tree Rng) :
    ∃ p, Descends pos root p (findScope pos root) ∧
      ∀ c ∈ (findScope pos root).kids, ¬ (¬ Before pos c.info.start ∧ Before pos c.info.stop) :=
  findScope_spec pos root

theorem descends_prefix {pos : Pos} {root : Tree Rng} (ha : Apart pos root) {p q : List Nat} {t u : Tree Rng}
    (hp : Descends pos root p t) (ht : ∀ c ∈ t.kids, ¬ (¬ Before pos c.info.start ∧ Before pos c.info.stop))
    (hq : Descends pos root q u) : q <+: p := by
  induction hq generalizing p t with
  | here => exact List.nil_prefix
  | down hc h1 h2 _ ih =>
    cases hp with
    | here => exact absurd ⟨h1, h2⟩ (ht _ (List.mem_of_getElem? hc))
    | down hc' h1' h2' hd =>
      cases ha with
      | node hu hk =>
        have := hu _ _ _ _ hc hc' h1 h2 h1' h2'
        subst this
        rw [hc, Option.some.injEq] at hc'
        subst hc'
        exact List.cons_prefix_cons.mpr ⟨rfl, ih (hk _ (List.mem_of_getElem? hc)) hd ht⟩

/-- C66: it is the innermost of all scopes around the position, for a document in which no two scopes next to
each other contain the position. (`C66_analysed`: the analysis only makes such documents.) -/
theorem C66_innermost (pos : Pos) (root : Tree Rng) (ha : Apart pos root) :
    ∃ p, Descends pos root p (findScope pos root) ∧ ∀ q u, Descends pos root q u → q <+: p := by
  obtain ⟨p, h1, h2⟩ := C66_scope pos root
  exact ⟨p, h1, fun q u hq => descends_prefix ha h1 h2 hq⟩

theorem queueLoop_mem {α : Type} (y : α) (queue : List (Tree α)) : y ∈ queueLoop queue ↔ ∃ t ∈ queue, Within t y := by
  induction queue using queueLoop.induct with
  | case1 => simp [queueLoop]
  | case2 x kids queue ih =>
    rw [queueLoop, List.mem_cons, ih]
    constructor
    · rintro (rfl | ⟨t, ht, hw⟩)
      · exact ⟨_, List.mem_cons_self, .root _ _⟩
      · rcases List.mem_append.mp ht with ht | ht
        · exact ⟨t, List.mem_cons_of_mem _ ht, hw⟩
        · exact ⟨_, List.mem_cons_self, .kid ht hw⟩
    · rintro ⟨t, ht, hw⟩
      rcases List.mem_cons.mp ht with rfl | ht
      · cases hw with
        | root => exact .inl rfl
        | kid hc hw => exact .inr ⟨_, List.mem_append_right _ hc, hw⟩
      · exact .inr ⟨t, List.mem_append_left _ ht, hw⟩

/-- C45: the unused variables of a document are those of all its scopes, however deep. -/
theorem C45_document (root : Tree VarTable) (v : Var) :
    v ∈ unusedInDocument root ↔ ∃ vt, Within root vt ∧ v ∈ vt.unusedVariables := by
  unfold unusedInDocument
  simp only [List.mem_flatMap, queueLoop_mem, List.mem_singleton, exists_eq_left]

/-- A document with two functions, the second with a closure. -/
def someScopes : Tree Rng :=
  .node ⟨⟨0, 0⟩, ⟨30, 0⟩⟩ [.node ⟨⟨1, 0⟩, ⟨5, 1⟩⟩ [],
    .node ⟨⟨6, 0⟩, ⟨20, 1⟩⟩ [.node ⟨⟨8, 4⟩, ⟨10, 5⟩⟩ []]]

example : (findScope ⟨9, 0⟩ someScopes).info = ⟨⟨8, 4⟩, ⟨10, 5⟩⟩ ∧ (findScope ⟨5, 1⟩ someScopes).info = ⟨⟨0, 0⟩, ⟨30, 0⟩⟩ := by
  decide +kernel

example : Apart ⟨9, 0⟩ someScopes := by
  refine .node ?_ ?_
  · intro i j a b hi hj h1 h2 h3 h4
    have hi' : i < 2 := by by_contra h; rw [List.getElem?_eq_none (by simpa using h)] at hi; cases hi
    have hj' : j < 2 := by by_contra h; rw [List.getElem?_eq_none (by simpa using h)] at hj; cases hj
    rcases (by omega : i = 0 ∨ i = 1) with rfl | rfl <;> rcases (by omega : j = 0 ∨ j = 1) with rfl | rfl <;> simp at hi hj <;> subst hi <;> subst hj <;> simp_all [Before, Tree.info]
  · intro c hc
    simp only [List.mem_cons, List.not_mem_nil, or_false] at hc
    rcases hc with rfl | rfl
    · exact .node (by simp) (by simp)
    · refine .node ?_ ?_
      · intro i j a b hi hj _ _ _ _
        have hi' : i < 1 := by by_contra h; rw [List.getElem?_eq_none (by simp only [List.length_cons, List.length_nil]; omega)] at hi; cases hi
        have hj' : j < 1 := by by_contra h; rw [List.getElem?_eq_none (by simp only [List.length_cons, List.length_nil]; omega)] at hj; cases hj
        omega
      · intro c hc
        simp only [List.mem_singleton] at hc
        subst hc
        exact .node (by simp) (by simp)

end Verif.Symbols
