import Verif.Query.Own
import Verif.Query.Frame

/-! The searches for properties and constants collect what every class of the lineage declares, whatever was asked before. -/

namespace Verif.Query

/-- Only names of interfaces. -/
def OnlyIntf (w : World) (l : List Bytes) : Prop := ∀ s ∈ l, ∃ i ∈ w.interfaces, i.name = s

/-- The sets of the cached results for interfaces of the kind `k` only contain names of interfaces. -/
def PlainOk (w : World) (k : Kind) (st : St) : Prop := ∀ fqn nm r, st.cache.get (.intf, k, fqn, nm) = some r →
  r.searched < st.next ∧ OnlyIntf w (st.sets r.searched)

/-- The same, and the set `id` does as well. -/
structure PlainAt (w : World) (k : Kind) (id : Nat) (st : St) : Prop where
  ok : PlainOk w k st
  next : id < st.next
  set : OnlyIntf w (st.sets id)

theorem intfLoop_set (w : World) (k : Kind) (name : Bytes) (n : Nat) (queue : List Intf) (m : Inherited) (st : St)
    (r : Inherited × St) (h : intfLoop w k name n queue m st = some r) (hq : ∀ i ∈ queue, i ∈ w.interfaces)
    (hst : OnlyIntf w (st.sets m.searched)) : OnlyIntf w (r.2.sets m.searched) := by
  induction n generalizing queue m st with
  | zero =>
    cases queue with
    | nil => simp only [intfLoop, Option.some.injEq] at h; subst h; exact hst
    | cons i q => simp [intfLoop] at h
  | succ n ih =>
    cases queue with
    | nil => simp only [intfLoop, Option.some.injEq] at h; subst h; exact hst
    | cons i q =>
      simp only [intfLoop] at h
      split at h
      · exact ih _ _ _ h (fun j hj => hq j (by simp [hj])) hst
      · have key := ih _ _ _ h (by
          intro j hj
          rw [List.mem_append, List.mem_filter] at hj
          rcases hj with hj | ⟨hj, -⟩
          · exact hq j (by simp [hj])
          · exact ((mem_parents w i j).mp hj).2.2) (by
          intro s hs
          rcases (st.mem_mark _ _ _ _).mp hs with hs | ⟨-, hs⟩
          · exact hst s hs
          · simp only [List.mem_singleton] at hs
            exact ⟨i, hq i (by simp), hs.symm⟩)
        exact key

theorem getInterface_plain {w : World} {k : Kind} {n : Nat} {i : Intf} (hi : i ∈ w.interfaces) {name : Bytes} {id : Nat} {st : St}
    {r : Inherited × St} (hst : PlainAt w k id st) (h : getInterface w k n i name (some id) st = some r) :
    PlainAt w k id r.2 ∧ r.1.searched < r.2.next ∧ OnlyIntf w (r.2.sets r.1.searched) := by
  unfold getInterface at h
  simp only [St.searchedOr] at h
  split at h
  · rename_i m hm
    simp only [Option.some.injEq] at h
    subst h
    exact ⟨hst, hst.ok _ _ _ hm⟩
  · obtain ⟨⟨m, st'⟩, h1, rfl⟩ := Option.map_eq_some_iff.mp h
    have hk := intfLoop_keeps _ _ _ _ _ _ _ _ h1
    have hs := intfLoop_set _ _ _ _ _ _ _ _ h1 (by simpa using hi) hst.set
    have hn : st'.next = st.next := hk.next
    have hc : st'.cache = st.cache := hk.cache
    have hse : m.searched = id := hk.searched
    have hid : id < st'.next := by rw [hn]; exact hst.next
    refine ⟨⟨?_, hid, hs⟩, by rw [hse]; exact hid, by rw [hse]; exact hs⟩
    intro fqn nm r hr
    simp only [GoMap.get_set] at hr
    split at hr
    · cases hr
      rw [hse]
      exact ⟨hid, hs⟩
    · rw [hc] at hr
      obtain ⟨h2, h3⟩ := hst.ok _ _ _ hr
      refine ⟨by rw [hn]; exact h2, ?_⟩
      by_cases he : r.searched = id
      · rw [he]; exact hs
      · rw [show st'.sets r.searched = st.sets r.searched from hk.others _ he]
        exact h3

theorem PlainAt.mark {w : World} {k : Kind} {id : Nat} {st : St} (h : PlainAt w k id st) (l : List Bytes) (hl : OnlyIntf w l) :
    PlainAt w k id (st.mark id l) := by
  have hs : ∀ j, OnlyIntf w (st.sets j) → OnlyIntf w ((st.mark id l).sets j) := by
    intro j hj s hs
    rcases (st.mem_mark _ _ _ _).mp hs with hs | ⟨-, hs⟩
    · exact hj s hs
    · exact hl s hs
  exact ⟨fun fqn nm r hr => ⟨(h.ok _ _ _ hr).1, hs _ (h.ok _ _ _ hr).2⟩, h.next, hs _ h.set⟩

theorem mergeInterfaces_plain {w : World} {k : Kind} {n : Nat} {name : Bytes} (is : List Intf)
    (his : ∀ i ∈ is, i ∈ w.interfaces) (m : Inherited) (st : St) (r : Inherited × St)
    (h : mergeInterfaces w k n name is m st = some r) (hst : PlainAt w k m.searched st) : PlainAt w k m.searched r.2 := by
  induction is generalizing m st with
  | nil => simp only [mergeInterfaces, Option.some.injEq] at h; subst h; exact hst
  | cons i is ih =>
    simp only [mergeInterfaces] at h
    cases hg : getInterface w k n i name (some m.searched) st with
    | none => rw [hg] at h; simp at h
    | some r' =>
      rw [hg] at h
      obtain ⟨h1, -, h3⟩ := getInterface_plain (his i (by simp)) hst hg
      exact ih (fun j hj => his j (by simp [hj])) (merge m r'.1 r'.2).1 _ h (h1.mark _ h3)

/-- The ancestors of a class, beginning with its parent. -/
theorem Ancestor.cases_head {w : World} {c d : Cls} (h : Ancestor w c d) : d = c ∨ ∃ e, ParentOf w c e ∧ Ancestor w e d := by
  induction h with
  | self => exact .inl rfl
  | @parent d e _ h1 h2 h3 ih =>
    right
    rcases ih with rfl | ⟨x, hx, hxd⟩
    · exact ⟨e, ⟨h1, h2, h3⟩, .self⟩
    · exact ⟨x, hx, .parent hxd h1 h2 h3⟩

/-- All that the classes above declare is collected. -/
theorem plainLoop_all {w : World} (ha : Apart w) {k : Kind} {name : Bytes} {ni : Nat} (n : Nat) (queue : List Cls)
    (m mi : Inherited) (st : St) (r : Inherited × Inherited × St) (h : plainLoop w k name ni n queue m mi st = some r)
    (hid : mi.searched = m.searched) (hst : PlainAt w k m.searched st) :
    PlainAt w k m.searched r.2.2 ∧
    ∀ c ∈ queue, ∀ d, Ancestor w c d → ∀ f ∈ w.found k d.name name, f ∈ r.1.members := by
  induction n generalizing queue m mi st with
  | zero =>
    cases queue with
    | nil => simp only [plainLoop, Option.some.injEq] at h; subst h; exact ⟨hst, by simp⟩
    | cons c q => simp [plainLoop] at h
  | succ n ih =>
    cases queue with
    | nil => simp only [plainLoop, Option.some.injEq] at h; subst h; exact ⟨hst, by simp⟩
    | cons c q =>
      simp only [plainLoop] at h
      split at h
      · simp at h
      · rename_i mi' st' hg
        have h1 := mergeInterfaces_plain _ (fun i hi => ((mem_implemented w c i).mp hi).2.2) _ _ _ hg (by rw [hid]; exact hst)
        rw [hid] at h1
        have h2 := (frame_mergeInterfaces _ _ _ _ _ _ _ _ hg).2
        obtain ⟨h3, h4⟩ := ih _ _ _ _ h (by rw [h2]; exact hid) h1
        refine ⟨h3, ?_⟩
        intro c' hc' d hd f hf
        rcases List.mem_cons.mp hc' with rfl | hc'
        · rcases hd.cases_head with rfl | ⟨e, hp, hed⟩
          · have := (sameCls_plainLoop _ _ _ _ _ _ _ _ _ _ h).2
            exact this.subset (List.mem_append_right _ hf)
          · refine h4 e ?_ d hed f hf
            have hfol : c'.ext ≠ [] ∧ c'.ext ∉ st.sets m.searched := by
              refine ⟨hp.1, fun hin => ?_⟩
              obtain ⟨i, hi, he⟩ := hst.set _ hin
              exact ha e hp.2.1 i hi (by rw [hp.2.2, he])
            rw [if_pos hfol]
            exact List.mem_append_right _ ((parentOf_iff w c' e).mp hp).2
        · refine h4 c' ?_ d hd f hf
          split
          · exact List.mem_append_left _ hc'
          · exact hc'

/-- The cached results for a class contain all that the class and the classes above it declare. -/
def AllAbove (w : World) (k : Kind) (st : St) : Prop := ∀ fqn nm r, st.cache.get (.cls, k, fqn, nm) = some r →
  ∀ c ∈ w.classes, c.name = fqn → ∀ d, Ancestor w c d → ∀ f ∈ w.found k d.name nm, f ∈ r.members

/-- What holds between lookups, for the kind `k`. -/
structure PlainInv (w : World) (k : Kind) (st : St) : Prop where
  ok : PlainOk w k st
  all : AllAbove w k st

theorem PlainOk.newSet {w : World} {k : Kind} {st : St} (h : PlainOk w k st) : PlainAt w k st.next st.newSet.2 := by
  refine ⟨fun fqn nm r hr => ?_, Nat.lt_succ_self _, fun s hs => ?_⟩
  · obtain ⟨h1, h2⟩ := h fqn nm r hr
    refine ⟨Nat.lt_succ_of_lt h1, ?_⟩
    simp only [St.newSet]
    rw [if_neg (Nat.ne_of_lt h1)]
    exact h2
  · simp [St.newSet] at hs

/-- Lookups of other kinds change nothing. -/
theorem PlainInv.frame {w : World} {k k' : Kind} {st st' : St} (h : PlainInv w k st) (hk : k ≠ k')
    (hf : Frame k' st.next st.newSet.2 st') : PlainInv w k st' := by
  refine ⟨fun fqn nm r hr => ?_, fun fqn nm r hr => ?_⟩
  · rw [hf.other _ _ _ _ (by simp) hk] at hr
    obtain ⟨h1, h2⟩ := h.ok fqn nm r hr
    have hlt : r.searched < st.newSet.2.next := Nat.lt_succ_of_lt h1
    refine ⟨Nat.lt_of_lt_of_le hlt hf.next, ?_⟩
    rw [hf.sets _ hlt (Nat.ne_of_lt h1)]
    simp only [St.newSet]
    rw [if_neg (Nat.ne_of_lt h1)]
    exact h2
  · rw [hf.other _ _ _ _ (by simp) hk] at hr
    exact h.all fqn nm r hr

theorem AllAbove.same {w : World} {k : Kind} {a b : St} (h : AllAbove w k a) (hs : SameCls a b) : AllAbove w k b :=
  fun fqn nm r hr => h fqn nm r ((hs _ _ _).symm.trans hr)

theorem getClassPlain_all {w : World} (hw : Distinct w) (ha : Apart w) {k : Kind} {n ni : Nat} {c : Cls} (hc : c ∈ w.classes)
    {name : Bytes} {st : St} {r : Inherited × St} (hst : PlainInv w k st) (h : getClassPlain w k n ni c name none st = some r) :
    PlainInv w k r.2 ∧ ∀ d, Ancestor w c d → ∀ f ∈ w.found k d.name name, f ∈ r.1.members := by
  unfold getClassPlain at h
  simp only [St.searchedOr] at h
  split at h
  · rename_i m hm
    cases h
    exact ⟨⟨hst.ok.newSet.ok, hst.all.same (.of_eq rfl)⟩, fun d hd f hf => hst.all _ _ _ hm c hc rfl d hd f hf⟩
  · split at h
    · cases h
    · rename_i m mi st2 hl
      cases h
      obtain ⟨h1, h2⟩ := plainLoop_all ha _ _ _ _ _ _ hl rfl hst.ok.newSet
      obtain ⟨-, h3, h4⟩ := frame_plainLoop _ _ _ _ _ _ _ _ _ _ hl rfl
      have hs := (sameCls_plainLoop _ _ _ _ _ _ _ _ _ _ hl).1
      have hall : ∀ d, Ancestor w c d → ∀ f ∈ w.found k d.name name, f ∈ (merge m mi st2).1.members :=
        fun d hd f hf => List.mem_append_left _ (h2 c (by simp) d hd f hf)
      have hm : PlainAt w k st.next (merge m mi st2).2 := by
        have e3 : m.searched = st.next := h3
        have e4 : mi.searched = st.next := h4
        simp only [merge, e3, e4]
        exact h1.mark _ h1.set
      refine ⟨⟨fun fqn nm r hr => ?_, fun fqn nm r hr => ?_⟩, hall⟩
      · simp only [GoMap.get_set] at hr
        rw [if_neg (by simp)] at hr
        exact hm.ok fqn nm r hr
      · simp only [GoMap.get_set] at hr
        split at hr
        · rename_i e
          simp only [Prod.mk.injEq, true_and] at e
          obtain ⟨rfl, rfl⟩ := e
          cases hr
          intro c' hc' hn d hd f hf
          have : c' = c := hw.cls hc' hc (by rw [hn])
          subst this
          exact hall d hd f hf
        · exact (hst.all.same (((SameCls.of_eq rfl).trans hs).trans (.of_eq rfl))) fqn nm r hr

/-- Whatever was asked before. -/
theorem Resolving.plain_inv {w : World} (hw : Distinct w) (ha : Apart w) {k : Kind} (hk : k ≠ .methods) {st : St}
    (h : Resolving w st) : PlainInv w k st := by
  induction h with
  | new => exact ⟨fun f n r hr => by simp [St.new, GoMap.get] at hr, fun f n r hr => by simp [St.new, GoMap.get] at hr⟩
  | @interface st k' n i name r _ hi hr ih =>
    change getInterface w k' n i name (some st.next) st.newSet.2 = some r at hr
    by_cases e : k = k'
    · subst e
      exact ⟨(getInterface_plain hi ih.ok.newSet hr).1.ok,
        (ih.all.same (b := st.newSet.2) (.of_eq rfl)).same (sameCls_getInterface _ _ _ _ _ _ _ _ hr)⟩
    · exact ih.frame e (frame_getInterface _ _ _ _ _ _ _ _ hr)
  | @methods st n ni c name r _ hc hr ih =>
    unfold getClassMethods at hr
    simp only [St.searchedOr] at hr
    split at hr
    · cases hr; exact ih.frame hk (.refl _ _ _)
    · split at hr
      · cases hr
      · rename_i m mi st2 hl
        cases hr
        obtain ⟨h2, h3, -⟩ := frame_methodLoop _ _ _ _ _ _ _ _ _ hl rfl
        have h3 : m.searched = st.next := h3
        refine ih.frame hk ((h2.trans ?_).trans (frame_set _ _ _ .cls (by simp) _ _ _))
        have := frame_merge .methods m mi st2
        rw [h3] at this
        exact this
  | @plain st k' n ni c name r _ _ hc hr ih =>
    by_cases e : k = k'
    · subst e
      exact (getClassPlain_all hw ha hc ih hr).1
    · unfold getClassPlain at hr
      simp only [St.searchedOr] at hr
      split at hr
      · cases hr; exact ih.frame e (.refl _ _ _)
      · split at hr
        · cases hr
        · rename_i m mi st2 hl
          cases hr
          obtain ⟨h2, h3, -⟩ := frame_plainLoop _ _ _ _ _ _ _ _ _ _ hl rfl
          have h3 : m.searched = st.next := h3
          refine ih.frame e ((h2.trans ?_).trans (frame_set _ _ _ .cls (by simp) _ _ _))
          have := frame_merge k' m mi st2
          rw [h3] at this
          exact this

end Verif.Query
