import Verif.Query.Hover
import Verif.Query.PropsRefer

/-! What a class declares itself is found first, also by a query that was used before. -/

namespace Verif.Query

/-- The states that the lookups of `Resolve` lead to: each has a set of searched names of its own. -/
inductive Resolving (w : World) : St → Prop where
  | new : Resolving w St.new
  | interface {st k n i name r} : Resolving w st → i ∈ w.interfaces → getInterface w k n i name none st = some r →
      Resolving w r.2
  | methods {st n ni c name r} : Resolving w st → c ∈ w.classes → getClassMethods w n ni c name none st = some r →
      Resolving w r.2
  | plain {st k n ni c name r} : Resolving w st → k ≠ .methods → c ∈ w.classes →
      getClassPlain w k n ni c name none st = some r → Resolving w r.2

theorem Resolving.reachable {w : World} {st : St} (h : Resolving w st) : Reachable w st := by
  induction h with
  | new => exact .new
  | interface _ hi hr ih => exact .interface ih hi hr
  | methods _ hi hr ih => exact .methods ih hi hr
  | plain _ hk hi hr ih => exact .plain ih hk hi hr

/-- The results for classes in the cache are the same. -/
def SameCls (st st' : St) : Prop := ∀ k fqn nm, st'.cache.get (.cls, k, fqn, nm) = st.cache.get (.cls, k, fqn, nm)

theorem SameCls.rfl' (st : St) : SameCls st st := fun _ _ _ => rfl

theorem SameCls.trans {a b c : St} (h : SameCls a b) (h' : SameCls b c) : SameCls a c := fun k f n => (h' k f n).trans (h k f n)

theorem SameCls.of_eq {a b : St} (h : b.cache = a.cache) : SameCls a b := fun _ _ _ => by rw [h]

theorem sameCls_set (st : St) (o : Of) (ho : o ≠ .cls) (k : Kind) (fqn nm : Bytes) (m : Inherited) :
    SameCls st { st with cache := st.cache.set (o, k, fqn, nm) m } := by
  intro k' f n
  simp only [GoMap.get_set]
  rw [if_neg]
  simp [Ne.symm ho]

theorem sameCls_intfLoop (w : World) (k : Kind) (name : Bytes) (n : Nat) (queue : List Intf) (m : Inherited) (st : St)
    (r : Inherited × St) (h : intfLoop w k name n queue m st = some r) : SameCls st r.2 := by
  induction n generalizing queue m st with
  | zero =>
    cases queue with
    | nil => simp only [intfLoop, Option.some.injEq] at h; subst h; exact .rfl' _
    | cons _ _ => simp [intfLoop] at h
  | succ n ih =>
    cases queue with
    | nil => simp only [intfLoop, Option.some.injEq] at h; subst h; exact .rfl' _
    | cons i queue =>
      rw [intfLoop] at h
      split at h
      · exact ih _ _ _ h
      · exact (SameCls.of_eq (a := st) (b := st.mark m.searched [i.name]) rfl).trans (ih _ _ _ h)

theorem searchedOr_same (st : St) (o : Option Nat) : SameCls st (st.searchedOr o).2 := .of_eq (st.searchedOr_cache o)

theorem sameCls_getInterface (w : World) (k : Kind) (n : Nat) (i : Intf) (name : Bytes) (o : Option Nat) (st : St)
    (r : Inherited × St) (h : getInterface w k n i name o st = some r) : SameCls st r.2 := by
  unfold getInterface at h
  simp only at h
  split at h
  · cases h; exact searchedOr_same st o
  · obtain ⟨⟨m, st'⟩, hl, rfl⟩ := Option.map_eq_some_iff.mp h
    exact ((searchedOr_same st o).trans (sameCls_intfLoop _ _ _ _ _ _ _ _ hl)).trans (sameCls_set _ _ (by decide) _ _ _ _)

theorem sameCls_getTrait (w : World) (t : Trt) (name : Bytes) (st : St) : SameCls st (getTrait w t name st).2 := by
  unfold getTrait
  split
  · exact .rfl' _
  · exact (SameCls.of_eq (a := st) (b := st.newSet.2) rfl).trans (sameCls_set _ _ (by decide) _ _ _ _)

theorem sameCls_mergeTraits (w : World) (name : Bytes) (ts : List Trt) (m : Inherited) (st : St) :
    SameCls st (mergeTraits w name ts m st).2 ∧ m.members <+: (mergeTraits w name ts m st).1.members := by
  unfold mergeTraits
  induction ts generalizing m st with
  | nil => exact ⟨.rfl' _, List.prefix_rfl⟩
  | cons t ts ih =>
    rw [List.foldl_cons]
    obtain ⟨h1, h2⟩ := ih (merge m (getTrait w t name st).1 (getTrait w t name st).2).1
      (merge m (getTrait w t name st).1 (getTrait w t name st).2).2
    exact ⟨((sameCls_getTrait w t name st).trans (.of_eq rfl)).trans h1, (List.prefix_append _ _).trans h2⟩

theorem sameCls_mergeInterfaces (w : World) (k : Kind) (n : Nat) (name : Bytes) (is : List Intf) (m : Inherited) (st : St)
    (r : Inherited × St) (h : mergeInterfaces w k n name is m st = some r) : SameCls st r.2 := by
  induction is generalizing m st with
  | nil => simp only [mergeInterfaces, Option.some.injEq] at h; subst h; exact .rfl' _
  | cons i is ih =>
    rw [mergeInterfaces] at h
    split at h
    · cases h
    · rename_i q st' hg
      have h' : mergeInterfaces w k n name is (merge m q st').1 (merge m q st').2 = some r := h
      have h3 : SameCls st' (merge m q st').2 := .of_eq rfl
      exact ((sameCls_getInterface _ _ _ _ _ _ _ _ hg).trans h3).trans (ih _ _ h')

theorem sameCls_methodLoop (w : World) (name : Bytes) (ni n : Nat) (queue : List Cls) (m mi : Inherited) (st : St)
    (r : Inherited × Inherited × St) (h : methodLoop w name ni n queue m mi st = some r) :
    SameCls st r.2.2 ∧ m.members <+: r.1.members := by
  induction n generalizing queue m mi st with
  | zero =>
    cases queue with
    | nil => simp only [methodLoop, Option.some.injEq] at h; subst h; exact ⟨.rfl' _, List.prefix_rfl⟩
    | cons _ _ => simp [methodLoop] at h
  | succ n ih =>
    cases queue with
    | nil => simp only [methodLoop, Option.some.injEq] at h; subst h; exact ⟨.rfl' _, List.prefix_rfl⟩
    | cons c queue =>
      rw [methodLoop] at h
      split at h
      · exact ih _ _ _ _ h
      · simp only at h
        split at h
        · cases h
        · rename_i mi' st' hm
          obtain ⟨h1, h2⟩ := ih _ _ _ _ h
          have h3 := sameCls_mergeTraits w name (w.used c)
            { m with members := m.members ++ w.found .methods c.name name } (st.mark m.searched [c.name])
          have h4 := sameCls_mergeInterfaces _ _ _ _ _ _ _ _ hm
          exact ⟨(((SameCls.of_eq rfl).trans h3.1).trans h4).trans h1, ((List.prefix_append _ _).trans h3.2).trans h2⟩

theorem sameCls_plainLoop (w : World) (k : Kind) (name : Bytes) (ni n : Nat) (queue : List Cls) (m mi : Inherited) (st : St)
    (r : Inherited × Inherited × St) (h : plainLoop w k name ni n queue m mi st = some r) :
    SameCls st r.2.2 ∧ m.members <+: r.1.members := by
  induction n generalizing queue m mi st with
  | zero =>
    cases queue with
    | nil => simp only [plainLoop, Option.some.injEq] at h; subst h; exact ⟨.rfl' _, List.prefix_rfl⟩
    | cons _ _ => simp [plainLoop] at h
  | succ n ih =>
    cases queue with
    | nil => simp only [plainLoop, Option.some.injEq] at h; subst h; exact ⟨.rfl' _, List.prefix_rfl⟩
    | cons c queue =>
      rw [plainLoop] at h
      simp only at h
      split at h
      · cases h
      · rename_i mi' st' hm
        obtain ⟨h1, h2⟩ := ih _ _ _ _ h
        exact ⟨(sameCls_mergeInterfaces _ _ _ _ _ _ _ _ hm).trans h1, (List.prefix_append _ _).trans h2⟩

/-- Every result for a class in the cache begins with what the class declares. -/
def OwnFirst (w : World) (st : St) : Prop := ∀ k fqn nm r, st.cache.get (.cls, k, fqn, nm) = some r →
  w.found k fqn nm <+: r.members

theorem OwnFirst.same {w : World} {a b : St} (h : OwnFirst w a) (hs : SameCls a b) : OwnFirst w b :=
  fun k f n r hr => h k f n r ((hs k f n).symm.trans hr)

theorem OwnFirst.set {w : World} {st : St} (h : OwnFirst w st) (k : Kind) (fqn nm : Bytes) (m : Inherited)
    (hm : w.found k fqn nm <+: m.members) : OwnFirst w { st with cache := st.cache.set (.cls, k, fqn, nm) m } := by
  intro k' f n r hr
  simp only [GoMap.get_set] at hr
  split at hr
  · rename_i e
    simp only [Prod.mk.injEq, true_and] at e
    obtain ⟨e1, e2, e3⟩ := e
    subst e1; subst e2; subst e3
    cases hr
    exact hm
  · exact h k' f n r hr

theorem getClassMethods_own {w : World} {n ni : Nat} {c : Cls} {name : Bytes} {st : St} {r : Inherited × St}
    (hst : OwnFirst w st) (h : getClassMethods w n ni c name none st = some r) :
    w.found .methods c.name name <+: r.1.members ∧ OwnFirst w r.2 := by
  have hst' := hst.same (searchedOr_same st none)
  unfold getClassMethods at h
  simp only at h
  split at h
  · rename_i m hm
    cases h
    exact ⟨hst' _ _ _ _ hm, hst'⟩
  · split at h
    · cases h
    · rename_i m mi st2 hl
      cases h
      have hs := (sameCls_methodLoop _ _ _ _ _ _ _ _ _ hl).1
      have hpre : w.found .methods c.name name <+: m.members := by
        cases n with
        | zero => simp [methodLoop] at hl
        | succ n =>
          rw [methodLoop, if_neg (by simp [St.searchedOr, St.newSet])] at hl
          simp only at hl
          split at hl
          · cases hl
          · rename_i mi' st' hm
            refine List.IsPrefix.trans ?_ (sameCls_methodLoop _ _ _ _ _ _ _ _ _ hl).2
            refine List.IsPrefix.trans ?_ (sameCls_mergeTraits _ _ _ _ _).2
            simp
      have hpre' : w.found .methods c.name name <+: (merge m mi st2).1.members := hpre.trans (List.prefix_append _ _)
      refine ⟨hpre', OwnFirst.set ?_ _ _ _ _ hpre'⟩
      exact (hst'.same hs).same (.of_eq rfl)

theorem getClassPlain_own {w : World} {k : Kind} {n ni : Nat} {c : Cls} {name : Bytes} {st : St} {r : Inherited × St}
    (hst : OwnFirst w st) (h : getClassPlain w k n ni c name none st = some r) :
    w.found k c.name name <+: r.1.members ∧ OwnFirst w r.2 := by
  have hst' := hst.same (searchedOr_same st none)
  unfold getClassPlain at h
  simp only at h
  split at h
  · rename_i m hm
    cases h
    exact ⟨hst' _ _ _ _ hm, hst'⟩
  · split at h
    · cases h
    · rename_i m mi st2 hl
      cases h
      have hs := (sameCls_plainLoop _ _ _ _ _ _ _ _ _ _ hl).1
      have hpre : w.found k c.name name <+: m.members := by
        cases n with
        | zero => simp [plainLoop] at hl
        | succ n =>
          rw [plainLoop] at hl
          simp only at hl
          split at hl
          · cases hl
          · refine List.IsPrefix.trans ?_ (sameCls_plainLoop _ _ _ _ _ _ _ _ _ _ hl).2
            simp
      have hpre' : w.found k c.name name <+: (merge m mi st2).1.members := hpre.trans (List.prefix_append _ _)
      refine ⟨hpre', OwnFirst.set ?_ _ _ _ _ hpre'⟩
      exact (hst'.same hs).same (.of_eq rfl)

theorem Resolving.own {w : World} {st : St} (h : Resolving w st) : OwnFirst w st := by
  induction h with
  | new => intro k f n r hr; simp [St.new, GoMap.get] at hr
  | interface _ _ hr ih => exact ih.same (sameCls_getInterface _ _ _ _ _ _ _ _ hr)
  | methods _ _ hr ih => exact (getClassMethods_own ih hr).2
  | plain _ _ _ hr ih => exact (getClassPlain_own ih hr).2

/-- Where the members come from that a row of lookups finds. -/
theorem callLoop_mem {P : St → Prop} (reduce : Inherited → List Found) (ls : List Lookup)
    (hP : ∀ l ∈ ls, ∀ st r, P st → l none st = some r → P r.2) (st : St) (hst : P st) (fs : List Found)
    (h : callLoop reduce ls st = some fs) (f : Found) (hf : f ∈ fs) :
    ∃ l ∈ ls, ∃ st r, P st ∧ l none st = some r ∧ f ∈ reduce r.1 := by
  induction ls generalizing st fs with
  | nil => simp only [callLoop, Option.some.injEq] at h; subst h; cases hf
  | cons l ls ih =>
    rw [callLoop] at h
    split at h
    · cases h
    · rename_i r st' hl
      obtain ⟨gs, hg, rfl⟩ := Option.map_eq_some_iff.mp h
      rcases List.mem_append.mp hf with hf | hf
      · exact ⟨l, by simp, st, _, hst, hl, hf⟩
      · obtain ⟨l', h1, h2⟩ := ih (fun l hl => hP l (by simp [hl])) st' (hP l (by simp) st _ hst hl) gs hg hf
        exact ⟨l', by simp [h1], h2⟩

/-- The members that each of the lookups finds are there. -/
theorem callLoop_has {P : St → Prop} (reduce : Inherited → List Found) (ls : List Lookup)
    (hP : ∀ l ∈ ls, ∀ st r, P st → l none st = some r → P r.2) (st : St) (hst : P st) (fs : List Found)
    (h : callLoop reduce ls st = some fs) (l : Lookup) (hl : l ∈ ls) :
    ∃ st r, P st ∧ l none st = some r ∧ ∀ f ∈ reduce r.1, f ∈ fs := by
  induction ls generalizing st fs with
  | nil => cases hl
  | cons l' ls ih =>
    rw [callLoop] at h
    split at h
    · cases h
    · rename_i r st' hl'
      obtain ⟨gs, hg, rfl⟩ := Option.map_eq_some_iff.mp h
      rcases List.mem_cons.mp hl with rfl | hl
      · exact ⟨st, _, hst, hl', fun f hf => List.mem_append_left _ hf⟩
      · obtain ⟨st2, r2, h1, h2, h3⟩ := ih (fun l hl => hP l (by simp [hl])) st' (hP l' (by simp) st _ hst hl') gs hg hl
        exact ⟨st2, r2, h1, h2, fun f hf => List.mem_append_right _ (h3 f hf)⟩

/-- The first member is kept if it may be used. -/
theorem reduce_head (u : MemberUse) (cur : Bytes) (a : Access) (m : Inherited) (f : Found) (rest : List Found)
    (hm : m.members = f :: rest) (h1 : (u = .prop ∨ u = .method) → isInherited cur a m.rel f.member = true)
    (h2 : (u ≠ .prop ∧ u ≠ .method) → isInheritedStatic cur a m.rel f.member = true) :
    ∃ g ∈ u.reduce cur a m, g.member = f.member := by
  have k1 : isInherited cur a m.rel f.member = true → ∃ g ∈ m.reduceAccess cur a, g.member = f.member := by
    intro h
    rw [Inherited.reduceAccess, hm, reduceLoop, if_neg (by simp), if_pos h]
    refine ⟨_, List.mem_cons_self, ?_⟩
    split <;> rfl
  have k2 : isInheritedStatic cur a m.rel f.member = true → ∃ g ∈ m.reduceStatic cur a, g.member = f.member := by
    intro h
    rw [Inherited.reduceStatic, hm, reduceLoop, if_neg (by simp), if_pos h]
    exact ⟨_, List.mem_cons_self, rfl⟩
  cases u
  case prop => exact k1 (h1 (.inl rfl))
  case method => exact k1 (h1 (.inr rfl))
  all_goals exact k2 (h2 (by decide))

end Verif.Query
