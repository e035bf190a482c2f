import Verif.Query.Plain
import Verif.Query.Frame
import Verif.Query.PropsRefer
import Verif.Complete.MembersSpec

/-! Lemmas for the completion of members. -/

namespace Verif.Complete

open Verif.Query

/-- The cached results are right up to their scores. -/
structure Ok (w : World) (st : St) : Prop where
  cache : CacheOk w st.plain
  rel : RelOk st

theorem Ok.of_eq {w : World} {st st' : St} (h : Ok w st) (he : st'.cache = st.cache) : Ok w st' := by
  refine ⟨h.cache.of_eq ?_, ?_⟩
  · simp [St.plain, he]
  · unfold RelOk; rw [he]; exact h.rel

theorem Ok.new (w : World) (hw : Distinct w) : Ok w St.new := ⟨(Reachable.new.cacheOk hw).of_eq rfl, Reachable.new (w := w) |>.relOk⟩

theorem cacheOk_setIntf {w : World} (hw : Distinct w) {st : St} (hst : CacheOk w st) (k : Kind) (i : Intf)
    (hi : i ∈ w.interfaces) (name : Bytes) (m : Inherited) (hm : ∀ f ∈ m.members, FromIntf w k name i f) :
    CacheOk w { st with cache := st.cache.set (.intf, k, i.name, name) m } := by
  refine ⟨?_, ?_, ?_⟩
  · intro k' fqn nm r' hr'
    simp only [GoMap.get_set] at hr'
    rw [if_neg (by simp)] at hr'
    exact hst.trt _ _ _ _ hr'
  · intro k' fqn nm r' hr'
    simp only [GoMap.get_set] at hr'
    split at hr'
    · rename_i he
      simp only [Prod.mk.injEq, true_and] at he
      obtain ⟨rfl, rfl, rfl⟩ := he
      simp only [Option.some.injEq] at hr'
      subst hr'
      intro j hj hji
      have := hw.intf hj hi hji
      subst this
      exact hm
    · exact hst.intf _ _ _ _ hr'
  · intro k' fqn nm r' hr'
    simp only [GoMap.get_set] at hr'
    rw [if_neg (by simp)] at hr'
    exact hst.cls _ _ _ _ hr'

theorem mem_matching_plain {isMatch : Bytes → Option Int} {l : List Found} {f : Found} (h : f ∈ matching isMatch l) :
    ∃ g ∈ l, f.plain = g.plain ∧ (isMatch f.member.name).isSome = true := by
  obtain ⟨g, hg, s, hs, rfl⟩ := (mem_matching isMatch l f).1 h
  exact ⟨g, hg, rfl, by simp [hs]⟩

theorem mem_overwritten_plain {isMatch : Bytes → Option Int} {l : List Found} {f : Found} (h : f ∈ overwritten isMatch l) :
    ∃ g ∈ l, f.plain = g.plain := by
  rcases List.mem_append.1 h with h | h
  · obtain ⟨g, hg, he, -⟩ := mem_matching_plain h
    exact ⟨g, hg, he⟩
  · exact ⟨f, List.mem_of_mem_drop h, rfl⟩

/-- A search gives what the lookup gives, as far as it fits. -/
theorem search_ok {w : World} {P : Found → Prop} {call : St → Option (Inherited × St)} {key : Of × Kind × Bytes × Bytes}
    {isMatch : Bytes → Option Int} {word : Bytes} {st : St} {r : Inherited × St}
    (hcall : ∀ r', call st = some r' → Ok w r'.2 ∧ (∀ f ∈ r'.1.members, P f.plain) ∧ (key.2.1 ≠ .consts → r'.1.rel = []))
    (hset : ∀ st m, Ok w st → (∀ f ∈ m.members, P f.plain) → (key.2.1 ≠ .consts → m.rel = []) →
      Ok w { st with cache := st.cache.set key m })
    (h : search call key isMatch word st = some r) :
    Ok w r.2 ∧ (∀ f ∈ r.1.members, P f.plain ∧ Suits isMatch word f.member.name) ∧ (key.2.1 ≠ .consts → r.1.rel = []) := by
  unfold search at h
  split at h
  · simp at h
  · rename_i m st' hc
    obtain ⟨h1, h2, h3⟩ := hcall _ hc
    split at h
    · rename_i hw
      simp only [Option.some.injEq] at h
      subst h
      exact ⟨h1, fun f hf => ⟨h2 f hf, .inl hw⟩, h3⟩
    · simp only [Option.some.injEq] at h
      subst h
      refine ⟨hset _ _ h1 (fun f hf => ?_) h3, fun f hf => ?_, h3⟩
      · obtain ⟨g, hg, he⟩ := mem_overwritten_plain hf
        rw [he]
        exact h2 g hg
      · obtain ⟨g, hg, he, hs⟩ := mem_matching_plain hf
        exact ⟨by rw [he]; exact h2 g hg, .inr hs⟩

theorem mem_plain {m : Inherited} {f : Found} (h : f ∈ m.members) : f.plain ∈ m.plain.members := List.mem_map_of_mem h

theorem ok_setCls {w : World} (hw : Distinct w) {k : Kind} {c : Cls} (hc : c ∈ w.classes) {st : St} {m : Inherited} (h : Ok w st)
    (hm : ∀ f ∈ m.members, FromCls w k [] c f.plain) (hr : k ≠ .consts → m.rel = []) :
    Ok w { st with cache := st.cache.set (.cls, k, c.name, []) m } := by
  refine ⟨?_, RelOk.set h.rel _ _ _ _ _ hr⟩
  rw [plain_set]
  refine cacheOk_setCls hw h.cache k c hc [] _ (fun f hf => ?_)
  obtain ⟨g, hg, rfl⟩ := List.mem_map.1 hf
  exact hm g hg

theorem ok_setIntf {w : World} (hw : Distinct w) {k : Kind} {i : Intf} (hi : i ∈ w.interfaces) {st : St} {m : Inherited} (h : Ok w st)
    (hm : ∀ f ∈ m.members, FromIntf w k [] i f.plain) (hr : k ≠ .consts → m.rel = []) :
    Ok w { st with cache := st.cache.set (.intf, k, i.name, []) m } := by
  refine ⟨?_, RelOk.set h.rel _ _ _ _ _ hr⟩
  rw [plain_set]
  refine cacheOk_setIntf hw h.cache k i hi [] _ (fun f hf => ?_)
  obtain ⟨g, hg, rfl⟩ := List.mem_map.1 hf
  exact hm g hg

theorem lookupClass_ok {w : World} (hw : Distinct w) (n ni : Nat) (k : Kind) {c : Cls} (hc : c ∈ w.classes) (o : Option Nat) {st : St}
    (hst : Ok w st) {r : Inherited × St}
    (h : (if k = .methods then getClassMethods w n ni c [] o else getClassPlain w k n ni c [] o) st = some r) :
    Ok w r.2 ∧ (∀ f ∈ r.1.members, FromCls w k [] c f.plain) ∧ (k ≠ .consts → r.1.rel = []) := by
  by_cases hk : k = .methods
  · subst hk
    rw [if_pos rfl] at h
    have hp : getClassMethods w n ni c [] o st.plain = some (plainR r) := by rw [plain_getClassMethods, h]; rfl
    have h1 := getClassMethods_ok w hw n ni c hc [] o st.plain hst.cache _ hp
    have h2 := getClassMethods_rel w n ni c [] o st hst.rel r h
    exact ⟨⟨h1.1, h2.1⟩, fun f hf => h1.2 _ (mem_plain hf), fun _ => h2.2⟩
  · rw [if_neg hk] at h
    have hp : getClassPlain w k n ni c [] o st.plain = some (plainR r) := by rw [plain_getClassPlain, h]; rfl
    have h1 := getClassPlain_ok w hw k n ni c hc [] o st.plain hst.cache _ hp
    have h2 := getClassPlain_rel w k n ni c [] o st hst.rel r h
    exact ⟨⟨h1.1, h2.1⟩, fun f hf => h1.2 _ (mem_plain hf), h2.2⟩

theorem searchClass_ok {w : World} (hw : Distinct w) {n ni : Nat} {isMatch : Bytes → Option Int} {word : Bytes} {k : Kind} {c : Cls}
    (hc : c ∈ w.classes) {o : Option Nat} {st : St} (hst : Ok w st) {r : Inherited × St}
    (h : searchClass w n ni isMatch word k c o st = some r) :
    Ok w r.2 ∧ (∀ f ∈ r.1.members, FromCls w k [] c f.plain ∧ Suits isMatch word f.member.name) ∧
      (k ≠ .consts → r.1.rel = []) :=
  search_ok (P := FromCls w k [] c) (fun _ h => lookupClass_ok hw n ni k hc o hst h)
    (fun _ _ h1 h2 h3 => ok_setCls hw hc h1 h2 h3) h

theorem searchInterface_ok {w : World} (hw : Distinct w) {ni : Nat} {isMatch : Bytes → Option Int} {word : Bytes} {k : Kind} {i : Intf}
    (hi : i ∈ w.interfaces) {o : Option Nat} {st : St} (hst : Ok w st) {r : Inherited × St}
    (h : searchInterface w ni isMatch word k i o st = some r) :
    Ok w r.2 ∧ (∀ f ∈ r.1.members, FromIntf w k [] i f.plain ∧ Suits isMatch word f.member.name) ∧
      (k ≠ .consts → r.1.rel = []) := by
  refine search_ok (P := FromIntf w k [] i) (fun r h => ?_) (fun _ _ h1 h2 h3 => ok_setIntf hw hi h1 h2 h3) h
  have hp : getInterface w k ni i [] o st.plain = some (plainR r) := by rw [plain_getInterface, h]; rfl
  have h1 := getInterface_ok w hw k ni i hi [] o st.plain hst.cache _ hp
  have h2 := getInterface_rel w k ni i [] o st hst.rel r h
  exact ⟨⟨h1.1, h2.1⟩, fun f hf => h1.2 _ (mem_plain hf), h2.2⟩

theorem found_member {w : World} {k : Kind} {scope name : Bytes} {f : Found} (h : f ∈ w.found k scope name) :
    f.member ∈ w.members k scope name ∧ f.scope = scope := by
  simp only [World.found, List.mem_map] at h
  obtain ⟨m, hm, rfl⟩ := h
  exact ⟨hm, rfl⟩

/-- The search is right for what is called `t`. -/
def Right (w : World) (isMatch : Bytes → Option Int) (word t : Bytes) (k : Kind) (l : Lookup) : Prop :=
  ∀ o st r, Ok w st → l o st = some r → Ok w r.2 ∧
    (∀ f ∈ r.1.members, MemberOfType w k t f.member ∧ Suits isMatch word f.member.name) ∧ (k ≠ .consts → r.1.rel = [])

theorem right_class {w : World} (hw : Distinct w) {n ni : Nat} {isMatch : Bytes → Option Int} {word t : Bytes} {k : Kind} {c : Cls}
    (hc : c ∈ w.classesNamed t) : Right w isMatch word t k (searchClass w n ni isMatch word k c) := by
  intro o st r hst h
  obtain ⟨hc, hk⟩ := (mem_classesNamed w t c).1 hc
  obtain ⟨h1, h2, h3⟩ := searchClass_ok hw hc hst h
  refine ⟨h1, fun f hf => ⟨?_, (h2 f hf).2⟩, h3⟩
  obtain ⟨s, hs, hf⟩ := (h2 f hf).1
  exact ⟨s, .inl ⟨c, hc, hk, hs⟩, (found_member hf).1⟩

theorem right_interface {w : World} (hw : Distinct w) {ni : Nat} {isMatch : Bytes → Option Int} {word t : Bytes} {k : Kind} {i : Intf}
    (hi : i ∈ w.interfacesNamed t) : Right w isMatch word t k (searchInterface w ni isMatch word k i) := by
  intro o st r hst h
  obtain ⟨hi, hk⟩ := List.mem_filter.1 hi
  obtain ⟨h1, h2, h3⟩ := searchInterface_ok hw hi hst h
  refine ⟨h1, fun f hf => ⟨?_, (h2 f hf).2⟩, h3⟩
  obtain ⟨s, hs, hf⟩ := (h2 f hf).1
  exact ⟨s, .inr (.inl ⟨i, hi, by simp only [decide_eq_true_eq] at hk; rw [hk], hs⟩), (found_member hf).1⟩

theorem arrowSteps_right {w : World} (hw : Distinct w) {n ni : Nat} {isMatch : Bytes → Option Int} {word t : Bytes} :
    ∀ s ∈ arrowSteps w n ni isMatch word t, s.1 ≠ .consts ∧ Right w isMatch word t s.1 s.2 := by
  intro s hs
  simp only [arrowSteps, List.mem_append, List.mem_flatMap, List.mem_cons, List.not_mem_nil, or_false] at hs
  rcases hs with ⟨c, hc, rfl | rfl⟩ | ⟨i, hi, rfl | rfl⟩
  · exact ⟨by simp, right_class hw hc⟩
  · exact ⟨by simp, right_class hw hc⟩
  · exact ⟨by simp, right_interface hw hi⟩
  · exact ⟨by simp, right_interface hw hi⟩

theorem scopeSteps_right {w : World} (hw : Distinct w) {n ni : Nat} {isMatch : Bytes → Option Int} {word t : Bytes} {dollar : Bool} :
    ∀ s ∈ scopeSteps w n ni isMatch word dollar t,
      (dollar = true → s.1 = .props) ∧ Right w isMatch word t s.1 s.2 := by
  intro s hs
  simp only [scopeSteps, List.mem_append, List.mem_flatMap, List.mem_cons] at hs
  rcases hs with ⟨c, hc, rfl | hs⟩ | ⟨i, hi, rfl | hs⟩
  · exact ⟨fun _ => rfl, right_class hw hc⟩
  · cases dollar with
    | true => simp at hs
    | false =>
      simp only [Bool.false_eq_true, if_false, List.mem_cons, List.not_mem_nil, or_false] at hs
      rcases hs with rfl | rfl
      · exact ⟨by simp, right_class hw hc⟩
      · exact ⟨by simp, right_class hw hc⟩
  · exact ⟨fun _ => rfl, right_interface hw hi⟩
  · cases dollar with
    | true => simp at hs
    | false =>
      simp only [Bool.false_eq_true, if_false, List.mem_cons, List.not_mem_nil, or_false] at hs
      rcases hs with rfl | rfl
      · exact ⟨by simp, right_interface hw hi⟩
      · exact ⟨by simp, right_interface hw hi⟩

/-- What was collected is right. -/
def Collected (w : World) (isMatch : Bytes → Option Int) (word t : Bytes) (kinds : Kind → Prop) (g : Kind → Inherited) : Prop :=
  ∀ k, (∀ f ∈ (g k).members, kinds k ∧ MemberOfType w k t f.member ∧ Suits isMatch word f.member.name) ∧
    (k ≠ .consts → (g k).rel = [])

theorem gatherKinds_right {w : World} {isMatch : Bytes → Option Int} {word t : Bytes} {kinds : Kind → Prop}
    (ls : List (Kind × Lookup)) (hl : ∀ s ∈ ls, kinds s.1 ∧ Right w isMatch word t s.1 s.2) (g : Kind → Inherited) (st : St)
    (hst : Ok w st) (hg : Collected w isMatch word t kinds g) (r : (Kind → Inherited) × St)
    (h : gatherKinds ls g st = some r) : Ok w r.2 ∧ Collected w isMatch word t kinds r.1 := by
  induction ls generalizing g st with
  | nil =>
    simp only [gatherKinds, Option.some.injEq] at h
    subst h
    exact ⟨hst, hg⟩
  | cons s ls ih =>
    obtain ⟨k, l⟩ := s
    simp only [gatherKinds] at h
    split at h
    · simp at h
    · rename_i r' st' hr
      obtain ⟨h1, h2, h3⟩ := (hl (k, l) (by simp)).2 _ _ _ hst hr
      refine ih (fun s hs => hl s (by simp [hs])) _ (merge (g k) r' st').2 (Ok.of_eq (st := st') h1 rfl) (fun k' => ?_) h
      by_cases hk : k' = k
      · subst hk
        simp only [if_true, merge]
        refine ⟨fun f hf => ?_, fun hk => ?_⟩
        · rcases List.mem_append.1 hf with hf | hf
          · exact (hg k').1 f hf
          · exact ⟨(hl (k', l) (by simp)).1, h2 f hf⟩
        · rw [(hg k').2 hk, h3 hk]
          rfl
      · simp only [if_neg hk]
        exact hg k'

theorem emptyKinds_cache (st : St) : (emptyKinds st).2.cache = st.cache := rfl

theorem completionLoop_right {w : World} {isMatch : Bytes → Option Int} {word : Bytes} {kinds : Kind → Prop}
    {steps : Bytes → List (Kind × Lookup)} {reduce : Inherited → List Found} {keyOf : Bytes → Bytes}
    {P : Kind → Member → Prop} (hs : ∀ t, ∀ s ∈ steps t, kinds s.1 ∧ Right w isMatch word t s.1 s.2)
    (hr : ∀ k m, (k ≠ .consts → m.rel = []) → ∀ f ∈ reduce m, P k f.member ∧ ∃ g ∈ m.members, f.member = g.member)
    (types : List Bytes) (acc : Kind → List Found) (st : St) (hst : Ok w st) (Q : List Bytes)
    (hacc : ∀ k, ∀ f ∈ acc k, kinds k ∧ P k f.member ∧ Suits isMatch word f.member.name ∧ ∃ t ∈ Q, MemberOfType w k t f.member)
    (g : Kind → List Found) (h : completionLoop steps reduce keyOf types acc st = some g) :
    ∀ k, ∀ f ∈ g k, kinds k ∧ P k f.member ∧ Suits isMatch word f.member.name ∧ ∃ t ∈ Q ++ types, MemberOfType w k t f.member := by
  induction types generalizing acc st Q with
  | nil =>
    simp only [completionLoop, Option.some.injEq] at h
    subst h
    simpa using hacc
  | cons t ts ih =>
    simp only [completionLoop] at h
    split at h
    · simp at h
    · rename_i g' st' hg
      obtain ⟨h1, h2⟩ := gatherKinds_right (steps t) (hs t) _ _ (hst.of_eq (emptyKinds_cache st))
        (fun k => ⟨by simp [emptyKinds], fun _ => rfl⟩) _ hg
      have := ih _ _ h1 (Q ++ [t]) (fun k f hf => ?_) h
      · simpa using this
      · obtain ⟨l, hl, hf⟩ := (C32_union keyOf _).2.1 f hf
        simp only [List.mem_cons, List.not_mem_nil, or_false] at hl
        rcases hl with rfl | rfl
        · obtain ⟨h3, h4, h5, t', ht', h6⟩ := hacc k f hf
          exact ⟨h3, h4, h5, t', by simp [ht'], h6⟩
        · obtain ⟨h3, g, hg, he⟩ := hr k (g' k) (h2 k).2 f hf
          obtain ⟨h4, h5, h6⟩ := (h2 k).1 g hg
          rw [← he] at h5 h6
          exact ⟨h4, h3, h6, t, by simp, h5⟩

theorem completionLoop_once (steps : Bytes → List (Kind × Lookup)) (reduce : Inherited → List Found) (keyOf : Bytes → Bytes)
    (types : List Bytes) (acc : Kind → List Found) (st : St)
    (hacc : ∀ k, ((acc k).map fun f => keyOf f.scope ++ f.member.name).Nodup) (g : Kind → List Found)
    (h : completionLoop steps reduce keyOf types acc st = some g) :
    ∀ k, ((g k).map fun f => keyOf f.scope ++ f.member.name).Nodup := by
  induction types generalizing acc st with
  | nil =>
    simp only [completionLoop, Option.some.injEq] at h
    subst h
    exact hacc
  | cons t ts ih =>
    simp only [completionLoop] at h
    split at h
    · simp at h
    · exact ih _ _ (fun k => (C32_union keyOf _).1) h

/-! ### One class -/

/-- A search of a kind that was not looked up yet: it starts from a list as described by `S`. -/
def Starts (w : World) (isMatch : Bytes → Option Int) (word : Bytes) (S : List Found → Prop) (k : Kind) (l : Lookup) : Prop :=
  ∀ id st r, Ok w st → Ready k id st.plain → l (some id) st = some r →
    (∃ L : List Found, S (L.map Found.plain) ∧ r.1.members = if word = [] then L else matching isMatch L) ∧
    Frame k id st.plain r.2.plain ∧ Clean r.2.plain ∧ r.1.searched = id ∧ Ok w r.2 ∧ (k ≠ .consts → r.1.rel = [])

theorem searchClass_starts {w : World} (hw : Distinct w) (ha : Apart w) {n ni : Nat} {isMatch : Bytes → Option Int} {word : Bytes}
    {k : Kind} {c : Cls} (hc : c ∈ w.classes) :
    Starts w isMatch word (InOrder w k c []) k (searchClass w n ni isMatch word k c) := by
  intro id st r hst hr h
  have hok := searchClass_ok hw hc hst h
  have hcall : ∀ r', (if k = .methods then getClassMethods w n ni c [] (some id) else getClassPlain w k n ni c [] (some id)) st
      = some r' → InOrder w k c [] (r'.1.members.map Found.plain) ∧ Frame k id st.plain r'.2.plain ∧ Clean r'.2.plain ∧
        r'.1.searched = id := by
    intro r' h
    by_cases hk : k = .methods
    · subst hk
      rw [if_pos rfl] at h
      have hp : getClassMethods w n ni c [] (some id) st.plain = some (plainR r') := by rw [plain_getClassMethods, h]; rfl
      exact methods_order_at w hw ha c hc [] n ni id st.plain hr hst.cache _ hp
    · rw [if_neg hk] at h
      have hp : getClassPlain w k n ni c [] (some id) st.plain = some (plainR r') := by rw [plain_getClassPlain, h]; rfl
      exact plain_order_at w hw ha k hk c [] n ni id st.plain hr hst.cache _ hp
  unfold searchClass search at h
  split at h
  · simp at h
  · rename_i m st' hm
    obtain ⟨h1, h2, h3, h4⟩ := hcall _ hm
    split at h
    · rename_i hword
      simp only [Option.some.injEq] at h
      subst h
      exact ⟨⟨m.members, h1, by rw [if_pos hword]⟩, h2, h3, h4, hok.1, hok.2.2⟩
    · rename_i hword
      simp only [Option.some.injEq] at h
      subst h
      refine ⟨⟨m.members, h1, by rw [if_neg hword]⟩, ?_, ?_, h4, hok.1, hok.2.2⟩
      · rw [plain_set]
        exact h2.trans (frame_set k id _ .cls (by simp) _ _ _)
      · rw [plain_set]
        intro k' fqn nm r' hr'
        simp only [GoMap.get_set] at hr'
        rw [if_neg (by simp)] at hr'
        exact h3 _ _ _ _ hr'

theorem Clean.merge {m o : Inherited} {st : St} (h : Clean st) (he : o.searched = m.searched) : Clean (merge m o st).2 := by
  intro k fqn nm r hr
  obtain ⟨h1, h2⟩ := h k fqn nm r hr
  refine ⟨h1, ?_⟩
  simp only [Query.merge, St.mark]
  split
  · rename_i hs
    rw [he, ← hs, h2]
    rfl
  · exact h2

theorem searchInterface_starts {w : World} (hw : Distinct w) {ni : Nat} {isMatch : Bytes → Option Int} {word : Bytes}
    {k : Kind} {i : Intf} (hi : i ∈ w.interfaces) :
    Starts w isMatch word (fun L => ∀ f, f ∈ L ↔ FromIntf w k [] i f) k (searchInterface w ni isMatch word k i) := by
  intro id st r hst hr h
  have hok := searchInterface_ok hw hi hst h
  have hcall : ∀ r', getInterface w k ni i [] (some id) st = some r' →
      (∀ f, f ∈ r'.1.members.map Found.plain ↔ FromIntf w k [] i f) ∧ Frame k id st.plain r'.2.plain ∧ Clean r'.2.plain ∧
        r'.1.searched = id := by
    intro r' h
    have hp : getInterface w k ni i [] (some id) st.plain = some (plainR r') := by rw [plain_getInterface, h]; rfl
    obtain ⟨h1, h2, h3⟩ := getInterface_inv w hw k [] [] [] ni i hi id st.plain _ hp (hr.inv w [])
    refine ⟨fun f => ⟨fun hf => ?_, fun hf => ?_⟩, frame_getInterface w k ni i [] id _ _ hp, h1.clean, h2⟩
    · exact (getInterface_ok w hw k ni i hi [] (some id) st.plain hst.cache _ hp).2 f hf
    · have := inv_complete h1 i hi h3 f hf
      rw [List.nil_append] at this
      exact this
  unfold searchInterface search at h
  split at h
  · simp at h
  · rename_i m st' hm
    obtain ⟨h1, h2, h3, h4⟩ := hcall _ hm
    split at h
    · rename_i hword
      simp only [Option.some.injEq] at h
      subst h
      exact ⟨⟨m.members, h1, by rw [if_pos hword]⟩, h2, h3, h4, hok.1, hok.2.2⟩
    · rename_i hword
      simp only [Option.some.injEq] at h
      subst h
      refine ⟨⟨m.members, h1, by rw [if_neg hword]⟩, ?_, ?_, h4, hok.1, hok.2.2⟩
      · rw [plain_set]
        exact h2.trans (frame_set k id _ .intf (by simp) _ _ _)
      · rw [plain_set]
        intro k' fqn nm r' hr'
        simp only [GoMap.get_set] at hr'
        rw [if_neg (by simp)] at hr'
        exact h3 _ _ _ _ hr'

/-- The searches for a class or an interface, one for each kind. -/
theorem gatherKinds_one {w : World} {isMatch : Bytes → Option Int} {word : Bytes} {S : Kind → List Found → Prop}
    {lk : Kind → Lookup} (hs : ∀ k, Starts w isMatch word (S k) k (lk k)) (ks : List Kind) (hks : ks.Nodup) (g : Kind → Inherited) (st : St) (hst : Ok w st)
    (hid : ∀ k k', k ≠ k' → (g k).searched ≠ (g k').searched) (hready : ∀ k ∈ ks, Ready k (g k).searched st.plain)
    (hempty : ∀ k ∈ ks, (g k).members = [] ∧ (g k).rel = []) (r : (Kind → Inherited) × St)
    (h : gatherKinds (ks.map fun k => (k, lk k)) g st = some r) :
    (∀ k ∉ ks, r.1 k = g k) ∧
    ∀ k ∈ ks, (k ≠ .consts → (r.1 k).rel = []) ∧ ∃ L : List Found, S k (L.map Found.plain) ∧
      (r.1 k).members = if word = [] then L else matching isMatch L := by
  induction ks generalizing g st with
  | nil =>
    simp only [List.map_nil, gatherKinds, Option.some.injEq] at h
    subst h
    exact ⟨fun _ _ => rfl, by simp⟩
  | cons k ks ih =>
    rw [List.nodup_cons] at hks
    simp only [List.map_cons, gatherKinds] at h
    split at h
    · simp at h
    · rename_i r' st' hr
      obtain ⟨⟨L, h1, h2⟩, h3, h4, h5, h6, h7⟩ := hs k _ _ _ hst (hready k (by simp)) hr
      simp only at h2 h5 h6 h7
      have hne : ∀ k' ∈ ks, k' ≠ k := fun k' hk' he => hks.1 (he ▸ hk')
      have := ih hks.2 (fun k' => if k' = k then (merge (g k) r' st').1 else g k') (merge (g k) r' st').2 (h6.of_eq rfl)
        (fun k1 k2 hk => by
          have := hid k1 k2 hk
          by_cases e1 : k1 = k <;> by_cases e2 : k2 = k
          · exact absurd (e1.trans e2.symm) hk
          · simp only [if_pos e1, if_neg e2]; rw [e1] at this; exact this
          · simp only [if_neg e1, if_pos e2]; rw [e2] at this; exact this
          · simp only [if_neg e1, if_neg e2]; exact this)
        (fun k' hk' => by
          simp only [if_neg (hne k' hk')]
          have hm : (merge (g k) r' st').2.plain = (merge (g k).plain r'.plain st'.plain).2 := by rw [plain_merge]; rfl
          rw [hm]
          exact (hready k' (by simp [hk'])).frame (h3.trans (frame_merge k (g k).plain r'.plain st'.plain))
            (hne k' hk') (hid k' k (hne k' hk')) (Clean.merge (m := (g k).plain) (o := r'.plain) (st := st'.plain) h4 (by simp [h5])))
        (fun k' hk' => by simp only [if_neg (hne k' hk')]; exact hempty k' (by simp [hk'])) h
      refine ⟨fun k' hk' => ?_, fun k' hk' => ?_⟩
      · simp only [List.mem_cons, not_or] at hk'
        rw [this.1 k' hk'.2]
        simp only [if_neg hk'.1]
      · by_cases he : k' = k
        · subst he
          rw [this.1 k' hks.1]
          simp only [if_true, merge]
          have := hempty k' (by simp)
          refine ⟨fun hk => by rw [this.2, h7 hk]; rfl, L, h1, ?_⟩
          rw [this.1, h2, List.nil_append]
        · simp only [List.mem_cons, he, false_or] at hk'
          exact this.2 k' hk'

theorem ready_empty (st : St) (k : Kind) (hst : st.cache = []) : Ready k ((emptyKinds st).1 k).searched (emptyKinds st).2.plain := by
  have hc : (emptyKinds st).2.plain.cache = [] := by
    show List.map _ (emptyKinds st).2.cache = []
    rw [emptyKinds_cache, hst]; rfl
  refine ⟨?_, ?_, fun o fqn nm _ => by rw [hc]; rfl, fun k' fqn nm r hr => by rw [hc] at hr; simp [GoMap.get] at hr⟩
  · cases k <;> simp [emptyKinds, St.newSet] <;> omega
  · cases k <;> simp [emptyKinds, St.newSet]

theorem matching_split (isMatch : Bytes → Option Int) (L pre post : List Found) (g : Found)
    (h : matching isMatch L = pre ++ g :: post) :
    ∃ pre' g' post', L = pre' ++ g' :: post' ∧ g.plain = g'.plain ∧ ∀ x ∈ pre', (isMatch x.member.name).isSome = true →
      ∃ y ∈ pre, y.plain = x.plain := by
  induction L generalizing pre with
  | nil => simp [matching] at h
  | cons x L ih =>
    cases hm : isMatch x.member.name with
    | none =>
      have : matching isMatch (x :: L) = matching isMatch L := by simp [matching, hm]
      rw [this] at h
      obtain ⟨pre', g', post', rfl, h2, h3⟩ := ih pre h
      refine ⟨x :: pre', g', post', rfl, h2, fun y hy hs => ?_⟩
      rcases List.mem_cons.1 hy with rfl | hy
      · rw [hm] at hs; simp at hs
      · exact h3 y hy hs
    | some s =>
      have : matching isMatch (x :: L) = { x with score := s } :: matching isMatch L := by simp [matching, hm]
      rw [this] at h
      cases pre with
      | nil =>
        simp only [List.nil_append, List.cons.injEq] at h
        exact ⟨[], x, L, rfl, by rw [← h.1]; rfl, by simp⟩
      | cons y pre =>
        simp only [List.cons_append, List.cons.injEq] at h
        obtain ⟨pre', g', post', rfl, h2, h3⟩ := ih pre h.2
        refine ⟨x :: pre', g', post', rfl, h2, fun z hz hs => ?_⟩
        rcases List.mem_cons.1 hz with rfl | hz
        · exact ⟨y, by simp, by rw [← h.1]; rfl⟩
        · obtain ⟨y', hy', he⟩ := h3 z hz hs
          exact ⟨y', by simp [hy'], he⟩

theorem plain_member {f g : Found} (h : f.plain = g.plain) : f.member = g.member :=
  show f.plain.member = g.plain.member by rw [h]

theorem has_iff (w : World) (k : Kind) (d : Cls) (m : Member) : Has w k d m ↔ ∃ f ∈ w.found k d.name [] ++
    (if k = .methods then (w.used d).flatMap fun t => w.found .methods t.name [] else []), f.member = m := by
  constructor
  · rintro (h | ⟨rfl, x, hx, h1, h2, h3⟩)
    · exact ⟨⟨m, d.name, 0⟩, List.mem_append_left _ (List.mem_map.2 ⟨m, h, rfl⟩), rfl⟩
    · refine ⟨⟨m, x.name, 0⟩, List.mem_append_right _ ?_, rfl⟩
      rw [if_pos rfl, List.mem_flatMap]
      exact ⟨x, (mem_used w d x).2 ⟨h1, h2, hx⟩, List.mem_map.2 ⟨m, h3, rfl⟩⟩
  · rintro ⟨f, hf, rfl⟩
    rcases List.mem_append.1 hf with hf | hf
    · exact .inl (found_member hf).1
    · split at hf
      · rename_i hk
        obtain ⟨x, hx, hf⟩ := List.mem_flatMap.1 hf
        obtain ⟨h1, h2, h3⟩ := (mem_used w d x).1 hx
        exact .inr ⟨hk, x, h3, h1, h2, (found_member hf).1⟩
      · simp at hf

/-- From the members in order, what fits, and the first of each name that may be used. -/
theorem offers_of {w : World} {k : Kind} {c : Cls} {L : List Found} (hL : InOrder w k c [] (L.map Found.plain))
    {isMatch : Bytes → Option Int} {word : Bytes} {M : List Found} (hM : M = if word = [] then L else matching isMatch L)
    {mayUse : Member → Prop} {out : List Found} (h1 : (out.map fun f => f.member.name).Nodup)
    (h2 : ∀ f ∈ out, ∃ pre g post, M = pre ++ g :: post ∧ f.member = g.member ∧ mayUse g.member ∧
      ∀ h ∈ pre, mayUse h.member → h.member.name ≠ g.member.name)
    (h3 : ∀ g ∈ M, mayUse g.member → ∃ f ∈ out, f.member.name = g.member.name) :
    ∃ l, Lineage w c l ∧ OffersFor w k l mayUse (Suits isMatch word) (out.map fun f => f.member) := by
  obtain ⟨l, I, hlin, hord, hI⟩ := hL
  have hIm : ∀ m, (∃ f ∈ I, f.member = m) ↔ ∃ d ∈ l, HasByInterface w k d m := by
    intro m
    constructor
    · rintro ⟨f, hf, rfl⟩
      obtain ⟨d, hd, i, hi, h4, h5, h6, h7⟩ := (hI f).1 hf
      exact ⟨d, hd, i, hi, h4, h5, f.scope, h6, (found_member h7).1⟩
    · rintro ⟨d, hd, i, hi, h4, h5, s, h6, h7⟩
      exact ⟨⟨m, s, 0⟩, (hI _).2 ⟨d, hd, i, hi, h4, h5, h6, List.mem_map.2 ⟨m, h7, rfl⟩⟩, rfl⟩
  refine ⟨l, hlin, ⟨fun m hm => ?_, fun d hd m hm hu hfit => ?_, by simpa [List.map_map, Function.comp_def] using h1⟩⟩
  · obtain ⟨f, hf, rfl⟩ := List.mem_map.1 hm
    obtain ⟨pre, g, post, he, hfg, hu, hpre⟩ := h2 f hf
    have hsplit : ∃ pre' g' post', L = pre' ++ g' :: post' ∧ g.plain = g'.plain ∧ Suits isMatch word g.member.name ∧
        ∀ x ∈ pre', Suits isMatch word x.member.name → ∃ y ∈ pre, y.plain = x.plain := by
      by_cases hw : word = []
      · rw [if_pos hw] at hM
        exact ⟨pre, g, post, by rw [← hM, he], rfl, .inl hw, fun x hx _ => ⟨x, hx, rfl⟩⟩
      · rw [if_neg hw] at hM
        rw [hM] at he
        obtain ⟨pre', g', post', h4, h5, h6⟩ := matching_split isMatch L pre post g he
        obtain ⟨-, -, -, hs⟩ := mem_matching_plain (show g ∈ matching isMatch L by rw [he]; simp)
        exact ⟨pre', g', post', h4, h5, .inr hs, fun x hx hf => h6 x hx (hf.resolve_left hw)⟩
    obtain ⟨pre', g', post', hLs, hgg, hfit, hpre'⟩ := hsplit
    rw [hfg]
    have hno : ∀ x ∈ pre'.map Found.plain, ¬ (mayUse x.member ∧ x.member.name = g.member.name) := by
      rintro x hx ⟨hux, hn⟩
      obtain ⟨x', hx', rfl⟩ := List.mem_map.1 hx
      have hn' : x'.member.name = g.member.name := hn
      obtain ⟨y, hy, hyx⟩ := hpre' x' hx' (by rw [hn']; exact hfit)
      have hym : y.member = x'.member := plain_member hyx
      refine hpre y hy ?_ (by rw [hym]; exact hn)
      rw [hym]; exact hux
    refine ⟨hu, hfit, ?_⟩
    have hord' : (l.flatMap fun d => w.found k d.name [] ++
        if k = .methods then (w.used d).flatMap fun t => w.found .methods t.name [] else []) ++ I =
        pre'.map Found.plain ++ g'.plain :: post'.map Found.plain := by
      rw [← hord, hLs]; simp
    have hgm : g'.plain.member = g.member := (plain_member hgg).symm
    rcases first_ok _ (fun x => mayUse x.member ∧ x.member.name = g.member.name) l I _ _ _ hord' hno with
      ⟨near, d, far, h4, h5, h6⟩ | ⟨h5, h6⟩
    · refine .inl ⟨near, d, far, h4, (has_iff w k d _).2 ⟨_, h5, hgm⟩, fun e he x hx hn hux => ?_⟩
      obtain ⟨f', hf', rfl⟩ := (has_iff w k e x).1 hx
      exact h6 e he f' hf' ⟨hux, hn⟩
    · refine .inr ⟨(hIm _).1 ⟨_, h5, hgm⟩, fun e he x hx hn hux => ?_⟩
      obtain ⟨f', hf', rfl⟩ := (has_iff w k e x).1 hx
      exact h6 e he f' hf' ⟨hux, hn⟩
  · have : ∃ f ∈ L.map Found.plain, f.member = m := by
      rw [hord]
      rcases hm with hm | hm
      · obtain ⟨f, hf, rfl⟩ := (has_iff w k d m).1 hm
        exact ⟨f, List.mem_append_left _ (List.mem_flatMap.2 ⟨d, hd, hf⟩), rfl⟩
      · obtain ⟨f, hf, rfl⟩ := (hIm m).2 ⟨d, hd, hm⟩
        exact ⟨f, List.mem_append_right _ hf, rfl⟩
    obtain ⟨f, hf, rfl⟩ := this
    obtain ⟨g, hg, rfl⟩ := List.mem_map.1 hf
    have : ∃ g' ∈ M, g'.member = g.member := by
      by_cases hw : word = []
      · rw [if_pos hw] at hM
        exact ⟨g, by rw [hM]; exact hg, rfl⟩
      · rw [if_neg hw] at hM
        obtain ⟨s, hs⟩ := Option.isSome_iff_exists.1 (hfit.resolve_left hw)
        exact ⟨{ g with score := s }, by rw [hM]; exact (mem_matching _ _ _).2 ⟨g, hg, s, hs, rfl⟩, rfl⟩
    obtain ⟨g', hg', he⟩ := this
    obtain ⟨f, hf, hn⟩ := h3 g' hg' (by rw [he]; exact hu)
    exact ⟨f.member, List.mem_map_of_mem hf, by rw [hn, he]; rfl⟩

/-! ### Keys -/

theorem after_colon {p p' n n' : Bytes} (hn : (58 : UInt8) ∉ n) (hn' : (58 : UInt8) ∉ n')
    (h : p ++ (58 : UInt8) :: n = p' ++ (58 : UInt8) :: n') : n = n' := by
  rcases List.append_eq_append_iff.1 h with ⟨q, h1, h2⟩ | ⟨q, h1, h2⟩
  · cases q with
    | nil => simpa using h2
    | cons a q =>
      simp only [List.cons_append, List.cons.injEq] at h2
      exact absurd (by rw [h2.2]; simp) hn
  · cases q with
    | nil => simpa using h2.symm
    | cons a q =>
      simp only [List.cons_append, List.cons.injEq] at h2
      exact absurd (by rw [h2.2]; simp) hn'

theorem mergeWithScope_id (keyOf : Bytes → Bytes) (l : List Found) (h : (l.map fun f => keyOf f.scope ++ f.member.name).Nodup) :
    mergeWithScope keyOf [[], l] = l := by
  have hgen : ∀ (l acc : List Found) (seen : List Bytes), (l.map fun f => keyOf f.scope ++ f.member.name).Nodup →
      (∀ f ∈ l, keyOf f.scope ++ f.member.name ∉ seen) →
      (l.foldl (fun (r : List Found × List Bytes) f =>
        let k := keyOf f.scope ++ f.member.name
        if k ∈ r.2 then r else (r.1 ++ [f], k :: r.2)) (acc, seen)).1 = acc ++ l := by
    intro l
    induction l with
    | nil => simp
    | cons f l ih =>
      intro acc seen hnd hseen
      rw [List.map_cons, List.nodup_cons] at hnd
      simp only [List.foldl_cons]
      rw [if_neg (hseen f (by simp)), ih _ _ hnd.2 (fun g hg => ?_), List.append_assoc]
      · rfl
      · rw [List.mem_cons, not_or]
        exact ⟨fun he => hnd.1 (List.mem_map.2 ⟨g, hg, he⟩), hseen g (by simp [hg])⟩
  unfold mergeWithScope
  simpa using hgen l [] [] h (by simp)

theorem keys_nodup {keyOf : Bytes → Bytes} (hk : ∀ s, ∃ p, keyOf s = p ++ b!"::") {l : List Found}
    (hc : ∀ f ∈ l, (58 : UInt8) ∉ f.member.name) (h : (l.map fun f => f.member.name).Nodup) :
    (l.map fun f => keyOf f.scope ++ f.member.name).Nodup := by
  induction l with
  | nil => simp
  | cons f l ih =>
    rw [List.map_cons, List.nodup_cons] at h ⊢
    refine ⟨fun hm => h.1 ?_, ih (fun g hg => hc g (by simp [hg])) h.2⟩
    obtain ⟨g, hg, he⟩ := List.mem_map.1 hm
    refine List.mem_map.2 ⟨g, hg, ?_⟩
    obtain ⟨p, hp⟩ := hk g.scope
    obtain ⟨p', hp'⟩ := hk f.scope
    simp only [hp, hp', List.append_assoc] at he
    have : (p ++ [58]) ++ (58 : UInt8) :: g.member.name = (p' ++ [58]) ++ (58 : UInt8) :: f.member.name := by
      simpa using he
    exact after_colon (hc g (by simp [hg])) (hc f (by simp)) this

end Verif.Complete
