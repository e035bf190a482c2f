import Verif.Query.PropsEnds
import Verif.Complete.PropsMembers

/-! C132: completion of members ends. -/

namespace Verif.Complete

open Verif.Query

theorem search_ends {N : Nat} {call : Nat → Nat → Lookup} (hc : EndsAt N call) (key : Of × Kind × Bytes × Bytes)
    (isMatch : Bytes → Option Int) (word : Bytes) :
    EndsAt N fun n ni => fun o => search (call n ni o) key isMatch word := by
  intro o st ho
  obtain ⟨⟨m, st'⟩, h1, h2⟩ := hc o st ho
  by_cases hw : word = []
  · exact ⟨(m, st'), h1, fun n ni hn hni => by simp only [search, h2 n ni hn hni, hw, if_true]⟩
  · exact ⟨({ m with members := matching isMatch m.members },
      { st' with cache := st'.cache.set key { m with members := overwritten isMatch m.members } }), h1,
      fun n ni hn hni => by simp only [search, h2 n ni hn hni, hw, if_false]⟩

/-- What is gathered for one type, for large bounds. -/
theorem gatherKinds_ends {N : Nat} (ls : List (Kind × (Nat → Nat → Lookup))) (hl : ∀ l ∈ ls, EndsAt N l.2)
    (g : Kind → Inherited) (st : St) (hg : ∀ k, (g k).searched < st.next) :
    ∃ r : (Kind → Inherited) × St,
      ∀ n ni, N ≤ n → N ≤ ni → gatherKinds (ls.map fun l => (l.1, l.2 n ni)) g st = some r := by
  induction ls generalizing g st with
  | nil => exact ⟨(g, st), fun _ _ _ _ => rfl⟩
  | cons l ls ih =>
    obtain ⟨⟨r, st'⟩, h1, h2⟩ := hl l (by simp) (some (g l.1).searched) st (fun id h => by cases h; exact hg _)
    have h1 : st.next ≤ st'.next := h1
    have hn := merge_next (g l.1) r st'
    obtain ⟨q, h4⟩ := ih (fun l h => hl l (by simp [h]))
      (fun k' => if k' = l.1 then (merge (g l.1) r st').1 else g k') (merge (g l.1) r st').2 (by
      intro k
      have hk := hg k
      have hl := hg l.1
      split
      · show (g l.1).searched < _
        omega
      · omega)
    refine ⟨q, fun n ni hn hni => ?_⟩
    simp only [List.map_cons, gatherKinds, h2 n ni hn hni]
    exact h4 n ni hn hni

theorem emptyKinds_lt (st : St) (k : Kind) : ((emptyKinds st).1 k).searched < (emptyKinds st).2.next := by
  cases k <;> simp [emptyKinds, St.newSet] <;> omega

theorem completionLoop_ends {N : Nat} {steps : Nat → Nat → Bytes → List (Kind × Lookup)}
    (ls : Bytes → List (Kind × (Nat → Nat → Lookup)))
    (hls : ∀ n ni t, steps n ni t = (ls t).map fun l => (l.1, l.2 n ni)) (hl : ∀ t, ∀ l ∈ ls t, EndsAt N l.2)
    (reduce : Inherited → List Found) (keyOf : Bytes → Bytes) (ts : List Bytes) (acc : Kind → List Found) (st : St) :
    ∃ r, ∀ n ni, N ≤ n → N ≤ ni → completionLoop (steps n ni) reduce keyOf ts acc st = some r := by
  induction ts generalizing acc st with
  | nil => exact ⟨acc, fun _ _ _ _ => rfl⟩
  | cons t ts ih =>
    obtain ⟨⟨g, st'⟩, h2⟩ := gatherKinds_ends (ls t) (hl t) (emptyKinds st).1 (emptyKinds st).2 (emptyKinds_lt st)
    obtain ⟨r, hr⟩ := ih (fun k => mergeWithScope keyOf [acc k, reduce (g k)]) st'
    refine ⟨r, fun n ni hn hni => ?_⟩
    simp only [completionLoop, hls, h2 n ni hn hni]
    exact hr n ni hn hni

/-- The searches in a class and in an interface. -/
theorem searches_end (w : World) (hw : NoCycle w) : ∃ N, ∀ isMatch word k,
    (∀ c ∈ w.classes, EndsAt N fun n ni => searchClass w n ni isMatch word k c) ∧
    ∀ i ∈ w.interfaces, EndsAt N fun _ ni => searchInterface w ni isMatch word k i := by
  obtain ⟨N, hN⟩ := lookups_end w hw
  obtain ⟨h1, h2, h3, -⟩ := hN []
  refine ⟨N, fun isMatch word k => ⟨fun c hc => ?_, fun i hi => ?_⟩⟩
  · by_cases hk : k = .methods
    · have := search_ends (h1 c hc) (.cls, k, c.name, []) isMatch word
      have e : (fun n ni => searchClass w n ni isMatch word k c) =
          fun n ni => fun o => search (getClassMethods w n ni c [] o) (.cls, k, c.name, []) isMatch word := by
        funext n ni o; simp only [searchClass, hk, if_true]
      rw [e]; exact this
    · have := search_ends (h2 c hc k) (.cls, k, c.name, []) isMatch word
      have e : (fun n ni => searchClass w n ni isMatch word k c) =
          fun n ni => fun o => search (getClassPlain w k n ni c [] o) (.cls, k, c.name, []) isMatch word := by
        funext n ni o; simp only [searchClass, hk, if_false]
      rw [e]; exact this
  · exact search_ends (h3 i hi k) (.intf, k, i.name, []) isMatch word

/-- C132: completion after `->` ends if no class extends itself, and larger bounds do not change the list. The names of
properties are not empty: of an empty one the first character cannot be taken away. -/
theorem C132_arrow (w : World) (hw : NoCycle w) (hd : Distinct w)
    (hne : ∀ scope, ∀ m ∈ w.members .props scope [], m.name ≠ []) :
    ∃ N, ∀ keyOf hasParams isMatch word a cur, ∃ items, ∀ n ni, N ≤ n → N ≤ ni →
      memberCompletion w keyOf n ni hasParams isMatch word a cur = some items := by
  obtain ⟨N, hN⟩ := searches_end w hw
  refine ⟨N, fun keyOf hasParams isMatch word a cur => ?_⟩
  obtain ⟨g, hg⟩ := completionLoop_ends (steps := fun n ni => arrowSteps w n ni isMatch word)
    (fun t => ((w.classesNamed t).flatMap fun c =>
      [(.methods, fun n ni => searchClass w n ni isMatch word .methods c),
       (.props, fun n ni => searchClass w n ni isMatch word .props c)]) ++
      (w.interfacesNamed t).flatMap fun i =>
        [(.methods, fun _ ni => searchInterface w ni isMatch word .methods i),
         (.props, fun _ ni => searchInterface w ni isMatch word .props i)])
    (fun n ni t => by simp [arrowSteps, List.map_flatMap]) (fun t l hl => by
      rcases List.mem_append.mp hl with hl | hl
      · obtain ⟨c, hc, hl⟩ := List.mem_flatMap.mp hl
        have hc := ((mem_classesNamed _ _ _).mp hc).1
        simp only [List.mem_cons, List.not_mem_nil, or_false] at hl
        rcases hl with rfl | rfl
        · exact (hN isMatch word .methods).1 c hc
        · exact (hN isMatch word .props).1 c hc
      · obtain ⟨c, hc, hl⟩ := List.mem_flatMap.mp hl
        have hc := List.mem_of_mem_filter hc
        simp only [List.mem_cons, List.not_mem_nil, or_false] at hl
        rcases hl with rfl | rfl
        · exact (hN isMatch word .methods).2 c hc
        · exact (hN isMatch word .props).2 c hc)
    (fun m => m.reduceAccess cur a) keyOf a.types (fun _ => []) St.new
  have hright := completionLoop_right (kinds := fun k => k ≠ .consts) (P := fun k m => k ≠ .consts → OpenArrow cur a m)
    (fun t => arrowSteps_right hd) (fun k m hm f hf => by
      obtain ⟨pre, g, post, h1, h2, -, h4, -⟩ := (C32_access m cur a).2.1 f hf
      refine ⟨fun hk => ?_, g, by rw [h1]; simp, h2⟩
      exact (reduceAccess_right cur a m (hm hk) f hf).1) a.types (fun _ => []) St.new (Ok.new w hd) [] (by simp) g
      (hg N N (Nat.le_refl _) (Nat.le_refl _))
  obtain ⟨ps, hps⟩ : ∃ ps, (g .props).mapM arrowPropItem = some ps := by
    have hall : ∀ f ∈ g .props, f.member.name ≠ [] := fun f hf => by
      obtain ⟨-, -, -, t, -, scope, -, hm⟩ := hright .props f hf
      exact hne scope _ hm
    generalize g .props = l at hall ⊢
    induction l with
    | nil => exact ⟨[], rfl⟩
    | cons f l ih =>
      obtain ⟨ps, hps⟩ := ih fun f hf => hall f (by simp [hf])
      refine ⟨{ propItem f with label := f.member.name.drop 1 } :: ps, ?_⟩
      rw [List.mapM_cons, hps]
      simp [arrowPropItem, hall f (by simp)]
  exact ⟨_, fun n ni hn hni => by
    simp only [memberCompletion, hg n ni hn hni, Option.bind_eq_bind, Option.bind_some, hps]; rfl⟩

/-- C132: completion after `::` ends if no class extends itself. -/
theorem C132_scope (w : World) (hw : NoCycle w) : ∃ N, ∀ keyOf hasParams isMatch word dollar a cur, ∃ items, ∀ n ni,
    N ≤ n → N ≤ ni → scopedCompletion w keyOf n ni hasParams isMatch word dollar a cur = some items := by
  obtain ⟨N, hN⟩ := searches_end w hw
  refine ⟨N, fun keyOf hasParams isMatch word dollar a cur => ?_⟩
  obtain ⟨g, hg⟩ := completionLoop_ends (steps := fun n ni => scopeSteps w n ni isMatch word dollar)
    (fun t => ((w.classesNamed t).flatMap fun c => (.props, fun n ni => searchClass w n ni isMatch word .props c) ::
      if dollar then [] else [(.methods, fun n ni => searchClass w n ni isMatch word .methods c),
        (.consts, fun n ni => searchClass w n ni isMatch word .consts c)]) ++
      (w.interfacesNamed t).flatMap fun i => (.props, fun _ ni => searchInterface w ni isMatch word .props i) ::
        if dollar then [] else [(.methods, fun _ ni => searchInterface w ni isMatch word .methods i),
          (.consts, fun _ ni => searchInterface w ni isMatch word .consts i)])
    (fun n ni t => by cases dollar <;> simp [scopeSteps, List.map_flatMap]) (fun t l hl => by
      rcases List.mem_append.mp hl with hl | hl
      · obtain ⟨c, hc, hl⟩ := List.mem_flatMap.mp hl
        have hc := ((mem_classesNamed _ _ _).mp hc).1
        have : l = (.props, fun n ni => searchClass w n ni isMatch word .props c) ∨
            l = (.methods, fun n ni => searchClass w n ni isMatch word .methods c) ∨
            l = (.consts, fun n ni => searchClass w n ni isMatch word .consts c) := by
          cases dollar <;> simp at hl <;> tauto
        rcases this with rfl | rfl | rfl
        · exact (hN isMatch word .props).1 c hc
        · exact (hN isMatch word .methods).1 c hc
        · exact (hN isMatch word .consts).1 c hc
      · obtain ⟨c, hc, hl⟩ := List.mem_flatMap.mp hl
        have hc := List.mem_of_mem_filter hc
        have : l = (.props, fun _ ni => searchInterface w ni isMatch word .props c) ∨
            l = (.methods, fun _ ni => searchInterface w ni isMatch word .methods c) ∨
            l = (.consts, fun _ ni => searchInterface w ni isMatch word .consts c) := by
          cases dollar <;> simp at hl <;> tauto
        rcases this with rfl | rfl | rfl
        · exact (hN isMatch word .props).2 c hc
        · exact (hN isMatch word .methods).2 c hc
        · exact (hN isMatch word .consts).2 c hc)
    (fun m => m.reduceStatic cur a) keyOf a.types (fun _ => []) St.new
  exact ⟨_, fun n ni hn hni => by simp only [scopedCompletion, hg n ni hn hni, Option.map_some]; rfl⟩

/-- The conditions hold of `shop`. -/
example : NoCycle shop ∧ Distinct shop ∧ (∀ scope, ∀ m ∈ shop.members .props scope [], m.name ≠ []) ∧
    shop.classes.length = 2 := by
  refine ⟨noCycle_of (fun c => 2 - shop.classes.idxOf c) ?_, shop_distinct, fun scope m hm => ?_, rfl⟩
  · have : ∀ d ∈ shop.classes, ∀ e ∈ shop.classes, asciiLower e.name = asciiLower d.ext →
        2 - shop.classes.idxOf e < 2 - shop.classes.idxOf d := by decide +kernel
    exact fun d hd e he h => this d hd e he h.2.2
  · simp only [shop] at hm
    split at hm
    · simp only [List.mem_cons, List.not_mem_nil, or_false] at hm
      rcases hm with rfl | rfl <;> decide
    · split at hm
      · simp only [List.mem_cons, List.not_mem_nil, or_false] at hm
        rw [hm]; decide
      · simp at hm

/-- C132 needs the condition: with a class whose parents go round in a circle, completion after `::` never ends. -/
theorem C132_needs_nocycle_scope (w : World) (P : Cls → Prop)
    (hP : ∀ d, P d → d.ext ≠ [] ∧ (∀ i ∈ w.interfaces, i.name ≠ d.ext) ∧
      ∃ e ∈ w.classes, w.key e.name = w.key d.ext ∧ P e)
    (t : Bytes) (c : Cls) (rest : List Cls) (hc : w.classesNamed t = c :: rest) (hPc : P c)
    (keyOf : Bytes → Bytes) (hasParams : Nat → Bool) (isMatch : Bytes → Option Int) (word : Bytes) (dollar : Bool)
    (name cur : Bytes) (n ni : Nat) :
    scopedCompletion w keyOf n ni hasParams isMatch word dollar ⟨name, [t]⟩ cur = none := by
  have hd : ∀ st, OnlyInterfaces w st → st.cache.get (.cls, .props, c.name, []) = none → ∀ id,
      getClassPlain w .props n ni c [] (some id) st = none := by
    intro st hst hnone id
    unfold getClassPlain
    simp only [St.searchedOr, hnone]
    rw [plainLoop_diverges w .props [] ni P hP n [c] ⟨c, by simp, hPc⟩ _ _ _ hst]
  have hn : getClassPlain w .props n ni c [] (some ((emptyKinds St.new).1 .props).searched) (emptyKinds St.new).2 = none := by
    refine hd _ (fun id s hs => ?_) rfl _
    have : (emptyKinds St.new).2.sets id = [] := by
      show (if id = 2 then [] else if id = 1 then [] else if id = 0 then [] else []) = ([] : List Bytes)
      split
      · rfl
      · split
        · rfl
        · split <;> rfl
    rw [this] at hs
    cases hs
  have hsearch : searchClass w n ni isMatch word .props c (some ((emptyKinds St.new).1 .props).searched)
      (emptyKinds St.new).2 = none := by
    simp only [searchClass, search, if_neg (show ¬ Kind.props = .methods by decide), hn]
  simp only [scopedCompletion, completionLoop, scopeSteps, hc, List.flatMap_cons, List.cons_append, gatherKinds, hsearch,
    Option.map_none]

end Verif.Complete
