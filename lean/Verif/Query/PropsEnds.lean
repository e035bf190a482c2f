import Verif.Query.PropsHover
import Mathlib.Logic.Relation

/-! Everything that is asked about members ends if no class is its own parent. -/

namespace Verif.Query

/-- No class extends itself, directly or through others. -/
def NoCycle (w : World) : Prop := ∀ c ∈ w.classes, ¬ Relation.TransGen (ParentOf w) c c

/-- Without cycles the classes have ranks. -/
theorem ranks {w : World} (hw : NoCycle w) :
    ∃ rank : Cls → Nat, ∀ d ∈ w.classes, ∀ e, ParentOf w d e → rank e < rank d := by
  classical
  refine ⟨fun d => (w.classes.filter fun e => Relation.TransGen (ParentOf w) d e).length, fun d _ e hde => ?_⟩
  refine filter_lt w.classes _ _ (fun x hx => ?_) e hde.2.1 (decide_eq_true (.single hde)) (decide_eq_false (hw e hde.2.1))
  simp only [decide_eq_true_eq] at hx ⊢
  exact Relation.TransGen.head hde hx

/-- The lookup has the same result for all large bounds, and no set of names is lost. -/
def EndsAt (N : Nat) (lk : Nat → Nat → Lookup) : Prop :=
  ∀ o st, (∀ id, o = some id → id < st.next) →
    ∃ r : Inherited × St, st.next ≤ r.2.next ∧ ∀ n ni, N ≤ n → N ≤ ni → lk n ni o st = some r

theorem EndsAt.mono {N M : Nat} (h : N ≤ M) {lk : Nat → Nat → Lookup} (hl : EndsAt N lk) : EndsAt M lk := by
  intro o st ho
  obtain ⟨r, h1, h2⟩ := hl o st ho
  exact ⟨r, h1, fun n ni hn hni => h2 n ni (by omega) (by omega)⟩

theorem getClassMethods_next {w : World} {n ni : Nat} {c : Cls} {name : Bytes} {o : Option Nat} {st : St}
    {r : Inherited × St} (h : getClassMethods w n ni c name o st = some r) : st.next ≤ r.2.next := by
  unfold getClassMethods at h
  simp only at h
  have h0 := (st.le_searchedOr o).1
  split at h
  · cases h; exact h0
  · split at h
    · cases h
    · rename_i hl
      cases h
      exact Nat.le_trans h0 (methodLoop_le _ _ _ _ _ _ _ _ _ hl).1.1

theorem plainLoop_next (w : World) (k : Kind) (name : Bytes) (ni n : Nat) (queue : List Cls) (m mi : Inherited) (st : St)
    (r : Inherited × Inherited × St) (h : plainLoop w k name ni n queue m mi st = some r) : st.next ≤ r.2.2.next := by
  induction n generalizing queue m mi st with
  | zero =>
    cases queue with
    | nil => simp only [plainLoop, Option.some.injEq] at h; subst h; exact Nat.le_refl _
    | cons c q => simp [plainLoop] at h
  | succ n ih =>
    cases queue with
    | nil => simp only [plainLoop, Option.some.injEq] at h; subst h; exact Nat.le_refl _
    | cons c q =>
      simp only [plainLoop] at h
      cases hm : mergeInterfaces w k ni name (w.implemented c) mi st with
      | none => rw [hm] at h; simp at h
      | some r' =>
        obtain ⟨mi', st'⟩ := r'
        rw [hm] at h
        exact Nat.le_trans (mergeInterfaces_le _ _ _ _ _ _ _ _ hm).1.1 (ih _ _ _ _ h)

theorem getClassPlain_next {w : World} {k : Kind} {n ni : Nat} {c : Cls} {name : Bytes} {o : Option Nat} {st : St}
    {r : Inherited × St} (h : getClassPlain w k n ni c name o st = some r) : st.next ≤ r.2.next := by
  unfold getClassPlain at h
  simp only at h
  have h0 := (st.le_searchedOr o).1
  split at h
  · cases h; exact h0
  · split at h
    · cases h
    · rename_i hl
      cases h
      exact Nat.le_trans h0 (plainLoop_next _ _ _ _ _ _ _ _ _ _ hl)

/-- One bound for all lookups. -/
theorem lookups_end (w : World) (hw : NoCycle w) : ∃ N, ∀ name,
    (∀ c ∈ w.classes, EndsAt N fun n ni => getClassMethods w n ni c name) ∧
    (∀ c ∈ w.classes, ∀ k, EndsAt N fun n ni => getClassPlain w k n ni c name) ∧
    (∀ i ∈ w.interfaces, ∀ k, EndsAt N fun _ ni => getInterface w k ni i name) ∧
    ∀ x, EndsAt N fun _ _ _ st => some (getTrait w x name st) := by
  obtain ⟨rank, hr⟩ := ranks hw
  obtain ⟨N1, h1⟩ := C29_methods w
  obtain ⟨N2, h2⟩ := C29_plain_partial w rank hr
  obtain ⟨N3, h3⟩ := C29_interfaces w
  refine ⟨N1 + N2 + N3, fun name => ⟨fun c hc => ?_, fun c hc k => ?_, fun i hi k => ?_, fun x => ?_⟩⟩
  · intro o st ho
    obtain ⟨r, hr⟩ := h1 c hc name o st ho
    exact ⟨r, getClassMethods_next (hr N1 N1 (Nat.le_refl _) (Nat.le_refl _)), fun n ni h4 h5 => hr n ni (by omega) (by omega)⟩
  · intro o st _
    obtain ⟨r, hr⟩ := h2 c hc k name o st
    exact ⟨r, getClassPlain_next (hr N2 N2 (Nat.le_refl _) (Nat.le_refl _)), fun n ni h4 h5 => hr n ni (by omega) (by omega)⟩
  · intro o st _
    obtain ⟨r, hr⟩ := h3 i hi k name o st
    exact ⟨r, (getInterface_le _ _ _ _ _ _ _ _ (hr N3 (Nat.le_refl _))).1, fun n ni h4 h5 => hr ni (by omega)⟩
  · intro o st _
    exact ⟨_, (getTrait_le w x name st).1, fun _ _ _ _ => rfl⟩

theorem merge_next (m o : Inherited) (st : St) : st.next ≤ (merge m o st).2.next := (merge_le m o st).1

theorem gather_ends {N : Nat} (ls : List (Nat → Nat → Lookup)) (hl : ∀ l ∈ ls, EndsAt N l) (ms : Inherited) (st : St)
    (hms : ms.searched < st.next) : ∃ r : Inherited × St, st.next ≤ r.2.next ∧
      ∀ n ni, N ≤ n → N ≤ ni → gather (ls.map fun l => l n ni) ms st = some r := by
  induction ls generalizing ms st with
  | nil => exact ⟨(ms, st), Nat.le_refl _, fun _ _ _ _ => rfl⟩
  | cons l ls ih =>
    obtain ⟨⟨r, st'⟩, h1, h2⟩ := hl l (by simp) (some ms.searched) st (fun id h => by cases h; exact hms)
    have hn := merge_next ms r st'
    have h1 : st.next ≤ st'.next := h1
    obtain ⟨q, h3, h4⟩ := ih (fun l h => hl l (by simp [h])) (merge ms r st').1 (merge ms r st').2 (by
      show ms.searched < _
      omega)
    refine ⟨q, by omega, fun n ni hn hni => ?_⟩
    simp only [List.map_cons, gather, h2 n ni hn hni]
    exact h4 n ni hn hni

/-- The lookups for one type, before the bounds are chosen. -/
def lookupsAt (w : World) (u : MemberUse) (name t : Bytes) : List (Nat → Nat → Lookup) :=
  let classes : List (Nat → Nat → Lookup) := (w.classesNamed t).map fun c => fun n ni =>
    if u.kind = .methods then getClassMethods w n ni c (u.key name) else getClassPlain w u.kind n ni c (u.key name)
  let interfaces : List (Nat → Nat → Lookup) := (w.interfacesNamed t).map fun i => fun _ ni =>
    getInterface w u.kind ni i (u.key name)
  let traits : List (Nat → Nat → Lookup) := (w.traitsNamed t).map fun x => fun _ _ => fun _ st =>
    some (getTrait w x (u.key name) st)
  match u with
  | .const => classes ++ interfaces
  | .method => classes ++ interfaces ++ traits
  | _ => classes

theorem lookupsAt_eq (w : World) (n ni : Nat) (u : MemberUse) (name t : Bytes) :
    lookups w n ni u name t = (lookupsAt w u name t).map fun l => l n ni := by
  cases u <;> simp [lookups, lookupsAt, Function.comp_def]

theorem lookupsAt_end {w : World} {N : Nat} {u : MemberUse} {name : Bytes}
    (h : (∀ c ∈ w.classes, EndsAt N fun n ni => getClassMethods w n ni c (u.key name)) ∧
      (∀ c ∈ w.classes, ∀ k, EndsAt N fun n ni => getClassPlain w k n ni c (u.key name)) ∧
      (∀ i ∈ w.interfaces, ∀ k, EndsAt N fun _ ni => getInterface w k ni i (u.key name)) ∧
      ∀ x, EndsAt N fun _ _ _ st => some (getTrait w x (u.key name) st)) (t : Bytes) :
    ∀ l ∈ lookupsAt w u name t, EndsAt N l := by
  obtain ⟨h1, h2, h3, h4⟩ := h
  have hc : ∀ l ∈ (w.classesNamed t).map (fun c => fun n ni =>
      if u.kind = .methods then getClassMethods w n ni c (u.key name) else getClassPlain w u.kind n ni c (u.key name)),
      EndsAt N l := by
    intro l hl
    obtain ⟨c, hc, rfl⟩ := List.mem_map.mp hl
    have hc := ((mem_classesNamed _ _ _).mp hc).1
    by_cases hk : u.kind = .methods
    · simp only [hk, if_true]; exact h1 c hc
    · simp only [hk, if_false]; exact h2 c hc _
  have hi : ∀ l ∈ (w.interfacesNamed t).map (fun i => fun (_ ni : Nat) => getInterface w u.kind ni i (u.key name)),
      EndsAt N l := by
    intro l hl
    obtain ⟨c, hc, rfl⟩ := List.mem_map.mp hl
    exact h3 c (List.mem_of_mem_filter hc) _
  have ht : ∀ l ∈ (w.traitsNamed t).map (fun x => fun (_ _ : Nat) => fun (_ : Option Nat) (st : St) =>
      some (getTrait w x (u.key name) st)), EndsAt N l := by
    intro l hl
    obtain ⟨c, -, rfl⟩ := List.mem_map.mp hl
    exact h4 c
  intro l hl
  cases u with
  | const => exact (List.mem_append.mp hl).elim (hc l) (hi l)
  | method => exact (List.mem_append.mp hl).elim (fun h => (List.mem_append.mp h).elim (hc l) (hi l)) (ht l)
  | staticMethod => exact hc l hl
  | staticProp => exact hc l hl
  | prop => exact hc l hl

theorem memberLoop_ends {w : World} {N : Nat} {u : MemberUse} {name : Bytes}
    (h : ∀ t, ∀ l ∈ lookupsAt w u name t, EndsAt N l) (keyOf : Bytes → Bytes) (a : Access) (cur : Bytes) (ts : List Bytes)
    (acc : List Found) (st : St) :
    ∃ r, ∀ n ni, N ≤ n → N ≤ ni → memberLoop w keyOf n ni u a name cur ts acc st = some r := by
  induction ts generalizing acc st with
  | nil => exact ⟨acc, fun _ _ _ _ => rfl⟩
  | cons t ts ih =>
    obtain ⟨⟨ms, st'⟩, -, h2⟩ := gather_ends (lookupsAt w u name t) (h t) { members := [], rel := [], searched := st.newSet.1 }
      st.newSet.2 (by show st.next < st.next + 1; omega)
    obtain ⟨r, hr⟩ := ih (mergeWithScope keyOf [acc, u.reduce cur a ms]) st'
    refine ⟨r, fun n ni hn hni => ?_⟩
    simp only [memberLoop, lookupsAt_eq, h2 n ni hn hni]
    exact hr n ni hn hni

theorem newLoop_ends {w : World} {N : Nat}
    (h : ∀ c ∈ w.classes, EndsAt N fun n ni => getClassMethods w n ni c b!"__construct") (cs : List Cls)
    (hcs : ∀ c ∈ cs, c ∈ w.classes) (st : St) : ∃ r, ∀ n ni, N ≤ n → N ≤ ni → newLoop w n ni cs st = some r := by
  induction cs generalizing st with
  | nil => exact ⟨_, fun _ _ _ _ => rfl⟩
  | cons c cs ih =>
    obtain ⟨⟨r, st'⟩, -, h2⟩ := h c (hcs c (by simp)) none st (by simp)
    obtain ⟨q, hq⟩ := ih (fun c hc => hcs c (by simp [hc])) st'
    refine ⟨((match r.reduceFirst with
      | some f => if f.member.scope = c.name then f.member.decl else c.decl
      | none => c.decl) :: q.1, q.2), fun n ni hn hni => ?_⟩
    have h2 : getClassMethods w n ni c b!"__construct" none st = some (r, st') := h2 n ni hn hni
    simp only [newLoop, h2, hq n ni hn hni, Option.map_some]
    cases r.reduceFirst <;> rfl

/-- C132: go to definition ends for every use of a name if no class extends itself: there is one bound on the rounds of all
loops that suffices for every use, and larger bounds do not change the answer. -/
theorem C132_definition (s : Site) (hw : NoCycle s.world) : ∃ N, ∀ tbl keyOf u, ∃ r, ∀ n ni, N ≤ n → N ≤ ni →
    definition s tbl keyOf n ni u = some r := by
  obtain ⟨N, hN⟩ := lookups_end s.world hw
  refine ⟨N, fun tbl keyOf u => ?_⟩
  suffices h : ∃ r, ∀ n ni, N ≤ n → N ≤ ni → locations s tbl keyOf n ni u = some r by
    obtain ⟨r, hr⟩ := h
    exact ⟨_, fun n ni hn hni => by rw [definition, hr n ni hn hni, Option.map_some]⟩
  cases u with
  | new_ ts =>
    obtain ⟨r, hr⟩ := newLoop_ends (hN b!"__construct").1
      (ts.flatMap fun t => s.world.classesNamed (tbl.getClassReferenceFQN t).1) (fun c hc => by
        obtain ⟨t, -, hc⟩ := List.mem_flatMap.mp hc
        exact ((mem_classesNamed _ _ _).mp hc).1) St.new
    exact ⟨_, fun n ni hn hni => by rw [locations, hr n ni hn hni, Option.map_some]⟩
  | member u a name cur =>
    obtain ⟨r, hr⟩ := memberLoop_ends (fun t => lookupsAt_end (hN (u.key name)) t) keyOf a cur a.types [] St.new
    exact ⟨_, fun n ni hn hni => by rw [locations, hr n ni hn hni, Option.map_some]⟩
  | cls ts => exact ⟨_, fun _ _ _ _ => rfl⟩
  | intf ts => exact ⟨_, fun _ _ _ _ => rfl⟩
  | trt ts => exact ⟨_, fun _ _ _ _ => rfl⟩
  | typ ts => exact ⟨_, fun _ _ _ _ => rfl⟩
  | constant n => exact ⟨_, fun _ _ _ _ => rfl⟩
  | function n => exact ⟨_, fun _ _ _ _ => rfl⟩

theorem constructors_end {w : World} {N : Nat}
    (h : ∀ c ∈ w.classes, EndsAt N fun n ni => getClassMethods w n ni c b!"__construct") (cs : List Cls)
    (hcs : ∀ c ∈ cs, c ∈ w.classes) (st : St) : ∃ r, ∀ n ni, N ≤ n → N ≤ ni → constructors w n ni cs st = some r := by
  induction cs generalizing st with
  | nil => exact ⟨_, fun _ _ _ _ => rfl⟩
  | cons c cs ih =>
    obtain ⟨⟨r, st'⟩, -, h2⟩ := h c (hcs c (by simp)) none st (by simp)
    obtain ⟨q, hq⟩ := ih (fun c hc => hcs c (by simp [hc])) st'
    refine ⟨(r.reduceFirst.toList ++ q.1, q.2), fun n ni hn hni => ?_⟩
    have h2 : getClassMethods w n ni c b!"__construct" none st = some (r, st') := h2 n ni hn hni
    simp only [constructors, h2, hq n ni hn hni, Option.map_some]

theorem named_classes {w : World} {α : Type} {f : α → Bytes} {ts : List α} {c : Cls}
    (hc : c ∈ ts.flatMap fun t => w.classesNamed (f t)) : c ∈ w.classes := by
  obtain ⟨t, -, hc⟩ := List.mem_flatMap.mp hc
  exact ((mem_classesNamed _ _ _).mp hc).1

/-- C132: so does hovering. -/
theorem C132_hover (s : Site) (hw : NoCycle s.world) : ∃ N, ∀ tbl keyOf u, ∃ r, ∀ n ni, N ≤ n → N ≤ ni →
    hover s tbl keyOf n ni u = some r := by
  obtain ⟨N, hN⟩ := lookups_end s.world hw
  refine ⟨N, fun tbl keyOf u => ?_⟩
  cases u with
  | new_ ts =>
    obtain ⟨r, hr⟩ := constructors_end (hN b!"__construct").1 (ts.flatMap fun t => s.world.classesNamed t.fqn)
      (fun c => named_classes (f := fun t : Types.Ty => t.fqn)) St.new
    exact ⟨_, fun n ni hn hni => by rw [hover, hr n ni hn hni, Option.map_some]⟩
  | member u a name cur =>
    obtain ⟨r, hr⟩ := memberLoop_ends (fun t => lookupsAt_end (hN (u.key name)) t) keyOf a cur a.types [] St.new
    exact ⟨_, fun n ni hn hni => by rw [hover, hr n ni hn hni, Option.map_some]⟩
  | cls ts => exact ⟨_, fun _ _ _ _ => rfl⟩
  | intf ts => exact ⟨_, fun _ _ _ _ => rfl⟩
  | trt ts => exact ⟨_, fun _ _ _ _ => rfl⟩
  | typ ts => exact ⟨_, fun _ _ _ _ => rfl⟩
  | constant n => exact ⟨_, fun _ _ _ _ => rfl⟩
  | function n => exact ⟨_, fun _ _ _ _ => rfl⟩

theorem callLoop_ends {N : Nat} (reduce : Inherited → List Found) (ls : List (Nat → Nat → Lookup))
    (hl : ∀ l ∈ ls, EndsAt N l) (st : St) :
    ∃ r, ∀ n ni, N ≤ n → N ≤ ni → callLoop reduce (ls.map fun l => l n ni) st = some r := by
  induction ls generalizing st with
  | nil => exact ⟨_, fun _ _ _ _ => rfl⟩
  | cons l ls ih =>
    obtain ⟨⟨r, st'⟩, -, h2⟩ := hl l (by simp) none st (by simp)
    obtain ⟨q, hq⟩ := ih (fun l h => hl l (by simp [h])) st'
    exact ⟨reduce r ++ q, fun n ni hn hni => by simp only [List.map_cons, callLoop, h2 n ni hn hni, hq n ni hn hni, Option.map_some]⟩

theorem callLookups_end {w : World} {N : Nat} {name : Bytes}
    (h1 : ∀ c ∈ w.classes, EndsAt N fun n ni => getClassMethods w n ni c name)
    (h2 : ∀ i ∈ w.interfaces, EndsAt N fun _ ni => getInterface w .methods ni i name) (ts : List Bytes) :
    ∃ ls : List (Nat → Nat → Lookup), (∀ l ∈ ls, EndsAt N l) ∧
      ∀ n ni, ts.flatMap (callLookups w n ni name) = ls.map fun l => l n ni := by
  refine ⟨ts.flatMap fun t => ((w.classesNamed t).map fun c => fun n ni => getClassMethods w n ni c name) ++
    (w.interfacesNamed t).map fun i => fun _ ni => getInterface w .methods ni i name, fun l hl => ?_, fun n ni => ?_⟩
  · obtain ⟨t, -, hl⟩ := List.mem_flatMap.mp hl
    rcases List.mem_append.mp hl with hl | hl
    · obtain ⟨c, hc, rfl⟩ := List.mem_map.mp hl
      exact h1 c ((mem_classesNamed _ _ _).mp hc).1
    · obtain ⟨c, hc, rfl⟩ := List.mem_map.mp hl
      exact h2 c (List.mem_of_mem_filter hc)
  · rw [List.map_flatMap]
    congr 1
    funext t
    simp [callLookups, Function.comp_def]

/-- The uses that are calls. -/
def IsCall : Use → Prop
  | .new_ _ => True
  | .function _ => True
  | .member u _ _ _ => u = .method ∨ u = .staticMethod
  | _ => False

/-- C132: signature help ends for every call, whatever the classes extend. -/
theorem C132_signatures (s : Site) : ∃ N, ∀ last u, IsCall u → ∃ r, ∀ n ni, N ≤ n → N ≤ ni →
    signatures s last n ni u = some r := by
  obtain ⟨N1, h1⟩ := C29_methods s.world
  obtain ⟨N3, h3⟩ := C29_interfaces s.world
  have e1 : ∀ name, ∀ c ∈ s.world.classes, EndsAt (N1 + N3) fun n ni => getClassMethods s.world n ni c name := by
    intro name c hc o st ho
    obtain ⟨r, hr⟩ := h1 c hc name o st ho
    exact ⟨r, getClassMethods_next (hr N1 N1 (Nat.le_refl _) (Nat.le_refl _)), fun n ni h4 h5 => hr n ni (by omega) (by omega)⟩
  have e2 : ∀ name, ∀ i ∈ s.world.interfaces, EndsAt (N1 + N3) fun _ ni => getInterface s.world .methods ni i name := by
    intro name i hi o st _
    obtain ⟨r, hr⟩ := h3 i hi .methods name o st
    exact ⟨r, (getInterface_le _ _ _ _ _ _ _ _ (hr N3 (Nat.le_refl _))).1, fun n ni h4 h5 => hr ni (by omega)⟩
  have key : ∀ name (ts : List Bytes) reduce, ∃ r, ∀ n ni, N1 + N3 ≤ n → N1 + N3 ≤ ni →
      callLoop reduce (ts.flatMap (callLookups s.world n ni name)) St.new = some r := by
    intro name ts reduce
    obtain ⟨ls, hl, he⟩ := callLookups_end (e1 name) (e2 name) ts
    obtain ⟨r, hr⟩ := callLoop_ends reduce ls hl St.new
    exact ⟨r, fun n ni hn hni => by rw [he]; exact hr n ni hn hni⟩
  refine ⟨N1 + N3, fun last u hu => ?_⟩
  cases u with
  | new_ ts =>
    obtain ⟨r, hr⟩ := constructors_end (e1 b!"__construct") (ts.flatMap fun t => s.world.classesNamed t.fqn)
      (fun c => named_classes (f := fun t : Types.Ty => t.fqn)) St.new
    exact ⟨_, fun n ni hn hni => by rw [signatures, hr n ni hn hni, Option.map_some]⟩
  | function n => exact ⟨_, fun _ _ _ _ => rfl⟩
  | member u a name cur =>
    rcases hu with rfl | rfl
    · obtain ⟨r, hr⟩ := key name a.types (MemberUse.reduce .method cur a)
      exact ⟨_, fun n ni hn hni => by simp only [signatures, hr n ni hn hni, Option.map_some]; rfl⟩
    · obtain ⟨r, hr⟩ := key name a.types (MemberUse.reduce .staticMethod cur a)
      exact ⟨_, fun n ni hn hni => by simp only [signatures, hr n ni hn hni, Option.map_some]; rfl⟩
  | cls ts => exact hu.elim
  | intf ts => exact hu.elim
  | trt ts => exact hu.elim
  | typ ts => exact hu.elim
  | constant n => exact hu.elim

theorem firstDeprecated_ends {N : Nat} (dep : Nat → Bool) (reduce : Inherited → List Found) (ls : List (Nat → Nat → Lookup))
    (hl : ∀ l ∈ ls, EndsAt N l) (st : St) :
    ∃ r, ∀ n ni, N ≤ n → N ≤ ni → firstDeprecated dep reduce (ls.map fun l => l n ni) st = some r := by
  induction ls generalizing st with
  | nil => exact ⟨_, fun _ _ _ _ => rfl⟩
  | cons l ls ih =>
    obtain ⟨⟨r, st'⟩, -, h2⟩ := hl l (by simp) none st (by simp)
    obtain ⟨q, hq⟩ := ih (fun l h => hl l (by simp [h])) st'
    cases hf : (reduce r).find? fun f => dep f.member.decl with
    | some f => exact ⟨_, fun n ni hn hni => by simp only [List.map_cons, firstDeprecated, h2 n ni hn hni, hf]; rfl⟩
    | none => exact ⟨q, fun n ni hn hni => by simp only [List.map_cons, firstDeprecated, h2 n ni hn hni, hf, hq n ni hn hni]⟩

theorem mark_ends (s : Site) {N : Nat} (hN : ∀ name,
    (∀ c ∈ s.world.classes, EndsAt N fun n ni => getClassMethods s.world n ni c name) ∧
    (∀ c ∈ s.world.classes, ∀ k, EndsAt N fun n ni => getClassPlain s.world k n ni c name) ∧
    (∀ i ∈ s.world.interfaces, ∀ k, EndsAt N fun _ ni => getInterface s.world k ni i name) ∧
    ∀ x, EndsAt N fun _ _ _ st => some (getTrait s.world x name st)) (tbl : Imports.Table) (u : Use) (st : St) :
    ∃ r, ∀ n ni, N ≤ n → N ≤ ni → mark s tbl n ni u st = some r := by
  cases u with
  | member u a name cur =>
    have hf : ∃ r, ∀ n ni, N ≤ n → N ≤ ni → firstDeprecated s.deprecated (u.reduce cur a)
        (a.types.flatMap (lookups s.world n ni u name)) st = some r := by
      obtain ⟨r, hr⟩ := firstDeprecated_ends s.deprecated (u.reduce cur a) (a.types.flatMap (lookupsAt s.world u name))
        (fun l hl => by
          obtain ⟨t, -, hl⟩ := List.mem_flatMap.mp hl
          exact lookupsAt_end (hN (u.key name)) t l hl) st
      refine ⟨r, fun n ni hn hni => ?_⟩
      rw [← hr n ni hn hni, List.map_flatMap]
      congr 2
      funext t
      exact lookupsAt_eq _ _ _ _ _ _
    cases u with
    | const => exact ⟨_, fun _ _ _ _ => rfl⟩
    | _ => exact hf
  | _ => exact ⟨_, fun _ _ _ _ => rfl⟩

/-- C132: and so do the marks for uses of deprecated declarations, for the whole document. -/
theorem C132_deprecated (s : Site) (hw : NoCycle s.world) : ∃ N, ∀ us, ∃ r, ∀ n ni, N ≤ n → N ≤ ni →
    deprecatedDiagnostics s n ni us = some r := by
  obtain ⟨N, hN⟩ := lookups_end s.world hw
  refine ⟨N, fun us => ?_⟩
  suffices h : ∀ st, ∃ r, ∀ n ni, N ≤ n → N ≤ ni → deprecatedLoop s n ni us st = some r from h St.new
  induction us with
  | nil => exact fun st => ⟨_, fun _ _ _ _ => rfl⟩
  | cons x us ih =>
    intro st
    obtain ⟨r, tbl, u⟩ := x
    obtain ⟨⟨m, st'⟩, h1⟩ := mark_ends s hN tbl u st
    obtain ⟨l, h2⟩ := ih st'
    exact ⟨_, fun n ni hn hni => by simp only [deprecatedLoop, h1 n ni hn hni, h2 n ni hn hni, Option.map_some]; rfl⟩

/-- C132: without the condition it is false: if every class of a set extends a class of the set (which is not the name of
an interface as well), go to definition on a property of one of them never ends. -/
theorem C132_needs_nocycle (s : Site) (P : Cls → Prop)
    (hP : ∀ d, P d → d.ext ≠ [] ∧ (∀ i ∈ s.world.interfaces, i.name ≠ d.ext) ∧
      ∃ e ∈ s.world.classes, s.world.key e.name = s.world.key d.ext ∧ P e)
    (t : Bytes) (c : Cls) (rest : List Cls) (hc : s.world.classesNamed t = c :: rest) (hPc : P c)
    (tbl : Imports.Table) (keyOf : Bytes → Bytes) (var name cur : Bytes) (n ni : Nat) :
    definition s tbl keyOf n ni (.member .prop ⟨var, [t]⟩ name cur) = none := by
  have h := C29_false_cycle s.world P hP c hPc .props (36 :: name) n ni
  have h' : getClassPlain s.world .props n ni c (36 :: name) (some St.new.newSet.1) St.new.newSet.2 = none := h
  simp [definition, locations, memberLoop, lookups, hc, MemberUse.kind, MemberUse.key, gather, h']

theorem noCycle_of {w : World} (rank : Cls → Nat) (hr : ∀ d ∈ w.classes, ∀ e ∈ w.classes, ParentOf w d e → rank e < rank d) :
    NoCycle w := by
  have key : ∀ c e, c ∈ w.classes → Relation.TransGen (ParentOf w) c e → rank e < rank c ∧ e ∈ w.classes := by
    intro c e hc h
    induction h with
    | single h => exact ⟨hr _ hc _ h.2.1 h, h.2.1⟩
    | tail _ h ih => exact ⟨Nat.lt_trans (hr _ ih.2 _ h.2.1 h) ih.1, h.2.1⟩
  intro c hc h
  exact absurd (key c c hc h).1 (Nat.lt_irrefl _)

/-- The condition holds of `demo`, with three classes. -/
example : NoCycle demo ∧ demo.classes.length = 3 ∧
    (definition ⟨demo, fun _ => [], fun _ => [], fun _ => [], fun _ => true, fun _ => false⟩ (Imports.newTable ⟨0, 0⟩) id 9 9
      (.member .prop ⟨b!"$a", [b!"A"]⟩ b!"x" [])).isSome := by
  refine ⟨noCycle_of (fun c => 2 - demo.classes.idxOf c) ?_, rfl, by decide +kernel⟩
  have : ∀ d ∈ demo.classes, ∀ e ∈ demo.classes, asciiLower e.name = asciiLower d.ext →
      2 - demo.classes.idxOf e < 2 - demo.classes.idxOf d := by decide +kernel
  exact fun d hd e he h => this d hd e he h.2.2

/-- The condition of `C132_needs_nocycle` holds of two classes that extend each other. -/
example : (∀ d ∈ cyclic.classes, d.ext ≠ [] ∧ (∀ i ∈ cyclic.interfaces, i.name ≠ d.ext) ∧
      ∃ e ∈ cyclic.classes, cyclic.key e.name = cyclic.key d.ext ∧ e ∈ cyclic.classes) ∧
    cyclic.classesNamed b!"A" = [⟨b!"A", b!"B", [], [], 0⟩] := by
  refine ⟨?_, by decide +kernel⟩
  intro d hd
  simp only [cyclic, List.mem_cons, List.not_mem_nil, or_false] at hd
  rcases hd with rfl | rfl
  · exact ⟨by decide, by simp [cyclic], ⟨b!"B", b!"A", [], [], 0⟩, by simp [cyclic], rfl, by simp [cyclic]⟩
  · exact ⟨by decide, by simp [cyclic], ⟨b!"A", b!"B", [], [], 0⟩, by simp [cyclic], rfl, by simp [cyclic]⟩

end Verif.Query
