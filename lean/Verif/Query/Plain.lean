import Verif.Query.Model
import Verif.Common.Tactics

/-! The lookups do not look at scores: they can be followed on states without scores. -/

namespace Verif.Query

/-- Without the score. -/
def Found.plain (f : Found) : Found := { f with score := 0 }

/-- Without the scores. -/
def Inherited.plain (m : Inherited) : Inherited := { m with members := m.members.map Found.plain }

/-- Without the scores in the cache. -/
def St.plain (st : St) : St := { st with cache := st.cache.map fun e => (e.1, e.2.plain) }

/-- The result without scores. -/
def plainR (r : Inherited × St) : Inherited × St := (r.1.plain, r.2.plain)

theorem plain_get (st : St) (k : Of × Kind × Bytes × Bytes) : st.plain.cache.get k = (st.cache.get k).map Inherited.plain := by
  unfold St.plain
  simp only
  generalize st.cache = c
  induction c with
  | nil => rfl
  | cons e t ih =>
    simp only [List.map_cons, GoMap.get]
    split
    · rfl
    · exact ih

theorem plain_set (st : St) (k : Of × Kind × Bytes × Bytes) (m : Inherited) :
    ({ st with cache := st.cache.set k m } : St).plain = { st.plain with cache := st.plain.cache.set k m.plain } := by
  unfold St.plain
  simp only [St.mk.injEq, true_and]
  generalize st.cache = c
  induction c with
  | nil => rfl
  | cons e t ih =>
    simp only [List.map_cons, GoMap.set]
    split
    · rfl
    · rw [List.map_cons, ih]

@[simp] theorem plain_sets (st : St) : st.plain.sets = st.sets := rfl
@[simp] theorem plain_next (st : St) : st.plain.next = st.next := rfl
@[simp] theorem plain_searched (m : Inherited) : m.plain.searched = m.searched := rfl
@[simp] theorem plain_rel (m : Inherited) : m.plain.rel = m.rel := rfl
theorem plain_mark (st : St) (id : Nat) (l : List Bytes) : (st.mark id l).plain = st.plain.mark id l := rfl
theorem plain_newSet (st : St) : st.newSet.2.plain = st.plain.newSet.2 := rfl
theorem plain_searchedOr (st : St) (o : Option Nat) : st.plain.searchedOr o = ((st.searchedOr o).1, (st.searchedOr o).2.plain) := by
  cases o <;> rfl

theorem plain_merge (m o : Inherited) (st : St) : merge m.plain o.plain st.plain = plainR (merge m o st) := by
  simp only [merge, plainR, Inherited.plain, List.map_append]
  rfl

theorem plain_found (w : World) (k : Kind) (scope name : Bytes) : (w.found k scope name).map Found.plain = w.found k scope name := by
  simp [World.found, Found.plain, Function.comp_def]

theorem plain_intfLoop (w : World) (k : Kind) (name : Bytes) (n : Nat) (queue : List Intf) (m : Inherited) (st : St) :
    intfLoop w k name n queue m.plain st.plain = (intfLoop w k name n queue m st).map plainR := by
  induction n generalizing queue m st with
  | zero => cases queue <;> rfl
  | succ n ih =>
    cases queue with
    | nil => rfl
    | cons i q =>
      simp only [intfLoop]
      by_cases h : i.name ∈ st.sets m.searched
      · rw [if_pos (show i.name ∈ st.plain.sets m.plain.searched from h), if_pos h]
        exact ih q m st
      · rw [if_neg (show i.name ∉ st.plain.sets m.plain.searched from h), if_neg h, ← ih]
        simp only [Inherited.plain, List.map_append, plain_found]
        rfl

theorem plain_getInterface (w : World) (k : Kind) (n : Nat) (i : Intf) (name : Bytes) (o : Option Nat) (st : St) :
    getInterface w k n i name o st.plain = (getInterface w k n i name o st).map plainR := by
  unfold getInterface
  rw [plain_searchedOr]
  simp only [plain_get]
  cases (st.searchedOr o).2.cache.get (.intf, k, i.name, name) with
  | some m => rfl
  | none =>
    simp only [Option.map_none]
    have := plain_intfLoop w k name n [i] { members := [], rel := [], searched := (st.searchedOr o).1 } (st.searchedOr o).2
    rw [show ({ members := [], rel := [], searched := (st.searchedOr o).1 } : Inherited).plain =
      { members := [], rel := [], searched := (st.searchedOr o).1 } from rfl] at this
    rw [this, Option.map_map, Option.map_map]
    congr 1
    funext r
    simp only [Function.comp_apply, plainR, plain_set]

theorem plain_getTrait (w : World) (t : Trt) (name : Bytes) (st : St) :
    getTrait w t name st.plain = plainR (getTrait w t name st) := by
  unfold getTrait
  rw [plain_get]
  cases st.cache.get (.trt, .methods, t.name, name) with
  | some m => rfl
  | none =>
    simp only [Option.map_none, plainR, plain_set, Inherited.plain, plain_found]
    rfl

theorem plain_mergeTraits (w : World) (name : Bytes) (ts : List Trt) (m : Inherited) (st : St) :
    mergeTraits w name ts m.plain st.plain = plainR (mergeTraits w name ts m st) := by
  unfold mergeTraits
  induction ts generalizing m st with
  | nil => rfl
  | cons t ts ih =>
    simp only [List.foldl_cons]
    rw [plain_getTrait]
    simp only [plainR]
    rw [plain_merge]
    exact ih _ _

theorem plain_mergeInterfaces (w : World) (k : Kind) (n : Nat) (name : Bytes) (is : List Intf) (m : Inherited) (st : St) :
    mergeInterfaces w k n name is m.plain st.plain = (mergeInterfaces w k n name is m st).map plainR := by
  induction is generalizing m st with
  | nil => rfl
  | cons i is ih =>
    simp only [mergeInterfaces, plain_searched, plain_getInterface]
    cases getInterface w k n i name (some m.searched) st with
    | none => rfl
    | some r =>
      simp only [Option.map_some, plainR]
      rw [plain_merge]
      exact ih _ _

/-- The result of a loop without scores. -/
def plainL (r : Inherited × Inherited × St) : Inherited × Inherited × St := (r.1.plain, r.2.1.plain, r.2.2.plain)

theorem plain_methodLoop (w : World) (name : Bytes) (ni n : Nat) (queue : List Cls) (m mi : Inherited) (st : St) :
    methodLoop w name ni n queue m.plain mi.plain st.plain = (methodLoop w name ni n queue m mi st).map plainL := by
  induction n generalizing queue m mi st with
  | zero => cases queue <;> rfl
  | succ n ih =>
    cases queue with
    | nil => rfl
    | cons c q =>
      simp only [methodLoop]
      by_cases h : c.name ∈ st.sets m.searched
      · rw [if_pos (show c.name ∈ st.plain.sets m.plain.searched from h), if_pos h]
        exact ih q m mi st
      · rw [if_neg (show c.name ∉ st.plain.sets m.plain.searched from h), if_neg h]
        rw [show ({ m.plain with members := m.plain.members ++ w.found .methods c.name name } : Inherited) =
          ({ m with members := m.members ++ w.found .methods c.name name } : Inherited).plain from by
            simp [Inherited.plain, plain_found]]
        rw [show st.plain.mark m.plain.searched [c.name] = (st.mark m.searched [c.name]).plain from rfl, plain_mergeTraits]
        simp only [plainR, plain_mergeInterfaces]
        cases mergeInterfaces w .methods ni name (w.implemented c) mi
          (mergeTraits w name (w.used c) { m with members := m.members ++ w.found .methods c.name name }
            (st.mark m.searched [c.name])).2 with
        | none => rfl
        | some r => exact ih _ _ _ _

theorem plain_plainLoop (w : World) (k : Kind) (name : Bytes) (ni n : Nat) (queue : List Cls) (m mi : Inherited) (st : St) :
    plainLoop w k name ni n queue m.plain mi.plain st.plain = (plainLoop w k name ni n queue m mi st).map plainL := by
  induction n generalizing queue m mi st with
  | zero => cases queue <;> rfl
  | succ n ih =>
    cases queue with
    | nil => rfl
    | cons c q =>
      simp only [plainLoop, plain_mergeInterfaces]
      cases mergeInterfaces w k ni name (w.implemented c) mi st with
      | none => rfl
      | some r =>
        simp only [Option.map_some, plainR]
        rw [← ih]
        simp only [Inherited.plain, List.map_append, plain_found]
        rfl

theorem plain_getClassMethods (w : World) (n ni : Nat) (c : Cls) (name : Bytes) (o : Option Nat) (st : St) :
    getClassMethods w n ni c name o st.plain = (getClassMethods w n ni c name o st).map plainR := by
  unfold getClassMethods
  rw [plain_searchedOr]
  simp only [plain_get]
  cases (st.searchedOr o).2.cache.get (.cls, .methods, c.name, name) with
  | some m => rfl
  | none =>
    simp only [Option.map_none]
    have := plain_methodLoop w name ni n [c] { members := [], rel := [], searched := (st.searchedOr o).1 }
      { members := [], rel := [], searched := (st.searchedOr o).1 } (st.searchedOr o).2
    rw [show ({ members := [], rel := [], searched := (st.searchedOr o).1 } : Inherited).plain =
      { members := [], rel := [], searched := (st.searchedOr o).1 } from rfl] at this
    rw [this]
    cases methodLoop w name ni n [c] { members := [], rel := [], searched := (st.searchedOr o).1 }
      { members := [], rel := [], searched := (st.searchedOr o).1 } (st.searchedOr o).2 with
    | none => rfl
    | some r =>
      simp only [Option.map_some, plainL, plain_merge, plainR, plain_set]

theorem plain_getClassPlain (w : World) (k : Kind) (n ni : Nat) (c : Cls) (name : Bytes) (o : Option Nat) (st : St) :
    getClassPlain w k n ni c name o st.plain = (getClassPlain w k n ni c name o st).map plainR := by
  unfold getClassPlain
  rw [plain_searchedOr]
  simp only [plain_get]
  cases (st.searchedOr o).2.cache.get (.cls, k, c.name, name) with
  | some m => rfl
  | none =>
    simp only [Option.map_none]
    have := plain_plainLoop w k name ni n [c] { members := [], rel := [], searched := (st.searchedOr o).1 }
      { members := [], rel := [], searched := (st.searchedOr o).1 } (st.searchedOr o).2
    rw [show ({ members := [], rel := [], searched := (st.searchedOr o).1 } : Inherited).plain =
      { members := [], rel := [], searched := (st.searchedOr o).1 } from rfl] at this
    rw [this]
    cases plainLoop w k name ni n [c] { members := [], rel := [], searched := (st.searchedOr o).1 }
      { members := [], rel := [], searched := (st.searchedOr o).1 } (st.searchedOr o).2 with
    | none => rfl
    | some r =>
      simp only [Option.map_some, plainL, plain_merge, plainR, plain_set]

end Verif.Query
