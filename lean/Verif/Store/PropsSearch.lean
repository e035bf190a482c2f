import Verif.Store.SearchKinds
import Verif.Store.PropsHistory

/-!
Properties C09 (nothing stale is offered), C15 (limits), C16 (every match, once) of keyword searches.
-/

namespace Verif.Store

open Verif.Encoding Verif.Storage

variable {env : Env} {root : Bytes} {h : List HOp} {s : Store}

/-! ### keywords with and without a namespace -/

theorem splitB_append' (sep : UInt8) (a b : Bytes) : splitB sep (a ++ sep :: b) = splitB sep a ++ splitB sep b := by
  induction a with
  | nil => simp [splitB]
  | cons c cs ih =>
    simp only [List.cons_append, splitB]
    split
    · rw [ih]; rfl
    · rw [ih]
      have := splitB_ne_nil sep cs
      cases hs : splitB sep cs with
      | nil => exact absurd hs this
      | cons p ps => rfl

theorem scope_plain {kw : Bytes} (h0 : kw ≠ []) (h : 92 ∉ kw) : scopeAndName kw = ([], kw) := by
  unfold scopeAndName
  rw [if_neg h0, splitB_of_no_sep _ _ h]
  rfl

theorem scope_ns {ns word : Bytes} (h : 92 ∉ word) (hn : ns ≠ []) :
    scopeAndName (92 :: ns ++ 92 :: word) = (92 :: ns, word) := by
  have hsplit : splitB 92 (92 :: ns ++ 92 :: word) = [] :: (splitB 92 ns ++ [word]) := by
    have : (92 : UInt8) :: ns ++ 92 :: word = [] ++ 92 :: (ns ++ 92 :: word) := rfl
    rw [this, splitB_append _ _ _ (by simp), splitB_append', splitB_of_no_sep _ _ h]
  unfold scopeAndName
  rw [if_neg (by simp)]
  simp only [hsplit]
  have hl : 0 < (splitB 92 ns).length := List.length_pos_iff.mpr (splitB_ne_nil 92 ns)
  rw [if_neg (by simp only [List.length_cons, List.length_append, List.length_nil]; omega), if_pos (by rfl),
    if_neg (by simp only [List.length_cons, List.length_append, List.length_nil]; omega)]
  simp [joinB_splitB]

theorem namespace_ns {ns short : Bytes} (h : 92 ∉ short) (hn : ns ≠ []) :
    namespaceOf (92 :: ns ++ 92 :: short) = 92 :: ns := by
  unfold namespaceOf
  rw [lastIndexB_append h]
  cases ns with
  | nil => exact absurd rfl hn
  | cons c cs => simp

/-! ### from `collect` to the specification -/

theorem collect_mem {α} (valid : α → Bool) (limit : Option Int) (f : Found α) (xs : List α) (y : α)
    (hy : y ∈ (collect valid limit f xs).1.results) : y ∈ f.results ∨ (y ∈ xs ∧ valid y = true) := by
  induction xs generalizing f with
  | nil => exact .inl hy
  | cons x xs ih =>
    have ha : ∀ z ∈ (addFound valid limit f x).1.results, z ∈ f.results ∨ (z = x ∧ valid z = true) := by
      intro z hz
      unfold addFound at hz
      split at hz
      · rename_i hv
        rcases List.mem_append.mp hz with hz | hz
        · exact .inl hz
        · rw [List.mem_singleton] at hz; subst hz; exact .inr ⟨rfl, hv⟩
      · exact .inl hz
    unfold collect at hy
    split at hy
    · rcases ha y hy with h | ⟨h1, h2⟩
      · exact .inl h
      · exact .inr ⟨by simp [h1], h2⟩
    · rcases ih _ hy with h | ⟨h1, h2⟩
      · rcases ha y h with h | ⟨h1, h2⟩
        · exact .inl h
        · exact .inr ⟨by simp [h1], h2⟩
      · exact .inr ⟨by simp [h1], h2⟩

theorem sound_of {α} {K : SearchKind α} {L} {xs : List α} (hl : ∀ a ∈ xs, Live env L (K.con a)) {valid : α → Bool}
    {limit : Option Int} {count : Nat} {answer : Option (Found α × Bool)}
    (e : answer = some (collect valid limit ⟨[], count⟩ (xs.map K.st))) : SoundSearch env L K.con answer := by
  refine ⟨_, _, e, fun y hy => ?_⟩
  rcases collect_mem _ _ _ _ _ hy with hy | ⟨hy, -⟩
  · simp at hy
  · obtain ⟨a, ha, rfl⟩ := List.mem_map.mp hy
    exact ⟨a, hl a ha, K.stored a⟩

theorem limited_of {α} {xs : List α} {valid : α → Bool} {search : Option Int → Option (Found α × Bool)}
    (e : ∀ limit, search limit = some (collect valid limit ⟨[], 0⟩ xs)) : LimitedSearch search := by
  refine ⟨_, by rw [e, collect_none], fun n hn => ?_⟩
  refine ⟨_, _, by rw [e], ?_⟩
  obtain ⟨h1, h2⟩ := collect_some valid n ⟨[], 0⟩ (by simp only; omega) xs
  rw [h1]
  simp only [List.nil_append] at *
  refine ⟨?_, List.take_prefix _ _, fun hc => ?_⟩
  · rw [List.length_take]; simp; omega
  · have := h2.mp hc
    rw [List.take_of_length_le (by omega)]

theorem complete_of {α} {K : SearchKind α} {L} {xs : List α} (hn : (xs.map fun a => (K.con a).key env).Nodup)
    {valid : α → Bool} {answer : Option (Found α × Bool)} {count : Nat} {P : α → Prop}
    (e : answer = some (collect valid none ⟨[], count⟩ (xs.map K.st)))
    (hP : ∀ a, Live env L (K.con a) → P a → a ∈ xs ∧ valid (K.st a) = true) :
    CompleteSearch env L K.con answer P := by
  rw [collect_none] at e
  refine ⟨_, e, ?_, fun a ha hp => ?_⟩
  · have hk : ∀ a, (K.con (K.st a)).key env = (K.con a).key env := by
      intro a
      rw [← K.stored]
      cases K.con a <;> rfl
    have : ((xs.map K.st).map fun a => (K.con a).key env).Nodup := by
      rw [List.map_map]
      have : (fun a => (K.con a).key env) ∘ K.st = fun a => (K.con a).key env := by
        funext a; exact hk a
      rw [this]; exact hn
    have h2 : (xs.map K.st).Nodup := (List.pairwise_map.mp this).imp fun hne e => hne (by rw [e])
    simp only [List.nil_append]
    exact h2.filter _
  · obtain ⟨h1, h2⟩ := hP a ha hp
    exact ⟨K.st a, List.mem_filter.mpr ⟨List.mem_map.mpr ⟨a, h1, rfl⟩, h2⟩, K.stored a⟩

/-! ### the scoped class search -/

theorem deliver_collect (valid : Class → Bool) (limit : Option Int) (es : List Class) (g : Class → Bytes × Bytes)
    (hr : ∀ a ∈ es, ∃ rest, readClass (g a).2 = some (a, rest)) (f : Found Class) :
    deliver (classStep valid limit) (es.map g) (some f) = some (collect valid limit f es).1 := by
  induction es generalizing f with
  | nil => rfl
  | cons a es ih =>
    obtain ⟨rest, h⟩ := hr a (by simp)
    simp only [List.map_cons, deliver, classStep, h, collect]
    split
    · rfl
    · exact ih (fun a ha => hr a (by simp [ha])) _

theorem search_classes_scoped (he : EnvOK env) (hok : HistOK env h) (hs : run env root h = some s)
    (keyword : Bytes) (hsc : (scopeAndName keyword).1 ≠ []) :
    ∃ xs : List Class, (xs.map fun a => (Sym.cla a).key env).Nodup ∧
      (∀ a, a ∈ xs ↔ Live env (latest h) (.cla a) ∧
        (if (scopeAndName keyword).1.getLastD 0 ≠ 92 then (scopeAndName keyword).1 ++ [92] else (scopeAndName keyword).1)
          <+: (Sym.cla a).key env) ∧
      ∀ (valid : Class → Bool) (limit : Option Int) (count : Nat),
        s.searchClasses env keyword valid limit count =
          some ((collect (fun c : Class => valid c && ((scopeAndName keyword).2 == [] ||
            containsB c.name.original (scopeAndName keyword).2)) limit ⟨[], count⟩ xs).1, true) := by
  obtain ⟨s', h1, inv, -, -⟩ := run_inv (root := root) he hok
  rw [hs] at h1
  cases h1
  have hD := disjoint_of_ok he.lower hok.docs hok.consts
  have hdl : ∀ u d, latest h u = some d → DocOK env d := fun u d hu => hok.docs d (inv.live u d hu).1
  generalize hsn : scopeAndName keyword = sn at *
  obtain ⟨scope, kw⟩ := sn
  obtain ⟨xs, x1, x2, x3⟩ := entries_live kCla inv hD (if scope.getLastD 0 ≠ 92 then scope ++ [92] else scope)
  refine ⟨xs, ?_, ?_, ?_⟩
  · refine List.pairwise_map.mpr ((List.pairwise_map.mp x2).imp fun hne e => hne ?_)
    simp only [Sym.dbKey, kCla.con_coll]
    exact congrArg _ e
  · intro a
    rw [x3, liveK_iff he.lower hdl]
    rfl
  · intro valid limit count
    unfold Store.searchClasses
    simp only [hsn]
    rw [if_pos hsc]
    unfold LevelDB.prefixStream
    rw [LevelDB.stream_deliver _ _ _ _ _ (Nat.lt_succ_self _)]
    have hx1 : s.db.db.filter (fun e => hasPrefix (entryKey cCla (if scope.getLastD 0 ≠ 92 then scope ++ [92] else scope)) e.1) =
        xs.map (fun a => ((kCla.con a).dbKey env, (kCla.con a).serialise)) := x1
    rw [hx1, deliver_collect _ _ xs _ (fun a ha => ?_)]
    · rfl
    · have hl := ((x3 a).mp ha).1
      obtain ⟨u, d, -, -, -, -, hsk⟩ := hl.ok (fun u d h => ⟨(inv.live u d h).2, hdl u d h⟩)
      exact kCla.reads a hsk.wf

/-! ## C09 -/

/-- C09, classes (keyword with or without a namespace). -/
theorem C09_classes (he : EnvOK env) (hok : HistOK env h) (hs : run env root h = some s)
    (keyword : Bytes) (valid : Class → Bool) (limit : Option Int) (count : Nat) :
    SoundSearch env (latest h) .cla (s.searchClasses env keyword valid limit count) := by
  by_cases hsc : (scopeAndName keyword).1 ≠ []
  · obtain ⟨xs, -, x2, x3⟩ := search_classes_scoped he hok hs keyword hsc
    refine ⟨_, _, x3 valid limit count, fun y hy => ?_⟩
    rcases collect_mem _ _ _ _ _ hy with hy | ⟨hy, -⟩
    · simp at hy
    · exact ⟨y, ((x2 y).mp hy).1, rfl⟩
  · obtain ⟨xs, -, x2, -, x4⟩ := search_kind sCla he hok hs (scopeAndName keyword).2
    refine sound_of (K := sCla) x2 (valid := valid) (limit := limit) (count := count) ?_
    unfold Store.searchClasses
    simp only
    rw [if_neg hsc]
    exact x4 true valid limit ⟨[], count⟩

/-- C09, interfaces. -/
theorem C09_interfaces (he : EnvOK env) (hok : HistOK env h) (hs : run env root h = some s)
    (keyword : Bytes) (valid : Interface → Bool) (limit : Option Int) (count : Nat) :
    SoundSearch env (latest h) .int (s.searchInterfaces env keyword valid limit count) := by
  obtain ⟨xs, -, x2, -, x4⟩ := search_kind sInt he hok hs (scopeAndName keyword).2
  exact sound_of (K := sInt) x2 (x4 _ _ _ _)

/-- C09, traits. -/
theorem C09_traits (he : EnvOK env) (hok : HistOK env h) (hs : run env root h = some s)
    (keyword : Bytes) (valid : Trait → Bool) (limit : Option Int) (count : Nat) :
    SoundSearch env (latest h) .tra (s.searchTraits env keyword valid limit count) := by
  obtain ⟨xs, -, x2, -, x4⟩ := search_kind sTra he hok hs (scopeAndName keyword).2
  exact sound_of (K := sTra) x2 (x4 _ _ _ _)

/-- C09, functions. -/
theorem C09_functions (he : EnvOK env) (hok : HistOK env h) (hs : run env root h = some s)
    (keyword : Bytes) (valid : Function → Bool) (limit : Option Int) (count : Nat) :
    SoundSearch env (latest h) .fn (s.searchFunctions env keyword valid limit count) := by
  obtain ⟨xs, -, x2, -, x4⟩ := search_kind sFn he hok hs (scopeAndName keyword).2
  exact sound_of (K := sFn) x2 (x4 _ _ _ _)

/-- C09, constants. -/
theorem C09_consts (he : EnvOK env) (hok : HistOK env h) (hs : run env root h = some s)
    (keyword : Bytes) (valid : Const → Bool) (limit : Option Int) (count : Nat) :
    SoundSearch env (latest h) .con (s.searchConsts env keyword valid limit count) := by
  obtain ⟨xs, -, x2, -, x4⟩ := search_kind sCon he hok hs keyword
  exact sound_of (K := sCon) x2 (x4 _ _ _ _)

/-- C09, defines. -/
theorem C09_defines (he : EnvOK env) (hok : HistOK env h) (hs : run env root h = some s)
    (keyword : Bytes) (valid : Const → Bool) (limit : Option Int) (count : Nat) :
    SoundSearch env (latest h) .def_ (s.searchDefines env keyword valid limit count) := by
  obtain ⟨xs, -, x2, -, x4⟩ := search_kind sDef he hok hs keyword
  exact sound_of (K := sDef) x2 (x4 _ _ _ _)

/-- C09, methods. -/
theorem C09_methods (he : EnvOK env) (hok : HistOK env h) (hs : run env root h = some s)
    (scope keyword : Bytes) (valid : Method → Bool) (limit : Option Int) (count : Nat) :
    SoundSearch env (latest h) .met (s.searchMethods env scope keyword valid limit count) := by
  obtain ⟨xs, -, x2, -, x4⟩ := search_kind sMet he hok hs keyword
  unfold Store.searchMethods
  split
  · exact ⟨_, _, rfl, by simp⟩
  · exact sound_of (K := sMet) x2 (x4 _ _ _ _)

/-- C09, class constants. -/
theorem C09_classConsts (he : EnvOK env) (hok : HistOK env h) (hs : run env root h = some s)
    (scope keyword : Bytes) (hsc : sep ∉ scope) (valid : ClassConst → Bool) (limit : Option Int) (count : Nat) :
    SoundSearch env (latest h) .claCon (s.searchClassConsts env scope keyword valid limit count) := by
  obtain ⟨xs, -, x2, -, x4⟩ := search_kind sClaCon he hok hs keyword
  unfold Store.searchClassConsts
  split
  · obtain ⟨ys, y1, -, y3⟩ := C07_all_classConsts he hok hs scope hsc
    cases hg : s.getAllClassConsts scope with
    | none => rw [hg] at y1; cases y1
    | some l =>
      rw [hg] at y1
      simp only [Option.map_some, Option.some.injEq] at y1
      refine ⟨_, _, rfl, fun y hy => ?_⟩
      have : Sym.claCon y ∈ ys.map fun a => (Sym.claCon a).stored := by
        rw [← y1]; exact List.mem_map.mpr ⟨y, hy, rfl⟩
      obtain ⟨a, ha, e⟩ := List.mem_map.mp this
      exact ⟨a, ((y3 a).mp ha).1, e⟩
  · exact sound_of (K := sClaCon) x2 (x4 _ _ _ _)

/-- C09, properties. -/
theorem C09_properties (he : EnvOK env) (hok : HistOK env h) (hs : run env root h = some s)
    (scope keyword : Bytes) (hsc : sep ∉ scope) (valid : Property → Bool) (limit : Option Int) (count : Nat) :
    SoundSearch env (latest h) .pro (s.searchProperties env scope keyword valid limit count) := by
  obtain ⟨xs, -, x2, -, x4⟩ := search_kind sPro he hok hs keyword
  unfold Store.searchProperties
  split
  · obtain ⟨ys, y1, -, y3⟩ := C07_all_properties he hok hs scope hsc
    cases hg : s.getAllProperties scope with
    | none => rw [hg] at y1; cases y1
    | some l =>
      rw [hg] at y1
      simp only [Option.map_some, Option.some.injEq] at y1
      refine ⟨_, _, rfl, fun y hy => ?_⟩
      have : Sym.pro y ∈ ys.map fun a => (Sym.pro a).stored := by
        rw [← y1]; exact List.mem_map.mpr ⟨y, hy, rfl⟩
      obtain ⟨a, ha, e⟩ := List.mem_map.mp this
      exact ⟨a, ((y3 a).mp ha).1, e⟩
  · exact sound_of (K := sPro) x2 (x4 _ _ _ _)

/-- The hypotheses are met by the demo history, and the searches have results there. -/
example : ∃ s, run Demo.env Demo.root Demo.hist = some s ∧
    ((s.searchFunctions Demo.env b!"F" (fun _ => true) none 0).map fun r => (r.1.results.length, r.2)) = some (1, true) ∧
    ((s.searchMethods Demo.env b!"\\N\\Foo" b!"set" (fun _ => true) none 0).map fun r => (r.1.results.length, r.2))
      = some (1, true) ∧
    -- the renamed method is not offered any more
    ((s.searchMethods Demo.env b!"\\N\\Foo" b!"get" (fun _ => true) none 0).map fun r => (r.1.results.length, r.2))
      = some (0, true) := by
  obtain ⟨s, h1, h2⟩ := Demo.observe (env := Demo.env) (root := Demo.root) (h := Demo.hist)
    (fun s => ((s.searchFunctions Demo.env b!"F" (fun _ => true) none 0).map fun r => (r.1.results.length, r.2),
      (s.searchMethods Demo.env b!"\\N\\Foo" b!"set" (fun _ => true) none 0).map fun r => (r.1.results.length, r.2),
      (s.searchMethods Demo.env b!"\\N\\Foo" b!"get" (fun _ => true) none 0).map fun r => (r.1.results.length, r.2)))
    (some (1, true), some (1, true), some (0, true)) (by decide +kernel)
  simp only [Prod.mk.injEq] at h2
  exact ⟨s, h1, h2.1, h2.2.1, h2.2.2⟩

/-- C09 is false for namespaces: they are offered although the only file that declared them was
deleted. -/
theorem C09_false_namespaces :
    ∃ (h : List HOp) (s : Store) (ns : Bytes) (b : Bool), HistOK Demo.env h ∧ run Demo.env Demo.root h = some s ∧
      s.searchNamespaces Demo.env b!"N" = some ([ns], b) ∧ ∀ u, latest h u = none := by
  obtain ⟨s, h1, h2⟩ := Demo.observe (env := Demo.env) (root := Demo.root) (h := [.index Demo.a1, .delete Demo.uA])
    (fun s => s.searchNamespaces Demo.env b!"N") (some ([b!"\\N"], true)) (by decide +kernel)
  refine ⟨_, s, _, _, ⟨?_, ?_, by simp [Keeps]⟩, h1, h2, ?_⟩
  · intro d hd
    have : docs [.index Demo.a1, .delete Demo.uA] = [Demo.a1] := rfl
    rw [this, List.mem_singleton] at hd
    rw [hd]; exact Demo.a1_ok
  · have : docs [.index Demo.a1, .delete Demo.uA] = [Demo.a1] := rfl
    intro d1 h1 d2 h2 _ _ _ _ _ _
    rw [this, List.mem_singleton] at h1 h2
    rw [h1, h2]
  · intro u
    simp only [latest, List.foldl_cons, List.foldl_nil, latestStep]
    by_cases hu : u = Demo.uA
    · simp [hu]
    · rw [if_neg hu]; exact if_neg hu

/-! ## C15 -/

/-- C15, functions. -/
theorem C15_functions (he : EnvOK env) (hok : HistOK env h) (hs : run env root h = some s)
    (keyword : Bytes) (valid : Function → Bool) :
    LimitedSearch fun limit => s.searchFunctions env keyword valid limit 0 := by
  obtain ⟨xs, -, -, -, x4⟩ := search_kind sFn he hok hs (scopeAndName keyword).2
  exact limited_of fun limit => x4 _ _ limit _

/-- C15, interfaces. -/
theorem C15_interfaces (he : EnvOK env) (hok : HistOK env h) (hs : run env root h = some s)
    (keyword : Bytes) (valid : Interface → Bool) :
    LimitedSearch fun limit => s.searchInterfaces env keyword valid limit 0 := by
  obtain ⟨xs, -, -, -, x4⟩ := search_kind sInt he hok hs (scopeAndName keyword).2
  exact limited_of fun limit => x4 _ _ limit _

/-- C15, traits. -/
theorem C15_traits (he : EnvOK env) (hok : HistOK env h) (hs : run env root h = some s)
    (keyword : Bytes) (valid : Trait → Bool) :
    LimitedSearch fun limit => s.searchTraits env keyword valid limit 0 := by
  obtain ⟨xs, -, -, -, x4⟩ := search_kind sTra he hok hs (scopeAndName keyword).2
  exact limited_of fun limit => x4 _ _ limit _

/-- C15, constants. -/
theorem C15_consts (he : EnvOK env) (hok : HistOK env h) (hs : run env root h = some s)
    (keyword : Bytes) (valid : Const → Bool) :
    LimitedSearch fun limit => s.searchConsts env keyword valid limit 0 := by
  obtain ⟨xs, -, -, -, x4⟩ := search_kind sCon he hok hs keyword
  exact limited_of fun limit => x4 _ _ limit _

/-- C15, defines. -/
theorem C15_defines (he : EnvOK env) (hok : HistOK env h) (hs : run env root h = some s)
    (keyword : Bytes) (valid : Const → Bool) :
    LimitedSearch fun limit => s.searchDefines env keyword valid limit 0 := by
  obtain ⟨xs, -, -, -, x4⟩ := search_kind sDef he hok hs keyword
  exact limited_of fun limit => x4 _ _ limit _

/-- C15, methods, for a non-empty keyword (an empty one returns nothing and says "incomplete"). -/
theorem C15_methods (he : EnvOK env) (hok : HistOK env h) (hs : run env root h = some s)
    (scope keyword : Bytes) (hk : keyword ≠ []) (valid : Method → Bool) :
    LimitedSearch fun limit => s.searchMethods env scope keyword valid limit 0 := by
  obtain ⟨xs, -, -, -, x4⟩ := search_kind sMet he hok hs keyword
  refine limited_of (valid := fun c => valid c && inScope scope c.scope.fqn) (xs := xs.map sMet.st) fun limit => ?_
  unfold Store.searchMethods
  rw [if_neg hk]
  exact x4 _ _ limit _

/-- C15, class constants. Missing: the empty keyword, for which the limit is ignored
(`C15_false_class_constants`). -/
theorem C15_classConsts_partial (he : EnvOK env) (hok : HistOK env h) (hs : run env root h = some s)
    (scope keyword : Bytes) (hk : keyword ≠ []) (valid : ClassConst → Bool) :
    LimitedSearch fun limit => s.searchClassConsts env scope keyword valid limit 0 := by
  obtain ⟨xs, -, -, -, x4⟩ := search_kind sClaCon he hok hs keyword
  refine limited_of (valid := fun c => valid c && inScope scope c.scope.fqn) (xs := xs.map sClaCon.st) fun limit => ?_
  unfold Store.searchClassConsts
  rw [if_neg hk]
  exact x4 _ _ limit _

/-- C15, properties. Missing: the empty keyword, as for class constants. -/
theorem C15_properties_partial (he : EnvOK env) (hok : HistOK env h) (hs : run env root h = some s)
    (scope keyword : Bytes) (hk : keyword ≠ []) (valid : Property → Bool) :
    LimitedSearch fun limit => s.searchProperties env scope keyword valid limit 0 := by
  obtain ⟨xs, -, -, -, x4⟩ := search_kind sPro he hok hs keyword
  refine limited_of (valid := fun c => valid c && inScope scope c.scope.fqn) (xs := xs.map sPro.st) fun limit => ?_
  unfold Store.searchProperties
  rw [if_neg hk]
  exact x4 _ _ limit _

/-- C15, classes. Missing: keywords with a namespace (`C15_false_scoped_classes`). -/
theorem C15_classes_partial (he : EnvOK env) (hok : HistOK env h) (hs : run env root h = some s)
    (keyword : Bytes) (hk : keyword ≠ []) (hb : 92 ∉ keyword) (valid : Class → Bool) :
    LimitedSearch fun limit => s.searchClasses env keyword valid limit 0 := by
  obtain ⟨xs, -, -, -, x4⟩ := search_kind sCla he hok hs keyword
  refine limited_of (valid := valid) (xs := xs.map sCla.st) fun limit => ?_
  unfold Store.searchClasses
  simp only [scope_plain hk hb, ne_eq, not_true, if_false]
  exact x4 _ _ limit _

/-- C15, classes, any keyword: at most `n` results, and they are among those of the unlimited search.
Missing: the completeness flag (`C15_false_scoped_classes`). -/
theorem C15_classes_bound_partial (he : EnvOK env) (hok : HistOK env h) (hs : run env root h = some s)
    (keyword : Bytes) (valid : Class → Bool) (n : Nat) (hn : 1 ≤ n) :
    ∃ all f b b', s.searchClasses env keyword valid none 0 = some (all, b) ∧
      s.searchClasses env keyword valid (some n) 0 = some (f, b') ∧ f.results.length ≤ n ∧
      f.results <+: all.results := by
  by_cases hsc : (scopeAndName keyword).1 ≠ []
  · obtain ⟨xs, -, -, x3⟩ := search_classes_scoped he hok hs keyword hsc
    refine ⟨_, _, _, _, x3 valid none 0, x3 valid (some n) 0, ?_⟩
    rw [collect_none, (collect_some _ n ⟨[], 0⟩ (by simp only; omega) xs).1]
    simp only [List.nil_append]
    refine ⟨?_, List.take_prefix _ _⟩
    rw [List.length_take]; simp; omega
  · obtain ⟨xs, -, -, -, x4⟩ := search_kind sCla he hok hs (scopeAndName keyword).2
    have hl : LimitedSearch fun limit => s.searchClasses env keyword valid limit 0 := by
      refine limited_of (valid := valid) (xs := xs.map sCla.st) fun limit => ?_
      unfold Store.searchClasses
      simp only
      rw [if_neg hsc]
      exact x4 _ _ limit _
    obtain ⟨all, h1, h2⟩ := hl
    obtain ⟨f, b, h3, h4, h5, -⟩ := h2 n hn
    exact ⟨all, f, true, b, h1, h3, h4, h5⟩

namespace Demo

/-- two classes in one namespace, two constants in one class -/
def c2 : Doc where
  uri := uA
  hash := b!"c"
  symbols := [cla uA b!"N\\Foo", cla uA b!"N\\Fox", claCon uA b!"N\\Foo" b!"X", claCon uA b!"N\\Foo" b!"Y",
    fn uA b!"f" 7, fn uA b!"fg" 8]
  namespaces := []
  refs := []

theorem c2_ok : DocOK Demo.env c2 where
  uri := uA_ok
  len := by decide
  syms := by
    have : ∀ x ∈ c2.symbols, x.WF := by
      simp [c2, cla, claCon, fn, Sym.WF, Class.WF, ClassConst.WF, Function.WF,
        Location.WF, loc, uA, Str, ty, TypeString.WF, Types.WF, ListWF, DeprecatedWF]
    intro x hx
    exact sym_ok (this x hx) ((by decide +kernel : ∀ x ∈ c2.symbols, ∀ n ∈ x.names, sep ∉ n) x hx)
      ((by decide +kernel : ∀ x ∈ c2.symbols, x.location.uri = uA) x hx)
      ((by decide +kernel : ∀ x ∈ c2.symbols, (x.key Demo.env).length < 1000) x hx)
  refsLen := by decide
  refs := by simp [c2]

theorem single_ok {d : Doc} (h : DocOK Demo.env d) : HistOK Demo.env [.index d] := ⟨by
  intro d' hd
  have : docs [.index d] = [d] := rfl
  rw [this, List.mem_singleton] at hd
  rw [hd]; exact h, by
  intro d1 h1 d2 h2 _ _ _ _ _ _
  have : docs [.index d] = [d] := rfl
  rw [this, List.mem_singleton] at h1 h2
  rw [h1, h2], by simp [Keeps]⟩

end Demo

/-- C15 is false for a limit of zero: one result is returned. -/
theorem C15_false_limit_zero :
    ∃ (h : List HOp) (s : Store) (f : Found Function) (b : Bool), HistOK Demo.env h ∧
      run Demo.env Demo.root h = some s ∧
      s.searchFunctions Demo.env b!"f" (fun _ => true) (some 0) 0 = some (f, b) ∧ f.results.length = 1 := by
  obtain ⟨s, h1, h2⟩ := Demo.observe (env := Demo.env) (root := Demo.root) (h := [.index Demo.c2])
    (fun s => (s.searchFunctions Demo.env b!"f" (fun _ => true) (some 0) 0).map fun r => r.1.results.length)
    (some 1) (by decide +kernel)
  cases hr : s.searchFunctions Demo.env b!"f" (fun _ => true) (some 0) 0 with
  | none => rw [hr] at h2; cases h2
  | some r =>
    rw [hr] at h2
    exact ⟨_, s, r.1, r.2, Demo.single_ok Demo.c2_ok, h1, hr, Option.some.inj h2⟩

/-- C15 is false for classes searched with a namespace: two classes match, one is returned because of
the limit, and the search claims to be complete. -/
theorem C15_false_scoped_classes :
    ∃ (h : List HOp) (s : Store) (f all : Found Class), HistOK Demo.env h ∧
      run Demo.env Demo.root h = some s ∧
      s.searchClasses Demo.env b!"\\N\\Fo" (fun _ => true) none 0 = some (all, true) ∧ all.results.length = 2 ∧
      s.searchClasses Demo.env b!"\\N\\Fo" (fun _ => true) (some 1) 0 = some (f, true) ∧ f.results.length = 1 := by
  obtain ⟨s, h1, h2⟩ := Demo.observe (env := Demo.env) (root := Demo.root) (h := [.index Demo.c2])
    (fun s => ((s.searchClasses Demo.env b!"\\N\\Fo" (fun _ => true) none 0).map fun r => (r.1.results.length, r.2),
      (s.searchClasses Demo.env b!"\\N\\Fo" (fun _ => true) (some 1) 0).map fun r => (r.1.results.length, r.2)))
    (some (2, true), some (1, true)) (by decide +kernel)
  simp only [Prod.mk.injEq] at h2
  cases hr : s.searchClasses Demo.env b!"\\N\\Fo" (fun _ => true) none 0 with
  | none => rw [hr] at h2; cases h2.1
  | some r =>
    cases hq : s.searchClasses Demo.env b!"\\N\\Fo" (fun _ => true) (some 1) 0 with
    | none => rw [hq] at h2; cases h2.2
    | some q =>
      rw [hr, hq] at h2
      simp only [Option.map_some, Option.some.injEq, Prod.mk.injEq] at h2
      obtain ⟨r1, r2⟩ := r
      obtain ⟨q1, q2⟩ := q
      simp only at h2
      obtain ⟨⟨a, rfl⟩, ⟨b, rfl⟩⟩ := h2
      exact ⟨_, s, q1, r1, Demo.single_ok Demo.c2_ok, h1, hr, a, hq, b⟩

/-- C15 is false for class constants with an empty keyword: the limit is ignored. -/
theorem C15_false_class_constants :
    ∃ (h : List HOp) (s : Store) (f : Found ClassConst) (b : Bool), HistOK Demo.env h ∧
      run Demo.env Demo.root h = some s ∧
      s.searchClassConsts Demo.env b!"\\N\\Foo" [] (fun _ => true) (some 1) 0 = some (f, b) ∧
      f.results.length = 2 := by
  obtain ⟨s, h1, h2⟩ := Demo.observe (env := Demo.env) (root := Demo.root) (h := [.index Demo.c2])
    (fun s => (s.searchClassConsts Demo.env b!"\\N\\Foo" [] (fun _ => true) (some 1) 0).map fun r => r.1.results.length)
    (some 2) (by decide +kernel)
  cases hr : s.searchClassConsts Demo.env b!"\\N\\Foo" [] (fun _ => true) (some 1) 0 with
  | none => rw [hr] at h2; cases h2
  | some r =>
    rw [hr] at h2
    exact ⟨_, s, r.1, r.2, Demo.single_ok Demo.c2_ok, h1, hr, Option.some.inj h2⟩

/-! ## C16 -/

/-- C16, functions, keyword without a namespace. -/
theorem C16_functions (he : EnvOK env) (hok : HistOK env h) (hso : SearchOK env h)
    (hs : run env root h = some s) (keyword : Bytes) (hk : keyword ≠ []) (hb : 92 ∉ keyword) (hn : sep ∉ keyword) :
    CompleteSearch env (latest h) .fn (s.searchFunctions env keyword (fun _ => true) none 0)
      (fun c => Matches env keyword c.name.original) := by
  obtain ⟨xs, x1, -, x3, x4⟩ := search_kind sFn he hok hs keyword
  refine complete_of (K := sFn) x1 (valid := fun _ => true && inScope [] []) (count := 0) ?_ ?_
  · unfold Store.searchFunctions
    simp only [scope_plain hk hb]
    exact x4 true _ none ⟨[], 0⟩
  · intro a ha hm
    exact ⟨(x3 hso hn).1 a ha hm, rfl⟩

/-- C16, functions of one namespace: `\ns\word`. -/
theorem C16_functions_in_namespace (he : EnvOK env) (hok : HistOK env h) (hso : SearchOK env h)
    (hs : run env root h = some s) (ns word : Bytes) (h0 : ns ≠ []) (hb : 92 ∉ word) (hn : sep ∉ word) :
    CompleteSearch env (latest h) .fn (s.searchFunctions env (92 :: ns ++ 92 :: word) (fun _ => true) none 0)
      (fun c => (∃ short, 92 ∉ short ∧ c.name.fqn = 92 :: ns ++ 92 :: short) ∧ Matches env word c.name.original) := by
  obtain ⟨xs, x1, -, x3, x4⟩ := search_kind sFn he hok hs word
  refine complete_of (K := sFn) x1 (valid := fun c => true && inScope (92 :: ns) (namespaceOf c.name.fqn))
    (count := 0) ?_ ?_
  · unfold Store.searchFunctions
    simp only [scope_ns hb h0]
    exact x4 true _ none ⟨[], 0⟩
  · rintro a ha ⟨⟨short, h1, h2⟩, hm⟩
    refine ⟨(x3 hso hn).1 a ha hm, ?_⟩
    have : (sFn.st a).name.fqn = 92 :: ns ++ 92 :: short := h2
    rw [this, namespace_ns h1 h0]
    simp [inScope]

/-- C16, interfaces, keyword without a namespace. -/
theorem C16_interfaces (he : EnvOK env) (hok : HistOK env h) (hso : SearchOK env h)
    (hs : run env root h = some s) (keyword : Bytes) (hk : keyword ≠ []) (hb : 92 ∉ keyword) (hn : sep ∉ keyword) :
    CompleteSearch env (latest h) .int (s.searchInterfaces env keyword (fun _ => true) none 0)
      (fun c => Matches env keyword c.name.original) := by
  obtain ⟨xs, x1, -, x3, x4⟩ := search_kind sInt he hok hs keyword
  refine complete_of (K := sInt) x1 (valid := fun _ => true && inScope [] []) (count := 0) ?_ ?_
  · unfold Store.searchInterfaces
    simp only [scope_plain hk hb]
    exact x4 false _ none ⟨[], 0⟩
  · intro a ha hm
    exact ⟨(x3 hso hn).1 a ha hm, rfl⟩

/-- C16, interfaces of one namespace. -/
theorem C16_interfaces_in_namespace (he : EnvOK env) (hok : HistOK env h) (hso : SearchOK env h)
    (hs : run env root h = some s) (ns word : Bytes) (h0 : ns ≠ []) (hb : 92 ∉ word) (hn : sep ∉ word) :
    CompleteSearch env (latest h) .int (s.searchInterfaces env (92 :: ns ++ 92 :: word) (fun _ => true) none 0)
      (fun c => (∃ short, 92 ∉ short ∧ c.name.fqn = 92 :: ns ++ 92 :: short) ∧ Matches env word c.name.original) := by
  obtain ⟨xs, x1, -, x3, x4⟩ := search_kind sInt he hok hs word
  refine complete_of (K := sInt) x1 (valid := fun c => true && inScope (92 :: ns) (namespaceOf c.name.fqn))
    (count := 0) ?_ ?_
  · unfold Store.searchInterfaces
    simp only [scope_ns hb h0]
    exact x4 false _ none ⟨[], 0⟩
  · rintro a ha ⟨⟨short, h1, h2⟩, hm⟩
    refine ⟨(x3 hso hn).1 a ha hm, ?_⟩
    have : (sInt.st a).name.fqn = 92 :: ns ++ 92 :: short := h2
    rw [this, namespace_ns h1 h0]
    simp [inScope]

/-- C16, traits, keyword without a namespace. -/
theorem C16_traits_partial (he : EnvOK env) (hok : HistOK env h) (hso : SearchOK env h)
    (hs : run env root h = some s) (keyword : Bytes) (hk : keyword ≠ []) (hb : 92 ∉ keyword) (hn : sep ∉ keyword) :
    CompleteSearch env (latest h) .tra (s.searchTraits env keyword (fun _ => true) none 0)
      (fun c => Matches env keyword c.name.original) := by
  obtain ⟨xs, x1, -, x3, x4⟩ := search_kind sTra he hok hs keyword
  refine complete_of (K := sTra) x1 (valid := fun _ => true && inScope [] []) (count := 0) ?_ ?_
  · unfold Store.searchTraits
    simp only [scope_plain hk hb]
    exact x4 false _ none ⟨[], 0⟩
  · intro a ha hm
    exact ⟨(x3 hso hn).1 a ha hm, rfl⟩

/-- C16, classes, keyword without a namespace. -/
theorem C16_classes (he : EnvOK env) (hok : HistOK env h) (hso : SearchOK env h)
    (hs : run env root h = some s) (keyword : Bytes) (hk : keyword ≠ []) (hb : 92 ∉ keyword) (hn : sep ∉ keyword) :
    CompleteSearch env (latest h) .cla (s.searchClasses env keyword (fun _ => true) none 0)
      (fun c => Matches env keyword c.name.original) := by
  obtain ⟨xs, x1, -, x3, x4⟩ := search_kind sCla he hok hs keyword
  refine complete_of (K := sCla) x1 (valid := fun _ => true) (count := 0) ?_ ?_
  · unfold Store.searchClasses
    simp only [scope_plain hk hb, ne_eq, not_true, if_false]
    exact x4 true _ none ⟨[], 0⟩
  · intro a ha hm
    exact ⟨(x3 hso hn).1 a ha hm, rfl⟩

/-- C16, constants. -/
theorem C16_consts (he : EnvOK env) (hok : HistOK env h) (hso : SearchOK env h)
    (hs : run env root h = some s) (keyword : Bytes) (hn : sep ∉ keyword) :
    CompleteSearch env (latest h) .con (s.searchConsts env keyword (fun _ => true) none 0)
      (fun c => Matches env keyword c.name.original) := by
  obtain ⟨xs, x1, -, x3, x4⟩ := search_kind sCon he hok hs keyword
  exact complete_of (K := sCon) x1 (valid := fun _ => true) (count := 0) (x4 false _ none ⟨[], 0⟩)
    fun a ha hm => ⟨(x3 hso hn).1 a ha hm, rfl⟩

/-- C16, defines. -/
theorem C16_defines (he : EnvOK env) (hok : HistOK env h) (hso : SearchOK env h)
    (hs : run env root h = some s) (keyword : Bytes) (hn : sep ∉ keyword) :
    CompleteSearch env (latest h) .def_ (s.searchDefines env keyword (fun _ => true) none 0)
      (fun c => Matches env keyword c.name.original) := by
  obtain ⟨xs, x1, -, x3, x4⟩ := search_kind sDef he hok hs keyword
  exact complete_of (K := sDef) x1 (valid := fun _ => true) (count := 0) (x4 false _ none ⟨[], 0⟩)
    fun a ha hm => ⟨(x3 hso hn).1 a ha hm, rfl⟩

/-- C16, methods of a class (or of any class, for an empty scope). Missing: the empty keyword, which
returns nothing (`C16_false_methods_empty_keyword`). -/
theorem C16_methods_partial (he : EnvOK env) (hok : HistOK env h) (hso : SearchOK env h)
    (hs : run env root h = some s) (scope keyword : Bytes) (hk : keyword ≠ []) (hn : sep ∉ keyword) :
    CompleteSearch env (latest h) .met (s.searchMethods env scope keyword (fun _ => true) none 0)
      (fun c => (scope = [] ∨ c.scope.fqn = scope) ∧ Matches env keyword c.name) := by
  obtain ⟨xs, x1, -, x3, x4⟩ := search_kind sMet he hok hs keyword
  refine complete_of (K := sMet) x1 (valid := fun c => true && inScope scope c.scope.fqn) (count := 0) ?_ ?_
  · unfold Store.searchMethods
    rw [if_neg hk]
    exact x4 true _ none ⟨[], 0⟩
  · rintro a ha ⟨h1, hm⟩
    refine ⟨(x3 hso hn).1 a ha hm, ?_⟩
    have : (sMet.st a).scope = a.scope := rfl
    rw [this]
    rcases h1 with rfl | h1
    · rfl
    · simp [inScope, h1]

/-- C16, class constants, non-empty keyword (an empty one lists all, C07). -/
theorem C16_classConsts (he : EnvOK env) (hok : HistOK env h) (hso : SearchOK env h)
    (hs : run env root h = some s) (scope keyword : Bytes) (hk : keyword ≠ []) (hn : sep ∉ keyword) :
    CompleteSearch env (latest h) .claCon (s.searchClassConsts env scope keyword (fun _ => true) none 0)
      (fun c => (scope = [] ∨ c.scope.fqn = scope) ∧ Matches env keyword c.name) := by
  obtain ⟨xs, x1, -, x3, x4⟩ := search_kind sClaCon he hok hs keyword
  refine complete_of (K := sClaCon) x1 (valid := fun c => true && inScope scope c.scope.fqn) (count := 0) ?_ ?_
  · unfold Store.searchClassConsts
    rw [if_neg hk]
    exact x4 false _ none ⟨[], 0⟩
  · rintro a ha ⟨h1, hm⟩
    refine ⟨(x3 hso hn).1 a ha hm, ?_⟩
    have : (sClaCon.st a).scope = a.scope := rfl
    rw [this]
    rcases h1 with rfl | h1
    · rfl
    · simp [inScope, h1]

/-- C16, properties (searched by their name without `$`), non-empty keyword. -/
theorem C16_properties (he : EnvOK env) (hok : HistOK env h) (hso : SearchOK env h)
    (hs : run env root h = some s) (scope keyword : Bytes) (hk : keyword ≠ []) (hn : sep ∉ keyword) :
    CompleteSearch env (latest h) .pro (s.searchProperties env scope keyword (fun _ => true) none 0)
      (fun c => (scope = [] ∨ c.scope.fqn = scope) ∧ c.name ≠ [] ∧ Matches env keyword (env.dropRune c.name)) := by
  obtain ⟨xs, x1, -, x3, x4⟩ := search_kind sPro he hok hs keyword
  refine complete_of (K := sPro) x1 (valid := fun c => true && inScope scope c.scope.fqn) (count := 0) ?_ ?_
  · unfold Store.searchProperties
    rw [if_neg hk]
    exact x4 false _ none ⟨[], 0⟩
  · rintro a ha ⟨h1, hne, hm⟩
    refine ⟨(x3 hso hn).1 a ha ?_, ?_⟩
    · have : sPro.iname env a = env.dropRune a.name := by
        show (if a.name.length = 0 then [] else env.dropRune a.name) = _
        rw [if_neg (by simpa using hne)]
      rw [this]; exact hm
    · have : (sPro.st a).scope = a.scope := rfl
      rw [this]
      rcases h1 with rfl | h1
      · rfl
      · simp [inScope, h1]

/-- The demo history meets `SearchOK`. -/
theorem Demo.search_ok : SearchOK Demo.env Demo.hist where
  tok := by intro n hn t ht; simp [Demo.env] at ht; rw [ht]; exact hn
  names := by
    intro d hd x hx n hn
    have : ∀ d ∈ docs Demo.hist, ∀ x ∈ d.symbols, ∀ n ∈ (x.searchName Demo.env).toList, sep ∉ n := by decide +kernel
    exact this d hd x hx n (by simp [hn])

/-- A live symbol that a keyword matches. -/
example : Matches Demo.env b!"SET" b!"setBar" := ⟨b!"SET", by simp [Demo.env], b!"setBar", by simp [Demo.env], by decide +kernel⟩

/-- C16 is false for methods with an empty keyword. -/
theorem C16_false_methods_empty_keyword :
    ∃ (h : List HOp) (s : Store) (x : Sym) (f : Found Method) (b : Bool), HistOK Demo.env h ∧
      run Demo.env Demo.root h = some s ∧ x.kind = 6 ∧ Finds Demo.env s x.stored ∧ Matches Demo.env [] b!"getBar" ∧
      s.searchMethods Demo.env [] [] (fun _ => true) none 0 = some (f, b) ∧ f.results = [] := by
  obtain ⟨s, h1, h2⟩ := Demo.observe (env := Demo.env) (root := Demo.root) (h := [.index Demo.a1])
    (fun s => s.getMethods Demo.env b!"\\N\\Foo" b!"getBar")
    (some [⟨Demo.loc Demo.uA 3, Location.zero, b!"getBar", [], [], [], Demo.ty b!"N\\Foo", 0, false, 0, none⟩])
    (by decide +kernel)
  refine ⟨_, s, Demo.met Demo.uA b!"N\\Foo" b!"getBar", _, _, Demo.single_ok Demo.a1_ok, h1, rfl, ⟨_, h2, by simp⟩,
    ⟨[], by simp [Demo.env], b!"getBar", by simp [Demo.env], by simp [Demo.env, asciiLower]⟩, rfl, rfl⟩

/-- C16 is false for classes searched with a namespace: the case of the keyword matters there. -/
theorem C16_false_scoped_class_case :
    ∃ (h : List HOp) (s : Store) (c : Class) (b b' : Bool) (n n' : Nat), HistOK Demo.env h ∧
      run Demo.env Demo.root h = some s ∧ Demo.env.lower b!"foo" = Demo.env.lower b!"Foo" ∧
      s.searchClasses Demo.env b!"\\N\\Foo" (fun _ => true) none 0 = some (⟨[c], n⟩, b) ∧
      s.searchClasses Demo.env b!"\\N\\foo" (fun _ => true) none 0 = some (⟨[], n'⟩, b') := by
  obtain ⟨s, h1, h2⟩ := Demo.observe (env := Demo.env) (root := Demo.root) (h := [.index Demo.c2])
    (fun s => ((s.searchClasses Demo.env b!"\\N\\Foo" (fun _ => true) none 0).map fun r => (r.1.results, r.1.count, r.2),
      (s.searchClasses Demo.env b!"\\N\\foo" (fun _ => true) none 0).map fun r => (r.1.results, r.1.count, r.2)))
    (some ([⟨Demo.loc Demo.uA 1, Demo.loc Demo.uA 1, 0, [], Demo.ty b!"N\\Foo", Demo.ty b!"Base", [], [], none⟩], 0, true),
      some ([], 0, true))
    (by decide +kernel)
  simp only [Prod.mk.injEq] at h2
  obtain ⟨h2, h3⟩ := h2
  obtain ⟨⟨⟨r, n⟩, b⟩, hr, e⟩ := Option.map_eq_some_iff.mp h2
  obtain ⟨⟨⟨r', n'⟩, b'⟩, hr', e'⟩ := Option.map_eq_some_iff.mp h3
  simp only [Prod.mk.injEq] at e e'
  obtain ⟨rfl, rfl, rfl⟩ := e
  obtain ⟨rfl, rfl, rfl⟩ := e'
  exact ⟨_, s, _, _, _, _, _, Demo.single_ok Demo.c2_ok, h1, by decide +kernel, hr, hr'⟩

/-! ## C51: only matches -/

theorem only_of {α} {K : SearchKind α} {name : α → Bytes} {kw : Bytes} {xs : List α} {P : α → Prop}
    (hm : ∀ a ∈ xs, ∃ d ∈ docs h, ∃ a', K.con a' ∈ d.symbols ∧ (K.con a').key env = (K.con a).key env ∧
          Matches env kw (name a')) {valid : α → Bool} {limit : Option Int} {count : Nat}
    {answer : Option (Found α × Bool)} (hP : ∀ y, valid y = true → P y)
    (e : answer = some (collect valid limit ⟨[], count⟩ (xs.map K.st))) :
    OnlyMatches env h K.con name kw P answer := by
  refine ⟨_, _, e, fun y hy => ?_⟩
  rcases collect_mem _ _ _ _ _ hy with hy | ⟨hy, hv⟩
  · simp at hy
  · obtain ⟨a, ha, rfl⟩ := List.mem_map.mp hy
    obtain ⟨d, hd, a', h1, h2, h3⟩ := hm a ha
    refine ⟨hP _ hv, d, hd, a', h1, ?_, h3⟩
    rw [h2, ← K.stored]
    cases K.con a <;> rfl

theorem namespace_inv {ns fqn : Bytes} (h : namespaceOf fqn = 92 :: ns) (h0 : ns ≠ []) :
    ∃ short, 92 ∉ short ∧ fqn = 92 :: ns ++ 92 :: short := by
  unfold namespaceOf at h
  cases hl : lastIndexB 92 fqn with
  | none => rw [hl] at h; simp only [List.cons.injEq, true_and] at h; exact absurd h.symm h0
  | some i =>
    rw [hl] at h
    obtain ⟨e, hb⟩ := lastIndexB_some hl
    cases i with
    | zero => simp only [List.cons.injEq, true_and] at h; exact absurd h.symm h0
    | succ i =>
      simp only at h
      rw [h] at e
      exact ⟨_, hb, e⟩

theorem prefix_backslash {q n y : Bytes} (hy : 92 ∉ y) (h : q ++ [92] <+: n ++ 92 :: y) : q ++ [92] <+: n ++ [92] := by
  have h' : q ++ [92] <+: (n ++ [92]) ++ y := by simpa using h
  rcases List.prefix_or_prefix_of_prefix h' (List.prefix_append (n ++ [92]) y) with h1 | ⟨r, hr⟩
  · exact h1
  · rcases List.eq_nil_or_concat r with rfl | ⟨r, c, rfl⟩
    · rw [← hr]; simp
    · rw [List.concat_eq_append] at hr
      rw [← hr, List.prefix_append_right_inj] at h'
      have h3 : (n ++ [92] ++ r) ++ [c] = q ++ [92] := by rw [← hr]; simp
      have hc := (List.append_inj' h3 rfl).2
      simp only [List.cons.injEq, and_true] at hc
      subst hc
      exact absurd (h'.subset (by simp)) hy

/-- C51, functions, keyword without a namespace. -/
theorem C51_functions_partial (he : EnvOK env) (hok : HistOK env h) (hso : SearchOK env h) (hs : run env root h = some s)
    (keyword : Bytes) (hk : keyword ≠ []) (hb : 92 ∉ keyword) (hn : sep ∉ keyword) (valid : Function → Bool)
    (limit : Option Int) (count : Nat) :
    OnlyMatches env h .fn (·.name.original) keyword (fun c => valid c = true)
      (s.searchFunctions env keyword valid limit count) := by
  obtain ⟨xs, -, -, x3, x4⟩ := search_kind sFn he hok hs keyword
  refine only_of (K := sFn) (x3 hso hn).2 (valid := fun c => valid c && inScope [] []) (limit := limit) (count := count) ?_ ?_
  · intro y hy; simpa [inScope] using hy
  · unfold Store.searchFunctions
    simp only [scope_plain hk hb, ne_eq, not_true, if_false]
    exact x4 true _ limit ⟨[], count⟩

/-- C51, functions of one namespace. -/
theorem C51_functions_in_namespace_partial (he : EnvOK env) (hok : HistOK env h) (hso : SearchOK env h)
    (hs : run env root h = some s) (ns word : Bytes) (h0 : ns ≠ []) (hb : 92 ∉ word) (hn : sep ∉ word)
    (valid : Function → Bool) (limit : Option Int) (count : Nat) :
    OnlyMatches env h .fn (·.name.original) word
      (fun c => valid c = true ∧ ∃ short, 92 ∉ short ∧ c.name.fqn = 92 :: ns ++ 92 :: short)
      (s.searchFunctions env (92 :: ns ++ 92 :: word) valid limit count) := by
  obtain ⟨xs, -, -, x3, x4⟩ := search_kind sFn he hok hs word
  refine only_of (K := sFn) (x3 hso hn).2 (valid := fun c => valid c && inScope (92 :: ns) (namespaceOf c.name.fqn))
    (limit := limit) (count := count) ?_ ?_
  · intro y hy
    simp only [Bool.and_eq_true, inScope, reduceCtorEq, if_false, beq_iff_eq] at hy
    exact ⟨hy.1, namespace_inv hy.2 h0⟩
  · unfold Store.searchFunctions
    simp only [scope_ns hb h0]
    exact x4 true _ limit ⟨[], count⟩

/-- C51, interfaces, keyword without a namespace. -/
theorem C51_interfaces_partial (he : EnvOK env) (hok : HistOK env h) (hso : SearchOK env h) (hs : run env root h = some s)
    (keyword : Bytes) (hk : keyword ≠ []) (hb : 92 ∉ keyword) (hn : sep ∉ keyword) (valid : Interface → Bool)
    (limit : Option Int) (count : Nat) :
    OnlyMatches env h .int (·.name.original) keyword (fun c => valid c = true)
      (s.searchInterfaces env keyword valid limit count) := by
  obtain ⟨xs, -, -, x3, x4⟩ := search_kind sInt he hok hs keyword
  refine only_of (K := sInt) (x3 hso hn).2 (valid := fun c => valid c && inScope [] []) (limit := limit) (count := count) ?_ ?_
  · intro y hy; simpa [inScope] using hy
  · unfold Store.searchInterfaces
    simp only [scope_plain hk hb, ne_eq, not_true, if_false]
    exact x4 false _ limit ⟨[], count⟩

/-- C51, interfaces of one namespace. -/
theorem C51_interfaces_in_namespace_partial (he : EnvOK env) (hok : HistOK env h) (hso : SearchOK env h)
    (hs : run env root h = some s) (ns word : Bytes) (h0 : ns ≠ []) (hb : 92 ∉ word) (hn : sep ∉ word)
    (valid : Interface → Bool) (limit : Option Int) (count : Nat) :
    OnlyMatches env h .int (·.name.original) word
      (fun c => valid c = true ∧ ∃ short, 92 ∉ short ∧ c.name.fqn = 92 :: ns ++ 92 :: short)
      (s.searchInterfaces env (92 :: ns ++ 92 :: word) valid limit count) := by
  obtain ⟨xs, -, -, x3, x4⟩ := search_kind sInt he hok hs word
  refine only_of (K := sInt) (x3 hso hn).2 (valid := fun c => valid c && inScope (92 :: ns) (namespaceOf c.name.fqn))
    (limit := limit) (count := count) ?_ ?_
  · intro y hy
    simp only [Bool.and_eq_true, inScope, reduceCtorEq, if_false, beq_iff_eq] at hy
    exact ⟨hy.1, namespace_inv hy.2 h0⟩
  · unfold Store.searchInterfaces
    simp only [scope_ns hb h0]
    exact x4 false _ limit ⟨[], count⟩

/-- C51, traits, keyword without a namespace. -/
theorem C51_traits_partial (he : EnvOK env) (hok : HistOK env h) (hso : SearchOK env h) (hs : run env root h = some s)
    (keyword : Bytes) (hk : keyword ≠ []) (hb : 92 ∉ keyword) (hn : sep ∉ keyword) (valid : Trait → Bool)
    (limit : Option Int) (count : Nat) :
    OnlyMatches env h .tra (·.name.original) keyword (fun c => valid c = true)
      (s.searchTraits env keyword valid limit count) := by
  obtain ⟨xs, -, -, x3, x4⟩ := search_kind sTra he hok hs keyword
  refine only_of (K := sTra) (x3 hso hn).2 (valid := fun c => valid c && inScope [] []) (limit := limit) (count := count) ?_ ?_
  · intro y hy; simpa [inScope] using hy
  · unfold Store.searchTraits
    simp only [scope_plain hk hb, ne_eq, not_true, if_false]
    exact x4 false _ limit ⟨[], count⟩

/-- C51, classes, keyword without a namespace. -/
theorem C51_classes_partial (he : EnvOK env) (hok : HistOK env h) (hso : SearchOK env h) (hs : run env root h = some s)
    (keyword : Bytes) (hk : keyword ≠ []) (hb : 92 ∉ keyword) (hn : sep ∉ keyword) (valid : Class → Bool)
    (limit : Option Int) (count : Nat) :
    OnlyMatches env h .cla (·.name.original) keyword (fun c => valid c = true)
      (s.searchClasses env keyword valid limit count) := by
  obtain ⟨xs, -, -, x3, x4⟩ := search_kind sCla he hok hs keyword
  refine only_of (K := sCla) (x3 hso hn).2 (valid := fun c => valid c) (limit := limit) (count := count) ?_ ?_
  · intro y hy; simpa [inScope] using hy
  · unfold Store.searchClasses
    simp only [scope_plain hk hb, ne_eq, not_true, if_false]
    exact x4 true _ limit ⟨[], count⟩

/-- C51, classes of one namespace: the results are in the namespace (or below it) and their name contains
the word. -/
theorem C51_classes_in_namespace (he : EnvOK env) (hok : HistOK env h) (hs : run env root h = some s)
    (hlow : ∀ n, 92 ∉ n → 92 ∉ env.lower n) (ns word : Bytes) (h0 : ns ≠ []) (hl : ns.getLast? ≠ some 92)
    (hn : sep ∉ ns) (hb : 92 ∉ word) (valid : Class → Bool) (limit : Option Int) (count : Nat) :
    ∃ f complete, s.searchClasses env (92 :: ns ++ 92 :: word) valid limit count = some (f, complete) ∧
      ∀ c ∈ f.results, valid c = true ∧ 92 :: ns ++ [92] <+: c.name.fqn ∧
        ∃ pre post, c.name.original = pre ++ word ++ post := by
  obtain ⟨xs, -, x2, x3⟩ := search_classes_scoped he hok hs (92 :: ns ++ 92 :: word) (by rw [scope_ns hb h0]; simp)
  refine ⟨_, _, x3 valid limit count, fun c hc => ?_⟩
  rcases collect_mem _ _ _ _ _ hc with hc | ⟨hc, hv⟩
  · simp at hc
  · rw [x2, scope_ns hb h0] at hc
    rw [scope_ns hb h0] at hv
    simp only [Bool.and_eq_true, Bool.or_eq_true, beq_iff_eq] at hv
    refine ⟨hv.1, ?_, ?_⟩
    · have hlast : (92 :: ns).getLastD 0 ≠ 92 := by
        intro e
        cases ns with
        | nil => exact h0 rfl
        | cons a l =>
          rw [List.getLastD_cons] at e
          apply hl
          rw [List.getLast?_eq_some_getLast (by simp)]
          rw [List.getLastD_eq_getLast?, List.getLast?_eq_some_getLast (by simp)] at e
          simpa using e
      have h2 := hc.2
      rw [if_pos hlast] at h2
      simp only [Sym.key] at h2
      have h3 := prefix_sep (by simp [sep] at hn ⊢; exact hn) h2
      rcases split_lastIndexB c.name.fqn with hf | ⟨n, x, e, hx⟩
      · rwa [classFQNLower_none env hf] at h3
      · rw [e, classFQNLower_split env hx] at h3
        have h4 := prefix_backslash (hlow x hx) h3
        rw [e]
        refine h4.trans ⟨x, by simp⟩
    · rcases hv.2 with e | hcon
      · exact ⟨[], c.name.original, by simp [e]⟩
      · unfold containsB at hcon
        obtain ⟨i, -, hi⟩ := List.any_eq_true.mp hcon
        obtain ⟨post, hp⟩ := isPrefixOf_iff.mp hi
        exact ⟨c.name.original.take i, post, by rw [List.append_assoc, hp, List.take_append_drop]⟩

/-- C51, consts. -/
theorem C51_consts_partial (he : EnvOK env) (hok : HistOK env h) (hso : SearchOK env h) (hs : run env root h = some s)
    (keyword : Bytes) (hn : sep ∉ keyword) (valid : Const → Bool) (limit : Option Int) (count : Nat) :
    OnlyMatches env h .con (·.name.original) keyword (fun c => valid c = true)
      (s.searchConsts env keyword valid limit count) := by
  obtain ⟨xs, -, -, x3, x4⟩ := search_kind sCon he hok hs keyword
  exact only_of (K := sCon) (x3 hso hn).2 (valid := valid) (fun _ h => h) (x4 false _ limit ⟨[], count⟩)

/-- C51, defines. -/
theorem C51_defines_partial (he : EnvOK env) (hok : HistOK env h) (hso : SearchOK env h) (hs : run env root h = some s)
    (keyword : Bytes) (hn : sep ∉ keyword) (valid : Const → Bool) (limit : Option Int) (count : Nat) :
    OnlyMatches env h .def_ (·.name.original) keyword (fun c => valid c = true)
      (s.searchDefines env keyword valid limit count) := by
  obtain ⟨xs, -, -, x3, x4⟩ := search_kind sDef he hok hs keyword
  exact only_of (K := sDef) (x3 hso hn).2 (valid := valid) (fun _ h => h) (x4 false _ limit ⟨[], count⟩)

/-- C51, methods of a class (of any class, for an empty scope). -/
theorem C51_methods_partial (he : EnvOK env) (hok : HistOK env h) (hso : SearchOK env h) (hs : run env root h = some s)
    (scope keyword : Bytes) (hk : keyword ≠ []) (hn : sep ∉ keyword) (valid : Method → Bool)
    (limit : Option Int) (count : Nat) :
    OnlyMatches env h .met (·.name) keyword (fun c => valid c = true ∧ (scope ≠ [] → c.scope.fqn = scope))
      (s.searchMethods env scope keyword valid limit count) := by
  obtain ⟨xs, -, -, x3, x4⟩ := search_kind sMet he hok hs keyword
  refine only_of (K := sMet) (x3 hso hn).2 (valid := fun c => valid c && inScope scope c.scope.fqn) (limit := limit)
    (count := count) ?_ ?_
  · intro y hy
    simp only [Bool.and_eq_true, inScope] at hy
    refine ⟨hy.1, fun hsc => ?_⟩
    have := hy.2
    rw [if_neg hsc] at this
    exact beq_iff_eq.mp this
  · unfold Store.searchMethods
    rw [if_neg hk]
    exact x4 true _ limit ⟨[], count⟩

/-- C51, classConsts of a class (of any class, for an empty scope). -/
theorem C51_classConsts_partial (he : EnvOK env) (hok : HistOK env h) (hso : SearchOK env h) (hs : run env root h = some s)
    (scope keyword : Bytes) (hk : keyword ≠ []) (hn : sep ∉ keyword) (valid : ClassConst → Bool)
    (limit : Option Int) (count : Nat) :
    OnlyMatches env h .claCon (·.name) keyword (fun c => valid c = true ∧ (scope ≠ [] → c.scope.fqn = scope))
      (s.searchClassConsts env scope keyword valid limit count) := by
  obtain ⟨xs, -, -, x3, x4⟩ := search_kind sClaCon he hok hs keyword
  refine only_of (K := sClaCon) (x3 hso hn).2 (valid := fun c => valid c && inScope scope c.scope.fqn) (limit := limit)
    (count := count) ?_ ?_
  · intro y hy
    simp only [Bool.and_eq_true, inScope] at hy
    refine ⟨hy.1, fun hsc => ?_⟩
    have := hy.2
    rw [if_neg hsc] at this
    exact beq_iff_eq.mp this
  · unfold Store.searchClassConsts
    rw [if_neg hk]
    exact x4 false _ limit ⟨[], count⟩

/-- C51, properties of a class (of any class, for an empty scope). -/
theorem C51_properties_partial (he : EnvOK env) (hok : HistOK env h) (hso : SearchOK env h) (hs : run env root h = some s)
    (scope keyword : Bytes) (hk : keyword ≠ []) (hn : sep ∉ keyword) (valid : Property → Bool)
    (limit : Option Int) (count : Nat) :
    OnlyMatches env h .pro (fun c => if c.name.length = 0 then [] else env.dropRune c.name) keyword (fun c => valid c = true ∧ (scope ≠ [] → c.scope.fqn = scope))
      (s.searchProperties env scope keyword valid limit count) := by
  obtain ⟨xs, -, -, x3, x4⟩ := search_kind sPro he hok hs keyword
  refine only_of (K := sPro) (x3 hso hn).2 (valid := fun c => valid c && inScope scope c.scope.fqn) (limit := limit)
    (count := count) ?_ ?_
  · intro y hy
    simp only [Bool.and_eq_true, inScope] at hy
    refine ⟨hy.1, fun hsc => ?_⟩
    have := hy.2
    rw [if_neg hsc] at this
    exact beq_iff_eq.mp this
  · unfold Store.searchProperties
    rw [if_neg hk]
    exact x4 false _ limit ⟨[], count⟩

end Verif.Store
