import Verif.Whole.Symbols
import Verif.Store.PropsSearch
import Verif.Whole.Demo
import Mathlib.Data.List.Forall2
import Mathlib.Data.List.Induction
import Verif.Common.Tactics

/-! Property C128: searching all folders for a symbol. -/

namespace Verif.Whole

open Verif.Encoding Verif.Storage Verif.Store

/-! ### specification -/

/-- A folder of the workspace: the history of its index and the resulting state. -/
structure Folder (env : Env) where
  root : Bytes
  history : List HOp
  store : Store
  ok : HistOK env history
  ran : run env root history = some store

/-- How a declaration appears in the list: with its kind (traits as classes, everything constant as constant), its
place, and its full name; members have their own name and that of their class as container. -/
inductive Stands : Sym → SymbolInfo → Prop
  | cla (c : Class) : Stands (.cla c) ⟨.class_, c.name.fqn, c.location, []⟩
  | int (c : Interface) : Stands (.int c) ⟨.interface, c.name.fqn, c.location, []⟩
  | tra (c : Trait) : Stands (.tra c) ⟨.class_, c.name.fqn, c.location, []⟩
  | fn (c : Function) : Stands (.fn c) ⟨.function, c.name.fqn, c.location, []⟩
  | con (c : Const) : Stands (.con c) ⟨.constant, c.name.fqn, c.location, []⟩
  | def_ (c : Const) : Stands (.def_ c) ⟨.constant, c.name.fqn, c.location, []⟩
  | met (c : Method) : Stands (.met c) ⟨.method, c.name, c.location, c.scope.fqn⟩
  | claCon (c : ClassConst) : Stands (.claCon c) ⟨.constant, c.name, c.location, c.scope.fqn⟩
  | pro (c : Property) : Stands (.pro c) ⟨.property, c.name, c.location, c.scope.fqn⟩

/-- The word can be typed for a search: not empty, no backslash and no NUL byte. -/
def Plain (q : Bytes) : Prop := q ≠ [] ∧ 92 ∉ q ∧ sep ∉ q

/-- Some indexed version of some file declares the symbol under a name that the word matches. (Names are the same up
to the case the index ignores: the key is that of the symbol.) -/
def OnceMatched (env : Env) (h : List HOp) (q : Bytes) (x : Sym) : Prop :=
  ∃ d ∈ docs h, ∃ y ∈ d.symbols, y.kind = x.kind ∧ y.key env = x.key env ∧
    ∃ n, y.searchName env = some n ∧ Matches env q n

/-! ### one search -/

variable {env : Env}

theorem collect_count {α} (valid : α → Bool) (l : Int) (f : Found α) (xs : List α) :
    ∃ zs : List α, zs.Sublist (xs.filter valid) ∧
      (collect valid (some l) f xs).1 = ⟨f.results ++ zs, f.count + zs.length⟩ ∧
      ((f.count + zs.length : Nat) : Int) ≤ max l (f.count + 1) ∧
      (((f.count + zs.length : Nat) : Int) < l → zs = xs.filter valid) := by
  induction xs generalizing f with
  | nil => exact ⟨[], by simp, by simp [collect], by simp; omega, by simp⟩
  | cons x xs ih =>
    by_cases hv : valid x
    · have ha : addFound valid (some l) f x =
          (⟨f.results ++ [x], f.count + 1⟩, decide ((f.count + 1 : Int) ≥ l)) := by
        simp [addFound, limitReached, hv]
      simp only [collect, ha, List.filter_cons, hv, if_true]
      by_cases hl : (f.count + 1 : Int) ≥ l
      · rw [if_pos (by simpa using hl)]
        refine ⟨[x], ?_, rfl, ?_, ?_⟩
        · exact (List.nil_sublist _).cons_cons x
        · simp only [List.length_singleton]; omega
        · intro h; simp only [List.length_singleton] at h; omega
      · rw [if_neg (by simpa using hl)]
        obtain ⟨zs, z1, z2, z3, z4⟩ := ih ⟨f.results ++ [x], f.count + 1⟩
        simp only at z2 z3 z4
        refine ⟨x :: zs, z1.cons_cons x, ?_, ?_, ?_⟩
        · rw [z2]; simp; omega
        · simp only [List.length_cons]; omega
        · intro h
          simp only [List.length_cons] at h
          rw [z4 (by omega)]
    · have ha : addFound valid (some l) f x = (f, false) := by simp [addFound, hv]
      simp only [collect, ha, List.filter_cons, hv, if_false, Bool.false_eq_true]
      exact ih f

theorem inj_of_nodup {α β} {f : α → β} {xs : List α} (hn : (xs.map f).Nodup) {a b : α} (ha : a ∈ xs) (hb : b ∈ xs)
    (e : f a = f b) : a = b := by
  induction xs with
  | nil => simp at ha
  | cons x xs ih =>
    simp only [List.map_cons, List.nodup_cons, List.mem_map, not_exists, not_and] at hn
    rcases List.mem_cons.mp ha with ha | ha <;> rcases List.mem_cons.mp hb with hb | hb
    · rw [ha, hb]
    · exact absurd (by rw [← ha, e]) (hn.1 b hb)
    · exact absurd (by rw [← hb, e]) (hn.1 a ha)
    · exact ih hn.2 ha hb

/-- What one search adds to the list. -/
structure Adds (env : Env) (h : List HOp) (q : Bytes) {α} (con : α → Sym) (info : α → SymbolInfo)
    (search : Nat → Option (Found α × Bool)) : Prop where
  adds : ∀ l n, ∃ zs : List α, zs.Nodup ∧ (∀ a ∈ zs, Live env (latest h) (con a)) ∧
    (Plain q → SearchOK env h → ∀ a ∈ zs, OnceMatched env h q (con a)) ∧
    listed info search (some (l, n)) = some (l ++ zs.map info, n + zs.length) ∧
    n + zs.length ≤ max 1000 (n + 1) ∧
    (n + zs.length < 1000 → Plain q → SearchOK env h → ∀ a, Live env (latest h) (con a) →
      (∃ m, (con a).searchName env = some m ∧ Matches env q m) → a ∈ zs)

theorem adds_of {h : List HOp} {q : Bytes} {α} {con : α → Sym} {info : α → SymbolInfo}
    {search : Nat → Option (Found α × Bool)} (st : α → α) (xs : List α) (valid : α → Bool)
    (hsi : ∀ a b, st a = st b → (con a).key env = (con b).key env)
    (hi : ∀ a, info (st a) = info a)
    (hnd : (xs.map fun a => (con a).key env).Nodup)
    (hl : ∀ a ∈ xs, Live env (latest h) (con a))
    (ho : Plain q → SearchOK env h → ∀ a ∈ xs, OnceMatched env h q (con a))
    (hs : ∀ n, (search n).map (·.1) = some (collect valid baseLimit ⟨[], n⟩ (xs.map st)).1)
    (hc : Plain q → SearchOK env h → ∀ a, Live env (latest h) (con a) →
      (∃ m, (con a).searchName env = some m ∧ Matches env q m) → a ∈ xs ∧ valid (st a) = true) :
    Adds env h q con info search where
  adds := by
    intro l n
    obtain ⟨zs', z1, z2, z3, z4⟩ := collect_count valid 1000 ⟨[], n⟩ (xs.map st)
    have hnd' : xs.Nodup := (List.pairwise_map.mp hnd).imp fun hne e => hne (by rw [e])
    have hsub := z1
    rw [List.filter_map] at hsub
    obtain ⟨zs, hz, rfl⟩ := List.sublist_map_iff.mp hsub
    have hz' : zs.Sublist xs := hz.trans List.filter_sublist
    refine ⟨zs, hz'.nodup hnd', fun a ha => hl a (hz'.subset ha), fun h1 h2 a ha => ho h1 h2 a (hz'.subset ha), ?_, ?_, ?_⟩
    · have := hs n
      rw [show baseLimit = some 1000 from rfl, z2] at this
      obtain ⟨r, hr, e⟩ := Option.map_eq_some_iff.mp this
      simp only [listed, Option.bind_some, hr, Option.map_some, e, List.nil_append, List.length_map, List.map_map]
      rw [List.map_congr_left (f := info ∘ st) (g := info) fun a _ => hi a]
    · simp only [List.length_map] at z3; omega
    · intro hlt hp hso a ha hm
      simp only [List.length_map] at z4
      have := z4 (by omega)
      obtain ⟨m1, m2⟩ := hc hp hso a ha hm
      have hin : st a ∈ List.map st zs := by
        rw [this]
        exact List.mem_filter.mpr ⟨List.mem_map.mpr ⟨a, m1, rfl⟩, m2⟩
      obtain ⟨b, hb, e⟩ := List.mem_map.mp hin
      have hk := hsi _ _ e
      have : a = b := by
        exact inj_of_nodup hnd m1 (hz'.subset hb) hk.symm
      rw [this]; exact hb

/-- The searches over the index of words. -/
theorem adds_kind {α} (K : SearchKind α) {h : List HOp} {q kw root : Bytes} {s : Store} {info : α → SymbolInfo}
    {search : Nat → Option (Found α × Bool)} (he : EnvOK env) (hok : HistOK env h) (hrun : run env root h = some s)
    (skip : Bool) (valid : α → Bool) (hi : ∀ a, info (K.st a) = info a)
    (hkind : ∀ a b, (K.con a).kind = (K.con b).kind)
    (hkw : Plain q → kw = q) (hv : Plain q → ∀ a, valid a = true)
    (hs : ∀ n, search n = searchCompletions env s.comDB K.icoll kw (lookupFound s K.coll K.read skip valid baseLimit) ⟨[], n⟩) :
    Adds env h q K.con info search := by
  obtain ⟨xs, x1, x2, x3, x4⟩ := search_kind K he hok hrun kw
  have hname : ∀ a, (K.con a).searchName env = some (K.iname env a) := by
    intro a; rw [searchName_indexable, K.indexable]; rfl
  have hkey : ∀ a, (K.con (K.st a)).key env = (K.con a).key env := by
    intro a
    rw [← K.stored]
    cases K.con a <;> rfl
  refine adds_of K.st xs valid ?_ hi x1 x2 ?_ ?_ ?_
  · intro a b e; rw [← hkey a, e, hkey b]
  · intro hp hso a ha
    obtain ⟨d, hd, a', m1, m2, m3⟩ := (x3 hso (by rw [hkw hp]; exact hp.2.2)).2 a ha
    exact ⟨d, hd, K.con a', m1, hkind _ _, m2, _, hname a', hkw hp ▸ m3⟩
  · intro n; rw [hs, x4]; rfl
  · intro hp hso a ha ⟨m, e, hm⟩
    rw [hname] at e
    cases e
    exact ⟨(x3 hso (by rw [hkw hp]; exact hp.2.2)).1 a ha (by rw [hkw hp]; exact hm), hv hp _⟩

section
variable {h : List HOp} {q root : Bytes} {s : Store}

theorem plain_scope (hp : Plain q) : scopeAndName q = ([], q) := scope_plain hp.1 hp.2.1

theorem adds_classes (he : EnvOK env) (hok : HistOK env h) (hrun : run env root h = some s) :
    Adds env h q Sym.cla classInfo (s.searchClasses env q (fun _ => true) baseLimit) := by
  by_cases hsc : (scopeAndName q).1 ≠ []
  · obtain ⟨xs, x1, x2, x3⟩ := search_classes_scoped he hok hrun q hsc
    refine adds_of id xs (fun c => true && ((scopeAndName q).2 == [] || containsB c.name.original (scopeAndName q).2))
      (fun a b e => by rw [show a = b from e]) (fun _ => rfl) x1 (fun a ha => ((x2 a).mp ha).1) ?_ ?_ ?_
    · intro hp; exact absurd (by rw [plain_scope hp]) hsc
    · exact fun n => (by rw [x3, List.map_id]; rfl)
    · intro hp; exact absurd (by rw [plain_scope hp]) hsc
  · refine adds_kind sCla he hok hrun (kw := (scopeAndName q).2) true (fun _ => true) (fun _ => rfl) (fun _ _ => rfl)
      (fun hp => by rw [plain_scope hp]) (fun _ _ => rfl) fun n => ?_
    unfold Store.searchClasses
    simp only
    rw [if_neg hsc]
    rfl

theorem adds_consts (he : EnvOK env) (hok : HistOK env h) (hrun : run env root h = some s) :
    Adds env h q Sym.con constInfo (s.searchConsts env q (fun _ => true) baseLimit) :=
  adds_kind sCon he hok hrun (kw := q) false (fun _ => true) (fun _ => rfl) (fun _ _ => rfl)
    (fun _ => rfl) (fun _ _ => rfl) fun _ => rfl

theorem adds_defines (he : EnvOK env) (hok : HistOK env h) (hrun : run env root h = some s) :
    Adds env h q Sym.def_ defineInfo (s.searchDefines env q (fun _ => true) baseLimit) :=
  adds_kind sDef he hok hrun (kw := q) false (fun _ => true) (fun _ => rfl) (fun _ _ => rfl)
    (fun _ => rfl) (fun _ _ => rfl) fun _ => rfl

theorem adds_classConsts (he : EnvOK env) (hok : HistOK env h) (hrun : run env root h = some s) (hq : q ≠ []) :
    Adds env h q Sym.claCon classConstInfo (s.searchClassConsts env [] q (fun _ => true) baseLimit) :=
  adds_kind sClaCon he hok hrun (kw := q) false (fun c => true && inScope [] c.scope.fqn) (fun _ => rfl) (fun _ _ => rfl)
    (fun _ => rfl) (fun _ _ => rfl) fun n => (by unfold Store.searchClassConsts; rw [if_neg hq]; rfl)

theorem adds_methods (he : EnvOK env) (hok : HistOK env h) (hrun : run env root h = some s) (hq : q ≠ []) :
    Adds env h q Sym.met methodInfo (s.searchMethods env [] q (fun _ => true) baseLimit) :=
  adds_kind sMet he hok hrun (kw := q) true (fun c => true && inScope [] c.scope.fqn) (fun _ => rfl) (fun _ _ => rfl)
    (fun _ => rfl) (fun _ _ => rfl) fun n => (by unfold Store.searchMethods; rw [if_neg hq]; rfl)

theorem adds_properties (he : EnvOK env) (hok : HistOK env h) (hrun : run env root h = some s) (hq : q ≠ []) :
    Adds env h q Sym.pro propertyInfo (s.searchProperties env [] q (fun _ => true) baseLimit) :=
  adds_kind sPro he hok hrun (kw := q) false (fun c => true && inScope [] c.scope.fqn) (fun _ => rfl) (fun _ _ => rfl)
    (fun _ => rfl) (fun _ _ => rfl) fun n => (by unfold Store.searchProperties; rw [if_neg hq]; rfl)

theorem adds_functions (he : EnvOK env) (hok : HistOK env h) (hrun : run env root h = some s) :
    Adds env h q Sym.fn functionInfo (s.searchFunctions env q (fun _ => true) baseLimit) :=
  adds_kind sFn he hok hrun (kw := (scopeAndName q).2) true
    (fun c => true && inScope (scopeAndName q).1 (namespaceOf c.name.fqn)) (fun _ => rfl) (fun _ _ => rfl)
    (fun hp => by rw [plain_scope hp]) (fun hp _ => by rw [plain_scope hp]; rfl) fun _ => rfl

theorem adds_interfaces (he : EnvOK env) (hok : HistOK env h) (hrun : run env root h = some s) :
    Adds env h q Sym.int interfaceInfo (s.searchInterfaces env q (fun _ => true) baseLimit) :=
  adds_kind sInt he hok hrun (kw := (scopeAndName q).2) false
    (fun c => true && inScope (scopeAndName q).1 (namespaceOf c.name.fqn)) (fun _ => rfl) (fun _ _ => rfl)
    (fun hp => by rw [plain_scope hp]) (fun hp _ => by rw [plain_scope hp]; rfl) fun _ => rfl

theorem adds_traits (he : EnvOK env) (hok : HistOK env h) (hrun : run env root h = some s) :
    Adds env h q Sym.tra traitInfo (s.searchTraits env q (fun _ => true) baseLimit) :=
  adds_kind sTra he hok hrun (kw := (scopeAndName q).2) false
    (fun _ => true && inScope (scopeAndName q).1 []) (fun _ => rfl) (fun _ _ => rfl)
    (fun hp => by rw [plain_scope hp]) (fun hp _ => by rw [plain_scope hp]; rfl) fun _ => rfl

/-- A list without repetitions of symbols of some kinds. -/
structure Grouped (ks : List Nat) (xs : List Sym) : Prop where
  nodup : xs.Nodup
  kinds : ∀ x ∈ xs, x.kind ∈ ks

theorem Grouped.nil : Grouped [] [] := ⟨List.nodup_nil, by simp⟩

theorem Grouped.add {ks : List Nat} {xs ys : List Sym} {k : Nat} (g : Grouped ks xs) (hy : ys.Nodup)
    (hk : ∀ y ∈ ys, y.kind = k) (hn : k ∉ ks) : Grouped (k :: ks) (xs ++ ys) where
  nodup := List.nodup_append.mpr ⟨g.nodup, hy, fun a ha b hb e => hn (by rw [← hk b hb, ← e]; exact g.kinds a ha)⟩
  kinds := by
    intro x hx
    rcases List.mem_append.mp hx with h | h
    · simp [g.kinds x h]
    · simp [hk x h]

/-- What some of the searches of a folder add to the list. -/
def Part (env : Env) (h : List HOp) (q : Bytes) (ks : List Nat)
    (step : Option (List SymbolInfo × Nat) → Option (List SymbolInfo × Nat)) : Prop :=
  ∀ (l : List SymbolInfo) (n : Nat), ∃ (zs : List Sym) (es : List SymbolInfo), Grouped ks zs ∧
    (∀ x ∈ zs, Live env (latest h) x) ∧
    (Plain q → SearchOK env h → ∀ x ∈ zs, OnceMatched env h q x) ∧
    List.Forall₂ Stands zs es ∧
    step (some (l, n)) = some (l ++ es, n + zs.length) ∧
    (∀ k, n ≤ 999 + k → n + zs.length ≤ 999 + (k + ks.length)) ∧
    (n + zs.length < 1000 → Plain q → SearchOK env h → ∀ x, x.kind ∈ ks → Live env (latest h) x →
      (∃ m, x.searchName env = some m ∧ Matches env q m) → x ∈ zs)

theorem stands_append {xs ys : List Sym} {es fs : List SymbolInfo} (h1 : List.Forall₂ Stands xs es)
    (h2 : List.Forall₂ Stands ys fs) : List.Forall₂ Stands (xs ++ ys) (es ++ fs) := by
  induction h1 with
  | nil => exact h2
  | cons h _ ih => exact .cons h ih

theorem Adds.part {α} {con : α → Sym} {info : α → SymbolInfo} {search : Nat → Option (Found α × Bool)} {k : Nat}
    (ha : Adds env h q con info search) (hinj : ∀ a b, con a = con b → a = b) (hst : ∀ a, Stands (con a) (info a))
    (hk : ∀ a, (con a).kind = k) (hsurj : ∀ x : Sym, x.kind = k → ∃ a, x = con a) :
    Part env h q [k] (listed info search) := by
  intro l n
  obtain ⟨zs, a1, b1, c1, d1, e1, f1⟩ := ha.adds l n
  refine ⟨zs.map con, zs.map info, ⟨?_, ?_⟩, ?_, ?_, ?_, ?_, ?_, ?_⟩
  · exact List.pairwise_map.mpr (a1.imp fun hne e => hne (hinj _ _ e))
  · intro x hx
    obtain ⟨a, -, rfl⟩ := List.mem_map.mp hx
    simp [hk]
  · intro x hx
    obtain ⟨a, ha, rfl⟩ := List.mem_map.mp hx
    exact b1 a ha
  · intro hp hso x hx
    obtain ⟨a, ha, rfl⟩ := List.mem_map.mp hx
    exact c1 hp hso a ha
  · clear a1 b1 c1 d1 e1 f1
    induction zs with
    | nil => exact .nil
    | cons a zs ih => exact .cons (hst a) ih
  · rw [d1, List.length_map]
  · intro j hj
    simp only [List.length_map, List.length_singleton]
    omega
  · intro hlt hp hso x hx hl hm
    obtain ⟨a, rfl⟩ := hsurj x (by simpa using hx)
    exact List.mem_map.mpr ⟨a, f1 (by simpa using hlt) hp hso a hl hm, rfl⟩

theorem Part.add {ks : List Nat} {k : Nat} {f g : Option (List SymbolInfo × Nat) → Option (List SymbolInfo × Nat)}
    (hf : Part env h q ks f) (hg : Part env h q [k] g) (hk : k ∉ ks) : Part env h q (k :: ks) (fun a => g (f a)) := by
  intro l n
  obtain ⟨zs, es, a1, b1, c1, s1, d1, e1, f1⟩ := hf l n
  obtain ⟨zs', es', a2, b2, c2, s2, d2, e2, f2⟩ := hg (l ++ es) (n + zs.length)
  refine ⟨zs ++ zs', es ++ es', a1.add a2.nodup (fun y hy => by simpa using a2.kinds y hy) hk, ?_, ?_,
    stands_append s1 s2, ?_, ?_, ?_⟩
  · intro x hx
    rcases List.mem_append.mp hx with hx | hx
    exacts [b1 x hx, b2 x hx]
  · intro hp hso x hx
    rcases List.mem_append.mp hx with hx | hx
    exacts [c1 hp hso x hx, c2 hp hso x hx]
  · show g (f (some (l, n))) = _
    rw [d1, d2, List.length_append, List.append_assoc, Nat.add_assoc]
  · intro j hj
    have h1 := e1 j hj
    have h2 := e2 _ h1
    simp only [List.length_append, List.length_cons, List.length_nil] at h2 ⊢
    omega
  · intro hlt hp hso x hx hl hm
    rw [List.length_append] at hlt
    rcases List.mem_cons.mp hx with hx | hx
    · exact List.mem_append.mpr (.inr (f2 (by omega) hp hso x (by simp [hx]) hl hm))
    · exact List.mem_append.mpr (.inl (f1 (by omega) hp hso x hx hl hm))

/-- What one folder adds to the list. -/
theorem part_folder (he : EnvOK env) (hok : HistOK env h) (hrun : run env root h = some s) (hq : q ≠ []) :
    Part env h q [2, 8, 6, 1, 3, 5, 7, 4, 0] (fun acc => storeSymbols env q acc s) := by
  have p1 := (adds_classes (q := q) he hok hrun).part (k := 0) (fun _ _ => Sym.cla.inj) Stands.cla (fun _ => rfl)
    (fun x hx => by cases x <;> first | exact ⟨_, rfl⟩ | cases hx)
  have p2 := (adds_consts (q := q) he hok hrun).part (k := 4) (fun _ _ => Sym.con.inj) Stands.con (fun _ => rfl)
    (fun x hx => by cases x <;> first | exact ⟨_, rfl⟩ | cases hx)
  have p3 := (adds_classConsts (q := q) he hok hrun hq).part (k := 7) (fun _ _ => Sym.claCon.inj) Stands.claCon
    (fun _ => rfl) (fun x hx => by cases x <;> first | exact ⟨_, rfl⟩ | cases hx)
  have p4 := (adds_defines (q := q) he hok hrun).part (k := 5) (fun _ _ => Sym.def_.inj) Stands.def_ (fun _ => rfl)
    (fun x hx => by cases x <;> first | exact ⟨_, rfl⟩ | cases hx)
  have p5 := (adds_functions (q := q) he hok hrun).part (k := 3) (fun _ _ => Sym.fn.inj) Stands.fn (fun _ => rfl)
    (fun x hx => by cases x <;> first | exact ⟨_, rfl⟩ | cases hx)
  have p6 := (adds_interfaces (q := q) he hok hrun).part (k := 1) (fun _ _ => Sym.int.inj) Stands.int (fun _ => rfl)
    (fun x hx => by cases x <;> first | exact ⟨_, rfl⟩ | cases hx)
  have p7 := (adds_methods (q := q) he hok hrun hq).part (k := 6) (fun _ _ => Sym.met.inj) Stands.met (fun _ => rfl)
    (fun x hx => by cases x <;> first | exact ⟨_, rfl⟩ | cases hx)
  have p8 := (adds_properties (q := q) he hok hrun hq).part (k := 8) (fun _ _ => Sym.pro.inj) Stands.pro (fun _ => rfl)
    (fun x hx => by cases x <;> first | exact ⟨_, rfl⟩ | cases hx)
  have p9 := (adds_traits (q := q) he hok hrun).part (k := 2) (fun _ _ => Sym.tra.inj) Stands.tra (fun _ => rfl)
    (fun x hx => by cases x <;> first | exact ⟨_, rfl⟩ | cases hx)
  exact (((((((p1.add p2 (by decide)).add p3 (by decide)).add p4 (by decide)).add p5 (by decide)).add p6 (by decide)).add p7
    (by decide)).add p8 (by decide)).add p9 (by decide)

end

/-! ### all folders -/

/-- The declaration `p.2` of the folder with the number `p.1` is in the index now. -/
def InFolder (folders : List (Folder env)) (p : Nat × Sym) : Prop :=
  ∃ F, folders[p.1]? = some F ∧ Live env (latest F.history) p.2

theorem symbols_fold (he : EnvOK env) {q : Bytes} (hq : q ≠ []) (folders : List (Folder env)) :
    ∃ (zs : List (Nat × Sym)) (es : List SymbolInfo), zs.Nodup ∧
      (∀ p ∈ zs, ∃ F, folders[p.1]? = some F ∧ Live env (latest F.history) p.2 ∧
        (Plain q → SearchOK env F.history → OnceMatched env F.history q p.2)) ∧
      List.Forall₂ (fun p e => Stands p.2 e) zs es ∧
      (folders.map (·.store)).foldl (storeSymbols env q) (some ([], 0)) = some (es, zs.length) ∧
      zs.length ≤ 999 + 9 * folders.length ∧
      (zs.length < 1000 → Plain q → ∀ F ∈ folders, SearchOK env F.history → ∀ x, Live env (latest F.history) x →
        (∃ m, x.searchName env = some m ∧ Matches env q m) → ∃ i, (i, x) ∈ zs) := by
  induction folders using List.reverseRecOn with
  | nil => exact ⟨[], [], by simp, by simp, .nil, rfl, by simp, by simp⟩
  | append_singleton fs F ih =>
    obtain ⟨zs, es, a1, b1, s1, d1, e1, f1⟩ := ih
    obtain ⟨zs', es', a2, b2, c2, s2, d2, e2, f2⟩ := part_folder he F.ok F.ran hq es zs.length
    refine ⟨zs ++ zs'.map fun x => (fs.length, x), es ++ es', ?_, ?_, ?_, ?_, ?_, ?_⟩
    · refine List.nodup_append.mpr ⟨a1, List.pairwise_map.mpr (a2.nodup.imp fun hne e => hne (Prod.mk.inj e).2), ?_⟩
      intro p hp p' hp' e
      obtain ⟨G, hG, -⟩ := b1 p hp
      obtain ⟨x, -, rfl⟩ := List.mem_map.mp hp'
      rw [e] at hG
      simp at hG
    · intro p hp
      rcases List.mem_append.mp hp with hp | hp
      · obtain ⟨G, hG, r⟩ := b1 p hp
        refine ⟨G, ?_, r⟩
        rw [List.getElem?_append_left]
        · exact hG
        · obtain ⟨hlt, -⟩ := List.getElem?_eq_some_iff.mp hG
          exact hlt
      · obtain ⟨x, hx, rfl⟩ := List.mem_map.mp hp
        exact ⟨F, by simp, b2 x hx, fun h1 h2 => c2 h1 h2 x hx⟩
    · clear a1 b1 d1 e1 f1 a2 b2 c2 d2 e2 f2
      induction s1 with
      | nil =>
        induction s2 with
        | nil => exact .nil
        | cons h _ ih => exact .cons h ih
      | cons h _ ih => exact .cons h ih
    · rw [List.map_append, List.foldl_append, d1]
      simp only [List.map_cons, List.map_nil, List.foldl_cons, List.foldl_nil]
      rw [show storeSymbols env q (some (es, zs.length)) F.store = _ from d2, List.length_append, List.length_map]
    · have := e2 _ e1
      simp only [List.length_append, List.length_map, List.length_cons, List.length_nil] at this ⊢
      omega
    · intro hlt hp G hG hso x hx hm
      simp only [List.length_append, List.length_map] at hlt
      rcases List.mem_append.mp hG with hG | hG
      · obtain ⟨i, hi⟩ := f1 (by omega) hp G hG hso x hx hm
        exact ⟨i, List.mem_append.mpr (.inl hi)⟩
      · rw [List.mem_singleton] at hG
        subst hG
        refine ⟨fs.length, List.mem_append.mpr (.inr (List.mem_map.mpr ⟨x, f2 hlt hp hso x ?_ hx hm, rfl⟩))⟩
        obtain ⟨m, e, -⟩ := hm
        cases x <;> first | (simp [Sym.kind]; done) | (simp [Sym.searchName] at e; done)

/-! ### C128 -/

/-- C128: the request always has an answer; its entries are declarations of the last indexed versions of files, each
of a folder once, in the shape of `Stands`; there are at most 999 and nine for each folder. -/
theorem C128_listed (he : EnvOK env) (folders : List (Folder env)) (q : Bytes) :
    ∃ (l : List SymbolInfo) (zs : List (Nat × Sym)), workspaceSymbol env (folders.map (·.store)) q = some l ∧
      zs.Nodup ∧ List.Forall₂ (fun p e => InFolder folders p ∧ Stands p.2 e) zs l ∧
      l.length ≤ 999 + 9 * folders.length := by
  by_cases hq : q = []
  · exact ⟨[], [], by rw [workspaceSymbol, if_pos hq], List.nodup_nil, .nil, by simp⟩
  · obtain ⟨zs, es, a, b, s, d, e, -⟩ := symbols_fold he hq folders
    refine ⟨es, zs, by rw [workspaceSymbol, if_neg hq, d]; rfl, a, ?_, by rw [← s.length_eq]; exact e⟩
    have hin : ∀ p ∈ zs, InFolder folders p := fun p hp => by
      obtain ⟨F, h1, h2, -⟩ := b p hp
      exact ⟨F, h1, h2⟩
    clear a b d e
    induction s with
    | nil => exact .nil
    | cons h _ ih => exact .cons ⟨hin _ (by simp), h⟩ (ih fun p hp => hin p (by simp [hp]))

/-- C128: without a word to search for nothing is listed. -/
theorem C128_empty (folders : List (Folder env)) : workspaceSymbol env (folders.map (·.store)) [] = some [] := rfl

/-- C128: what is listed has been declared under a name that the word matches; and if fewer than 1000 entries are
listed, then every declaration of every folder whose name the word matches is listed. -/
theorem C128_matching (he : EnvOK env) (folders : List (Folder env)) (hso : ∀ F ∈ folders, SearchOK env F.history)
    (q : Bytes) (hp : Plain q) :
    ∃ l, workspaceSymbol env (folders.map (·.store)) q = some l ∧
      (∀ e ∈ l, ∃ F ∈ folders, ∃ x, Live env (latest F.history) x ∧ Stands x e ∧ OnceMatched env F.history q x) ∧
      (l.length < 1000 → ∀ F ∈ folders, ∀ x n e, Live env (latest F.history) x → x.searchName env = some n →
        Matches env q n → Stands x e → e ∈ l) := by
  obtain ⟨zs, es, a, b, s, d, -, f⟩ := symbols_fold he hp.1 folders
  refine ⟨es, by rw [workspaceSymbol, if_neg hp.1, d]; rfl, ?_, ?_⟩
  · intro e he'
    have : ∃ p ∈ zs, Stands p.2 e := by
      clear a b d f
      induction s with
      | nil => simp at he'
      | cons h _ ih =>
        rcases List.mem_cons.mp he' with rfl | he'
        · exact ⟨_, by simp, h⟩
        · obtain ⟨p, hp, r⟩ := ih he'
          exact ⟨p, by simp [hp], r⟩
    obtain ⟨p, hpm, hst⟩ := this
    obtain ⟨F, h1, h2, h3⟩ := b p hpm
    have hF := List.mem_of_getElem? h1
    exact ⟨F, hF, p.2, h2, hst, h3 hp (hso F hF)⟩
  · intro hlt F hF x n e hx hn hm hst
    obtain ⟨i, hi⟩ := f (by rw [s.length_eq]; exact hlt) hp F hF (hso F hF) x hx ⟨n, hn, hm⟩
    clear a b d f hlt
    induction s with
    | nil => simp at hi
    | cons h _ ih =>
      rcases List.mem_cons.mp hi with rfl | hi
      · have : ∀ e', Stands x e' → e' = e := by
          intro e' h'
          cases hst <;> cases h' <;> rfl
        rw [← this _ h]
        simp
      · exact List.mem_cons_of_mem _ (ih hi)

theorem Demo.search_ok : SearchOK Store.Demo.env Demo.hist where
  tok := by intro n hn t ht; simp [Store.Demo.env] at ht; rw [ht]; exact hn
  names := by
    intro d hd x hx n hn
    have : ∀ d ∈ docs Demo.hist, ∀ x ∈ d.symbols, ∀ n ∈ (x.searchName Store.Demo.env).toList, sep ∉ n := by decide +kernel
    exact this d hd x hx n (by simp [hn])

/-- Two folders. In the second a method `getBar` was declared once and is not any more; the word `G` finds the method
`go` of the first, which is the only declaration it matches. -/
example : ∃ F1 F2 : Folder Store.Demo.env, F1.history = Demo.hist ∧ F2.history = Store.Demo.hist ∧
    (∀ F ∈ [F1, F2], SearchOK Store.Demo.env F.history) ∧ Plain b!"G" ∧
    Live Store.Demo.env (latest F1.history) (.met Demo.go) ∧ Matches Store.Demo.env b!"G" b!"go" ∧
    workspaceSymbol Store.Demo.env [F1.store, F2.store] b!"G" =
      some [⟨.method, b!"go", Store.Demo.loc Store.Demo.uB 3, b!"\\Base"⟩] := by
  obtain ⟨s1, r1, -⟩ := Store.Demo.observe (env := Store.Demo.env) (root := Store.Demo.root) (h := Demo.hist)
    (fun _ => ()) () (by decide +kernel)
  obtain ⟨s2, r2, -⟩ := Store.Demo.observe (env := Store.Demo.env) (root := Store.Demo.root) (h := Store.Demo.hist)
    (fun _ => ()) () (by decide +kernel)
  refine ⟨⟨Store.Demo.root, Demo.hist, s1, Demo.hist_ok, r1⟩, ⟨Store.Demo.root, Store.Demo.hist, s2, Store.Demo.hist_ok, r2⟩,
    rfl, rfl, ?_, ⟨by decide, by decide, by decide⟩, Demo.go_live,
    ⟨b!"G", by simp [Store.Demo.env], b!"go", by simp [Store.Demo.env], by decide +kernel⟩, ?_⟩
  · intro F hF
    simp only [List.mem_cons, List.not_mem_nil, or_false] at hF
    rcases hF with rfl | rfl
    exacts [Demo.search_ok, Store.Demo.search_ok]
  · have h : ((run Store.Demo.env Store.Demo.root Demo.hist).bind fun a =>
        (run Store.Demo.env Store.Demo.root Store.Demo.hist).bind fun b =>
          workspaceSymbol Store.Demo.env [a, b] b!"G") =
        some [⟨.method, b!"go", Store.Demo.loc Store.Demo.uB 3, b!"\\Base"⟩] := by decide +kernel
    rw [r1, r2] at h
    exact h

end Verif.Whole
