import Verif.Store.Lookup
import Verif.Store.Demo

/-!
Properties C07 (lookup by name), C08 (the index equals the latest version of every file), C10
(deleting a file).
-/

namespace Verif.Store

open Verif.Encoding Verif.Storage

variable {env : Env} {root : Bytes} {h : List HOp} {s : Store}

theorem exactly_of {α} (K : KindSpec α) (he : EnvOK env) (hok : HistOK env h)
    (hs : run env root h = some s) (p : Bytes) (P : α → Prop)
    (hP : ∀ a u, UriOK u → SymOK env u (K.con a) → (K.con a).Indexed → (p <+: (K.con a).key env ↔ P a)) :
    Exactly env (latest h) K.con (scanDecode s.db (entryKey K.coll p) K.read) P := by
  obtain ⟨xs, h1, h2, h3⟩ := scan_history K he hok hs p P hP
  refine ⟨xs, ?_, h2, h3⟩
  rw [h1]
  simp [K.stored]

theorem name_prefix {name n rest : Bytes} (h1 : sep ∉ name) (h2 : sep ∉ n) :
    name ++ [sep] <+: n ++ sep :: rest ↔ n = name := by
  have := sep_prefix (a := name) (a' := n) (b' := rest) (r := []) h1 h2
  rw [show name ++ sep :: ([] : Bytes) = name ++ [sep] from rfl] at this
  rw [this]
  simp [eq_comm]

theorem name_prefix2 {name n m q rest : Bytes} (h1 : sep ∉ name) (h2 : sep ∉ n) (h3 : sep ∉ m) (h4 : sep ∉ q) :
    name ++ sep :: (m ++ [sep]) <+: n ++ sep :: (q ++ sep :: rest) ↔ n = name ∧ q = m := by
  rw [sep_prefix h1 h2, name_prefix h3 h4, eq_comm]

/-! ## C07 -/

theorem lastIndexB_split {a ns x : Bytes} (h : a = ns ++ 92 :: x) (hx : (92 : UInt8) ∉ x) :
    lastIndexB 92 a = some ns.length := by
  subst h; exact lastIndexB_append hx

theorem split_lastIndexB (a : Bytes) : (92 : UInt8) ∉ a ∨ ∃ ns x, a = ns ++ 92 :: x ∧ (92 : UInt8) ∉ x := by
  induction a with
  | nil => simp
  | cons c a ih =>
    rcases ih with h | ⟨ns, x, h, hx⟩
    · by_cases hc : c = 92
      · exact .inr ⟨[], a, by simp [hc], h⟩
      · exact .inl (by simp [h, Ne.symm hc])
    · exact .inr ⟨c :: ns, x, by simp [h], hx⟩

theorem classFQNLower_split (env : Env) {ns x : Bytes} (hx : (92 : UInt8) ∉ x) :
    classFQNLower env (ns ++ 92 :: x) = ns ++ 92 :: env.lower x := by
  unfold classFQNLower
  rw [lastIndexB_split rfl hx]
  simp only [List.take_left]
  rw [show (ns ++ 92 :: x).drop (ns.length + 1) = x by simp]

theorem classFQNLower_none (env : Env) {a : Bytes} (h : (92 : UInt8) ∉ a) : classFQNLower env a = a := by
  unfold classFQNLower
  cases hl : lastIndexB 92 a with
  | none => rfl
  | some i =>
    obtain ⟨ns, x, e, -⟩ : ∃ ns x, a = ns ++ 92 :: x ∧ (92 : UInt8) ∉ x := by
      rcases split_lastIndexB a with h' | h'
      · have := lastIndexB_some hl
        exact absurd (by rw [this.1]; simp) h
      · exact h'
    exact absurd (by simp [e]) h

/-- Folded class names agree exactly if the names are the same up to the case of the last segment. -/
theorem classFQNLower_eq_iff (hl : env.LowerSlash) (a b : Bytes) :
    classFQNLower env a = classFQNLower env b ↔ SameClassName env a b := by
  constructor
  · intro e
    rcases split_lastIndexB a with ha | ⟨ns, x, rfl, hx⟩
    · rcases split_lastIndexB b with hb | ⟨ns', y, rfl, hy⟩
      · rw [classFQNLower_none env ha, classFQNLower_none env hb] at e; exact .inl e
      · rw [classFQNLower_none env ha, classFQNLower_split env hy] at e
        exact absurd (by rw [e]; simp) ha
    · rcases split_lastIndexB b with hb | ⟨ns', y, rfl, hy⟩
      · rw [classFQNLower_none env hb, classFQNLower_split env hx] at e
        exact absurd (by rw [← e]; simp) hb
      · rw [classFQNLower_split env hx, classFQNLower_split env hy] at e
        have h1 := lastIndexB_append (a := ns) (hl x hx)
        have h2 := lastIndexB_append (a := ns') (hl y hy)
        rw [e, h2] at h1
        obtain ⟨e1, e2⟩ := List.append_inj e (by simpa using h1.symm)
        exact .inr ⟨ns, x, y, rfl, by rw [e1], hx, hy, (List.cons.inj e2).2⟩
  · rintro (rfl | ⟨ns, x, y, rfl, rfl, hx, hy, e⟩)
    · rfl
    · rw [classFQNLower_split env hx, classFQNLower_split env hy, e]

/-- C07, classes: the classes with that name (the last segment compared ignoring case). -/
theorem C07_classes (he : EnvOK env) (hsl : env.LowerSlash) (hok : HistOK env h)
    (hs : run env root h = some s) (name : Bytes) (hn : sep ∉ name) :
    Exactly env (latest h) Sym.cla (s.queryClasses env name) fun c => SameClassName env c.name.fqn name :=
  exactly_of kCla he hok hs _ _ fun a u _ hsym _ => by
    rw [← classFQNLower_eq_iff hsl]
    exact name_prefix (classFQNLower_nosep he.lower hn)
      (classFQNLower_nosep he.lower (hsym.name a.name.fqn (by simp [kCla, Sym.names])))

/-- C07, interfaces. -/
theorem C07_interfaces (he : EnvOK env) (hok : HistOK env h) (hs : run env root h = some s)
    (name : Bytes) (hn : sep ∉ name) :
    Exactly env (latest h) Sym.int (s.getInterfaces name) fun c => c.name.fqn = name :=
  exactly_of kInt he hok hs _ _ fun a u _ hsym _ =>
    name_prefix hn (hsym.name _ (by simp [kInt, Sym.names]))

/-- C07, traits. -/
theorem C07_traits (he : EnvOK env) (hok : HistOK env h) (hs : run env root h = some s)
    (name : Bytes) (hn : sep ∉ name) :
    Exactly env (latest h) Sym.tra (s.getTraits name) fun c => c.name.fqn = name :=
  exactly_of kTra he hok hs _ _ fun a u _ hsym _ =>
    name_prefix hn (hsym.name _ (by simp [kTra, Sym.names]))

/-- C07, functions. -/
theorem C07_functions (he : EnvOK env) (hok : HistOK env h) (hs : run env root h = some s)
    (name : Bytes) (hn : sep ∉ name) :
    Exactly env (latest h) Sym.fn (s.getFunctions name) fun c => c.name.fqn = name :=
  exactly_of kFn he hok hs _ _ fun a u _ hsym _ =>
    name_prefix hn (hsym.name _ (by simp [kFn, Sym.names]))

/-- C07, constants. -/
theorem C07_consts (he : EnvOK env) (hok : HistOK env h) (hs : run env root h = some s)
    (name : Bytes) (hn : sep ∉ name) :
    Exactly env (latest h) Sym.con (s.getConsts name) fun c => c.name.fqn = name :=
  exactly_of kCon he hok hs _ _ fun a u _ hsym _ =>
    name_prefix hn (hsym.name _ (by simp [kCon, Sym.names]))

/-- C07, defines. -/
theorem C07_defines (he : EnvOK env) (hok : HistOK env h) (hs : run env root h = some s)
    (name : Bytes) (hn : sep ∉ name) :
    Exactly env (latest h) Sym.def_ (s.getDefines name) fun c => c.name.fqn = name :=
  exactly_of kDef he hok hs _ _ fun a u _ hsym _ =>
    name_prefix hn (hsym.name _ (by simp [kDef, Sym.names]))

/-- C07, global variables. -/
theorem C07_globalVariables (he : EnvOK env) (hok : HistOK env h) (hs : run env root h = some s)
    (name : Bytes) (hn : sep ∉ name) :
    Exactly env (latest h) Sym.gloVar (s.getGlobalVariables name) fun c => c.name = name :=
  exactly_of kGlo he hok hs _ _ fun a u _ hsym hi => by
    have : (kGlo.con a).key env = a.name ++ sep :: a.location.uri := by
      have hi : typesEmpty a.types = false := hi
      simp [kGlo, Sym.key, hi]
    rw [this]
    exact name_prefix hn (hsym.name _ (by simp [kGlo, Sym.names]))

/-- C07, methods of a class by name (ignoring case). -/
theorem C07_methods (he : EnvOK env) (hok : HistOK env h) (hs : run env root h = some s)
    (scope name : Bytes) (hc : sep ∉ scope) (hn : sep ∉ name) :
    Exactly env (latest h) Sym.met (s.getMethods env scope name)
      fun c => c.scope.fqn = scope ∧ env.lower c.name = env.lower name :=
  exactly_of kMet he hok hs _ _ fun a u _ hsym _ =>
    name_prefix2 hc (hsym.name _ (by simp [kMet, Sym.names])) (he.lower _ hn)
      (he.lower _ (hsym.name _ (by simp [kMet, Sym.names])))

/-- C07, all methods of a class. -/
theorem C07_all_methods (he : EnvOK env) (hok : HistOK env h) (hs : run env root h = some s)
    (scope : Bytes) (hc : sep ∉ scope) :
    Exactly env (latest h) Sym.met (s.getAllMethods scope) fun c => c.scope.fqn = scope :=
  exactly_of kMet he hok hs _ _ fun a u _ hsym _ =>
    name_prefix hc (hsym.name _ (by simp [kMet, Sym.names]))

/-- C07, properties of a class by name. -/
theorem C07_properties (he : EnvOK env) (hok : HistOK env h) (hs : run env root h = some s)
    (scope name : Bytes) (hc : sep ∉ scope) (hn : sep ∉ name) :
    Exactly env (latest h) Sym.pro (s.getProperties scope name)
      fun c => c.scope.fqn = scope ∧ c.name = name :=
  exactly_of kPro he hok hs _ _ fun a u _ hsym _ =>
    name_prefix2 hc (hsym.name _ (by simp [kPro, Sym.names])) hn
      (hsym.name _ (by simp [kPro, Sym.names]))

/-- C07, all properties of a class. -/
theorem C07_all_properties (he : EnvOK env) (hok : HistOK env h) (hs : run env root h = some s)
    (scope : Bytes) (hc : sep ∉ scope) :
    Exactly env (latest h) Sym.pro (s.getAllProperties scope) fun c => c.scope.fqn = scope :=
  exactly_of kPro he hok hs _ _ fun a u _ hsym _ =>
    name_prefix hc (hsym.name _ (by simp [kPro, Sym.names]))

/-- C07, all constants of a class. -/
theorem C07_all_classConsts (he : EnvOK env) (hok : HistOK env h) (hs : run env root h = some s)
    (scope : Bytes) (hc : sep ∉ scope) :
    Exactly env (latest h) Sym.claCon (s.getAllClassConsts scope) fun c => c.scope.fqn = scope :=
  exactly_of kClaCon he hok hs _ _ fun a u _ hsym _ =>
    name_prefix hc (hsym.name _ (by simp [kClaCon, Sym.names]))

/-- C07 for class constants by name, as far as it holds: the answer contains every constant of the
class with the name, and is exactly the constants whose name *starts with* it.
Missing: the answer should not contain constants with a longer name
(`C07_false_classConst_prefix`). -/
theorem C07_classConsts_partial (he : EnvOK env) (hok : HistOK env h) (hs : run env root h = some s)
    (scope name : Bytes) (hc : sep ∉ scope) :
    Exactly env (latest h) Sym.claCon (s.getClassConsts scope name)
      fun c => c.scope.fqn = scope ∧ name <+: c.name :=
  exactly_of kClaCon he hok hs _ _ fun a u _ hsym _ => by
    have := sep_prefix (a := scope) (a' := a.scope.fqn) (b' := a.name) (r := name) hc
      (hsym.name _ (by simp [kClaCon, Sym.names]))
    exact this.trans (by rw [eq_comm])

/-- The hypotheses of C07 and C08 are met by a history with re-indexing, deletion and restart; its
final state has answers. -/
example : EnvOK Demo.env ∧ Demo.env.LowerSlash ∧ HistOK Demo.env Demo.hist ∧
    (∃ s, run Demo.env Demo.root Demo.hist = some s) ∧
    Live Demo.env (latest Demo.hist) (Demo.met Demo.uA b!"N\\Foo" b!"setBar") :=
  ⟨Demo.env_ok, Demo.lower_slash, Demo.hist_ok, (run_inv Demo.env_ok Demo.hist_ok).imp fun _ h => h.1,
    Demo.uA, Demo.a2, [Demo.cla Demo.uA b!"N\\Foo"], [Demo.pro Demo.uA b!"N\\Foo" b!"$p"],
    by decide +kernel, rfl, trivial, by
      intro y hy
      simp at hy
      subst hy
      rintro ⟨-, hk, -⟩
      cases hk⟩

/-- Observing the state after a history by evaluation. -/
theorem Demo.observe {env : Env} {root : Bytes} {h : List HOp} {β} (f : Store → β) (b : β)
    (e : (run env root h).map f = some b) : ∃ s, run env root h = some s ∧ f s = b := by
  cases hr : run env root h with
  | none => rw [hr] at e; cases e
  | some s => rw [hr] at e; exact ⟨s, rfl, Option.some.inj e⟩

/-- One-symbol documents of the demo are well-formed. -/
theorem Demo.doc_ok {u : Bytes} (hu : UriOK u) (hl : Str u) (hash : Bytes) (xs : List Sym)
    (hlen : xs.length < 1000) (hx : ∀ x ∈ xs, SymOK Demo.env u x) : DocOK Demo.env ⟨u, hash, xs, [], []⟩ where
  uri := hu
  len := by simp only; omega
  syms := hx
  refsLen := by simp
  refs := by simp

theorem Demo.fn_ok {u n : Bytes} (l : GoInt) (hu : u.length < 100) (h : n.length < 100) (hn : sep ∉ n) :
    SymOK Demo.env u (Demo.fn u n l) := by
  refine Demo.sym_ok ?_ ?_ rfl ?_
  · have : n.length < 2 ^ 63 := by omega
    have : n.length + 1 < 2 ^ 63 := by omega
    have : u.length < 2 ^ 63 := by omega
    simp_all [Demo.fn, Sym.WF, Function.WF, Location.WF, Demo.loc, Str, Demo.ty,
      TypeString.WF, Types.WF, ListWF, DeprecatedWF]
  · have : sep ≠ 92 := by decide
    simp [Demo.fn, Sym.names, Demo.ty, hn, this]
  · simp [Demo.fn, Sym.key, Demo.ty, Demo.loc]; omega

theorem Demo.claCon_ok {u c n : Bytes} (hu : u.length < 100) (h : n.length < 100) (hn : sep ∉ n)
    (h' : c.length < 100) (hn' : sep ∉ c) : SymOK Demo.env u (Demo.claCon u c n) := by
  refine Demo.sym_ok ?_ ?_ rfl ?_
  · have : n.length < 2 ^ 63 := by omega
    have : c.length < 2 ^ 63 := by omega
    have : c.length + 1 < 2 ^ 63 := by omega
    have : u.length < 2 ^ 63 := by omega
    simp_all [Demo.claCon, Sym.WF, ClassConst.WF, Location.WF, Demo.loc, Str, Demo.ty,
      TypeString.WF, DeprecatedWF]
  · have : sep ≠ 92 := by decide
    simp [Demo.claCon, Sym.names, Demo.ty, hn, hn', this]
  · simp [Demo.claCon, Sym.key, Demo.ty]; omega

/-- C07 is false for class constants: looking `X` up also returns `XY`. -/
theorem C07_false_classConst_prefix :
    ∃ (h : List HOp) (s : Store) (c : ClassConst), HistOK Demo.env h ∧ run Demo.env Demo.root h = some s ∧
      (∃ l, s.getClassConsts b!"\\C" b!"X" = some l ∧ c ∈ l) ∧ c.name ≠ b!"X" := by
  let d : Doc := ⟨Demo.uA, b!"1", [Demo.claCon Demo.uA b!"C" b!"XY"], [], []⟩
  let c : ClassConst := ⟨Location.zero, Demo.loc Demo.uA 5, [], b!"XY", b!"1", Demo.ty b!"C", 0, none⟩
  have hd : DocOK Demo.env d := Demo.doc_ok Demo.uA_ok (by simp [Str, Demo.uA]) _ _ (by decide) (by
    intro x hx
    rw [List.mem_singleton.mp hx]
    exact Demo.claCon_ok (by decide) (by decide) (by decide) (by decide) (by decide))
  refine ⟨[.index d], _, c, ⟨by simpa [docs] using hd, ?_, by simp [Keeps]⟩, rfl, ⟨[c], ?_, by simp⟩, by decide⟩
  · intro d1 h1 d2 h2 _ _ _ _ _ _
    simp [docs] at h1 h2
    rw [h1, h2]
  · decide +kernel

/-! ## C08 -/

/-- C08: no history of indexing, deleting and restarting makes the store fail. -/
theorem C08_never_fails (he : EnvOK env) (hok : HistOK env h) (root : Bytes) :
    ∃ s, run env root h = some s := (run_inv he hok).imp fun _ h => h.1

theorem finds_of {α} {kind : α → Sym} {ans : Option (List α)} {L P} (hk : ∀ a b, kind a = kind b → a = b)
    (hE : Exactly env L kind ans P) (a : α)
    (hP : ∀ b, (kind b).stored = kind a → P b) :
    (∃ l, ans = some l ∧ a ∈ l) ↔ ∃ x, Live env L x ∧ x.stored = kind a ∧ ∃ b, x = kind b := by
  obtain ⟨xs, h1, -, h3⟩ := hE
  cases ans with
  | none => cases h1
  | some l =>
    simp only [Option.map_some, Option.some.injEq] at h1
    constructor
    · rintro ⟨l', e, ha⟩
      cases e
      have : kind a ∈ l.map kind := List.mem_map_of_mem ha
      rw [h1] at this
      obtain ⟨b, hb, e⟩ := List.mem_map.mp this
      exact ⟨kind b, ((h3 b).mp hb).1, e, b, rfl⟩
    · rintro ⟨x, hx, e, b, rfl⟩
      refine ⟨l, rfl, ?_⟩
      have hb := (h3 b).mpr ⟨hx, hP b e⟩
      have : (kind b).stored ∈ l.map kind := by rw [h1]; exact List.mem_map.mpr ⟨b, hb, rfl⟩
      rw [e] at this
      obtain ⟨a', ha', e'⟩ := List.mem_map.mp this
      rw [← hk _ _ e']
      exact ha'

/-- C08: after any history, looking a symbol up by its name finds it if and only if it is declared in
the current version of some file that has not been deleted (and is not superseded there by a later
declaration of the same name). `stored` is the form in which a symbol comes back (C02). -/
theorem C08_index_is_latest_partial (he : EnvOK env) (hsl : env.LowerSlash) (hok : HistOK env h)
    (hs : run env root h = some s) (y : Sym) (hy : y.NameOK) :
    Finds env s y ↔ ∃ x, Live env (latest h) x ∧ x.stored = y := by
  cases y with
  | cla c =>
    refine (finds_of (fun _ _ => Sym.cla.inj)
      (C07_classes he hsl hok hs c.name.fqn (hy _ (by simp [Sym.names]))) c ?_).trans ?_
    · intro b e; cases e; exact .inl rfl
    · refine exists_congr fun x => and_congr_right fun _ => ⟨fun h => h.1, fun e => ⟨e, ?_⟩⟩
      cases x <;> first | exact ⟨_, rfl⟩ | cases e
  | int c =>
    refine (finds_of (fun _ _ => Sym.int.inj)
      (C07_interfaces he hok hs c.name.fqn (hy _ (by simp [Sym.names]))) c ?_).trans ?_
    · intro b e; cases e; rfl
    · refine exists_congr fun x => and_congr_right fun _ => ⟨fun h => h.1, fun e => ⟨e, ?_⟩⟩
      cases x <;> first | exact ⟨_, rfl⟩ | cases e
  | tra c =>
    refine (finds_of (fun _ _ => Sym.tra.inj)
      (C07_traits he hok hs c.name.fqn (hy _ (by simp [Sym.names]))) c ?_).trans ?_
    · intro b e; cases e; rfl
    · refine exists_congr fun x => and_congr_right fun _ => ⟨fun h => h.1, fun e => ⟨e, ?_⟩⟩
      cases x <;> first | exact ⟨_, rfl⟩ | cases e
  | fn c =>
    refine (finds_of (fun _ _ => Sym.fn.inj)
      (C07_functions he hok hs c.name.fqn (hy _ (by simp [Sym.names]))) c ?_).trans ?_
    · intro b e; cases e; rfl
    · refine exists_congr fun x => and_congr_right fun _ => ⟨fun h => h.1, fun e => ⟨e, ?_⟩⟩
      cases x <;> first | exact ⟨_, rfl⟩ | cases e
  | con c =>
    refine (finds_of (fun _ _ => Sym.con.inj)
      (C07_consts he hok hs c.name.fqn (hy _ (by simp [Sym.names]))) c ?_).trans ?_
    · intro b e; cases e; rfl
    · refine exists_congr fun x => and_congr_right fun _ => ⟨fun h => h.1, fun e => ⟨e, ?_⟩⟩
      cases x <;> first | exact ⟨_, rfl⟩ | cases e
  | def_ c =>
    refine (finds_of (fun _ _ => Sym.def_.inj)
      (C07_defines he hok hs c.name.fqn (hy _ (by simp [Sym.names]))) c ?_).trans ?_
    · intro b e; cases e; rfl
    · refine exists_congr fun x => and_congr_right fun _ => ⟨fun h => h.1, fun e => ⟨e, ?_⟩⟩
      cases x <;> first | exact ⟨_, rfl⟩ | cases e
  | met c =>
    refine (finds_of (fun _ _ => Sym.met.inj)
      (C07_methods he hok hs c.scope.fqn c.name (hy _ (by simp [Sym.names]))
        (hy _ (by simp [Sym.names]))) c ?_).trans ?_
    · intro b e; cases e; exact ⟨rfl, rfl⟩
    · refine exists_congr fun x => and_congr_right fun _ => ⟨fun h => h.1, fun e => ⟨e, ?_⟩⟩
      cases x <;> first | exact ⟨_, rfl⟩ | cases e
  | claCon c =>
    refine (finds_of (fun _ _ => Sym.claCon.inj)
      (C07_classConsts_partial he hok hs c.scope.fqn c.name (hy _ (by simp [Sym.names]))) c ?_).trans ?_
    · intro b e; cases e; exact ⟨rfl, List.prefix_refl _⟩
    · refine exists_congr fun x => and_congr_right fun _ => ⟨fun h => h.1, fun e => ⟨e, ?_⟩⟩
      cases x <;> first | exact ⟨_, rfl⟩ | cases e
  | pro c =>
    refine (finds_of (fun _ _ => Sym.pro.inj)
      (C07_properties he hok hs c.scope.fqn c.name (hy _ (by simp [Sym.names]))
        (hy _ (by simp [Sym.names]))) c ?_).trans ?_
    · intro b e; cases e; exact ⟨rfl, rfl⟩
    · refine exists_congr fun x => and_congr_right fun _ => ⟨fun h => h.1, fun e => ⟨e, ?_⟩⟩
      cases x <;> first | exact ⟨_, rfl⟩ | cases e
  | gloVar c =>
    refine (finds_of (fun _ _ => Sym.gloVar.inj)
      (C07_globalVariables he hok hs c.name (hy _ (by simp [Sym.names]))) c ?_).trans ?_
    · intro b e; cases e; rfl
    · refine exists_congr fun x => and_congr_right fun _ => ⟨fun h => h.1, fun e => ⟨e, ?_⟩⟩
      cases x <;> first | exact ⟨_, rfl⟩ | cases e

/-- If no name is declared twice in one file, "live" is simply "declared in the current version". -/
theorem live_iff_declared {env : Env} {L : Bytes → Option Doc} {x : Sym}
    (hu : ∀ u d, L u = some d → d.symbols.Pairwise fun x y => ¬ SameDecl env x y) :
    Live env L x ↔ ∃ u d, L u = some d ∧ x ∈ d.symbols ∧ x.Indexed := by
  constructor
  · rintro ⟨u, d, pre, post, h1, h2, h3, -⟩
    exact ⟨u, d, h1, by simp [h2], h3⟩
  · rintro ⟨u, d, h1, h2, h3⟩
    obtain ⟨pre, post, e⟩ := List.append_of_mem h2
    refine ⟨u, d, pre, post, h1, e, h3, ?_⟩
    have := hu u d h1
    rw [e, List.pairwise_append] at this
    exact fun y hy hs => (List.pairwise_cons.mp this.2.1).1 y hy hs.2

/-- C08 in the plain wording, for histories in whose files no name is declared twice. -/
theorem C08_index_is_latest_plain_partial (he : EnvOK env) (hsl : env.LowerSlash) (hok : HistOK env h)
    (hs : run env root h = some s) (y : Sym) (hy : y.NameOK)
    (hu : ∀ u d, latest h u = some d → d.symbols.Pairwise fun x y => ¬ SameDecl env x y) :
    Finds env s y ↔ ∃ u d x, latest h u = some d ∧ x ∈ d.symbols ∧ x.Indexed ∧ x.stored = y := by
  rw [C08_index_is_latest_partial he hsl hok hs y hy]
  constructor
  · rintro ⟨x, hx, e⟩
    obtain ⟨u, d, h1, h2, h3⟩ := (live_iff_declared hu).mp hx
    exact ⟨u, d, x, h1, h2, h3, e⟩
  · rintro ⟨u, d, x, h1, h2, h3, e⟩
    exact ⟨x, (live_iff_declared hu).mpr ⟨u, d, h1, h2, h3⟩, e⟩

/-- C08 is false as stated: of two functions with the same name in one file (for example two
conditional declarations) only the last is found. -/
theorem C08_false_duplicate_name :
    ∃ (h : List HOp) (s : Store) (u : Bytes) (d : Doc) (x : Sym), HistOK Demo.env h ∧
      run Demo.env Demo.root h = some s ∧ latest h u = some d ∧ x ∈ d.symbols ∧ x.Indexed ∧
      ¬ Finds Demo.env s x.stored := by
  let d : Doc := ⟨Demo.uA, b!"1", [Demo.fn Demo.uA b!"f" 1, Demo.fn Demo.uA b!"f" 2], [], []⟩
  have hd : DocOK Demo.env d := Demo.doc_ok Demo.uA_ok (by simp [Str, Demo.uA]) _ _ (by decide) (by
    intro x hx
    rcases List.mem_cons.mp hx with rfl | hx
    · exact Demo.fn_ok _ (by decide) (by decide) (by decide)
    · rw [List.mem_singleton.mp hx]
      exact Demo.fn_ok _ (by decide) (by decide) (by decide))
  refine ⟨[.index d], _, Demo.uA, d, Demo.fn Demo.uA b!"f" 1, ⟨by simpa [docs] using hd, ?_, by simp [Keeps]⟩, rfl, rfl,
    by simp [d], trivial, ?_⟩
  · intro d1 h1 d2 h2 _ _ _ _ _ _
    simp [docs] at h1 h2
    rw [h1, h2]
  · rintro ⟨l, hl, hm⟩
    revert hm
    let f : Function := ⟨Demo.loc Demo.uA 2, Location.zero, Demo.ty b!"f", [], [Demo.ty b!"int"], b!"doc", none⟩
    have : some l = some [f] := hl.symm.trans (by decide +kernel)
    rw [Option.some.inj this]
    decide +kernel

/-- C08 is false as stated: two files declare the constant `C::X`, one of them is deleted, and the
constant is not found any more although the other file still declares it. (The key of a class
constant does not contain the file.) -/
theorem C08_false_class_constant_in_two_files :
    ∃ (h : List HOp) (s : Store) (u : Bytes) (d : Doc) (x : Sym), (∀ d ∈ docs h, DocOK Demo.env d) ∧
      run Demo.env Demo.root h = some s ∧ latest h u = some d ∧ x ∈ d.symbols ∧ x.Indexed ∧
      ¬ Finds Demo.env s x.stored := by
  let d (u : Bytes) : Doc := ⟨u, b!"1", [Demo.claCon u b!"C" b!"X"], [], []⟩
  have hd : ∀ u, UriOK u → u.length < 100 → DocOK Demo.env (d u) := fun u hu hl =>
    Demo.doc_ok hu (Demo.short (by omega)) _ _ (by simp) (by
      intro x hx
      rw [List.mem_singleton.mp hx]
      exact Demo.claCon_ok hl (by decide) (by decide) (by decide) (by decide))
  obtain ⟨s, h1, h2⟩ := Demo.observe (env := Demo.env) (root := Demo.root)
    (h := [.index (d Demo.uA), .index (d Demo.uB), .delete Demo.uB])
    (fun s => s.getClassConsts b!"\\C" b!"X") (some []) (by decide +kernel)
  refine ⟨_, s, Demo.uA, d Demo.uA, Demo.claCon Demo.uA b!"C" b!"X", ?_, h1, by decide +kernel,
    by simp [d], trivial, ?_⟩
  · intro x hx
    simp [docs] at hx
    rcases hx with rfl | rfl
    · exact hd _ Demo.uA_ok (by decide)
    · exact hd _ Demo.uB_ok (by decide)
  · rintro ⟨l, hl, hm⟩
    have : some l = some [] := hl.symm.trans h2
    rw [Option.some.inj this] at hm
    simp at hm

/-! ## C10 -/

theorem stored_location (x : Sym) : x.stored.location = x.location := by cases x <;> rfl

theorem HistOK.delete (hok : HistOK env h) (u : Bytes) : HistOK env (h ++ [.delete u]) := by
  have : Store.docs (h ++ [.delete u]) = Store.docs h := by simp [Store.docs]
  exact ⟨by rw [this]; exact hok.docs, by rw [this]; exact hok.consts,
    Keeps.append.mpr ⟨hok.crashes, trivial, trivial⟩⟩

theorem latest_delete (h : List HOp) (u v : Bytes) :
    latest (h ++ [.delete u]) v = if v = u then none else latest h v := by
  simp [latest, latestStep]

/-- C10: after a file is deleted, no lookup returns a symbol declared in it. -/
theorem C10_deleted_symbols_gone (he : EnvOK env) (hsl : env.LowerSlash) (hok : HistOK env h) (u : Bytes)
    (hs : run env root (h ++ [.delete u]) = some s) (y : Sym) (hy : y.NameOK) (hf : Finds env s y) :
    y.location.uri ≠ u := by
  have hok' := hok.delete u
  obtain ⟨x, ⟨v, d, pre, post, h1, h2, h3, h4⟩, rfl⟩ :=
    (C08_index_is_latest_partial he hsl hok' hs y hy).mp hf
  obtain ⟨s', -, inv, -, -⟩ := run_inv (root := root) he hok'
  rw [stored_location]
  have hd := inv.live v d h1
  have hx := ((hok'.docs d hd.1).syms x (by simp [h2])).uri
  rw [hx, hd.2]
  rw [latest_delete] at h1
  intro e
  simp [e] at h1

/-- C10: deleting a file changes no lookup of a symbol declared in another file. -/
theorem C10_other_files_unchanged (he : EnvOK env) (hsl : env.LowerSlash) (hok : HistOK env h) (u : Bytes)
    {s' : Store} (hs : run env root h = some s) (hs' : run env root (h ++ [.delete u]) = some s')
    (y : Sym) (hy : y.NameOK) (hu : y.location.uri ≠ u) : Finds env s' y ↔ Finds env s y := by
  have hok' := hok.delete u
  rw [C08_index_is_latest_partial he hsl hok' hs' y hy, C08_index_is_latest_partial he hsl hok hs y hy]
  refine exists_congr fun x => and_congr_left fun e => ?_
  subst e
  rw [stored_location] at hu
  constructor
  · rintro ⟨v, d, pre, post, h1, h2⟩
    rw [latest_delete] at h1
    split at h1
    · cases h1
    · exact ⟨v, d, pre, post, h1, h2⟩
  · rintro ⟨v, d, pre, post, h1, h2, h3⟩
    obtain ⟨_, -, inv, -, -⟩ := run_inv (root := root) he hok
    have hd := inv.live v d h1
    have hx := ((hok.docs d hd.1).syms x (by simp [h2])).uri
    refine ⟨v, d, pre, post, ?_, h2, h3⟩
    rw [latest_delete, if_neg, h1]
    rw [← hd.2, ← hx]
    exact hu

/-- A case of C10: deleting `b.php` from the demo history leaves the method of `a.php`. -/
example : HistOK Demo.env Demo.hist ∧ (Demo.met Demo.uA b!"N\\Foo" b!"setBar").NameOK ∧
    (Demo.met Demo.uA b!"N\\Foo" b!"setBar").location.uri ≠ Demo.uB :=
  ⟨Demo.hist_ok, by
    unfold Sym.NameOK; decide +kernel, by decide⟩

end Verif.Store
