import Verif.Store.Refs

/-! Prefix scans decode exactly the live symbols. -/

namespace Verif.Store

open Verif.Encoding Verif.Storage

/-- `Live`, in terms of keys. -/
def LiveK (env : Env) (L : Bytes → Option Doc) (x : Sym) : Prop :=
  ∃ u d, L u = some d ∧ lastBy (Sym.dbKey env) (x.dbKey env) (d.keyed env) = some x

theorem liveK_iff {env : Env} {L : Bytes → Option Doc} (hl : env.LowerOK)
    (hd : ∀ u d, L u = some d → DocOK env d) (x : Sym) : LiveK env L x ↔ Live env L x := by
  unfold LiveK Live
  have key : ∀ u d, L u = some d → (lastBy (Sym.dbKey env) (x.dbKey env) (d.keyed env) = some x ↔
      ∃ pre post, d.symbols = pre ++ x :: post ∧ x.Indexed ∧ ∀ y ∈ post, ¬ (y.Indexed ∧ SameDecl env x y)) := by
    intro u d h
    unfold Doc.keyed
    rw [lastBy_filter]
    have hp : ∀ y : Sym, (y.key env != []) = true ↔ y.Indexed := by
      intro y; rw [bne_iff_ne]; exact key_ne_nil env y
    simp only [hp, true_and]
    have ok := hd u d h
    constructor
    · rintro ⟨pre, post, h1, h2, h3⟩
      refine ⟨pre, post, h1, h2, fun y hy ⟨iy, hs⟩ => h3 y hy ⟨iy, ?_⟩⟩
      exact ((dbKey_inj env hl (ok.syms x (by simp [h1])) (ok.syms y (by simp [h1, hy])) ok.uri ok.uri
        h2 iy).mpr ⟨hs, fun _ => rfl⟩).symm
    · rintro ⟨pre, post, h1, h2, h3⟩
      refine ⟨pre, post, h1, h2, fun y hy ⟨iy, hs⟩ => h3 y hy ⟨iy, ?_⟩⟩
      exact ((dbKey_inj env hl (ok.syms x (by simp [h1])) (ok.syms y (by simp [h1, hy])) ok.uri ok.uri
        h2 iy).mp hs.symm).1
  constructor
  · rintro ⟨u, d, h1, h2⟩
    obtain ⟨pre, post, h3, h4, h5⟩ := (key u d h1).mp h2
    exact ⟨u, d, pre, post, h1, h3, h4, h5⟩
  · rintro ⟨u, d, pre, post, h1, h3, h4, h5⟩
    exact ⟨u, d, h1, (key u d h1).mpr ⟨pre, post, h3, h4, h5⟩⟩

theorem LiveK.ok {env : Env} {L : Bytes → Option Doc} {x : Sym}
    (hd : ∀ u d, L u = some d → d.uri = u ∧ DocOK env d)
    (h : LiveK env L x) : ∃ u d, L u = some d ∧ d.uri = u ∧ x ∈ d.symbols ∧ UriOK u ∧ SymOK env u x := by
  obtain ⟨u, d, h1, h2⟩ := h
  obtain ⟨h3, h4⟩ := hd u d h1
  have hm := (mem_keyed.mp (lastBy_mem h2).1).1
  subst h3
  exact ⟨d.uri, d, h1, rfl, hm, h4.uri, h4.syms x hm⟩

/-- The main store holds exactly the live symbols. -/
theorem get_live {env : Env} {D L} {s : Store} (inv : Inv env D L s) (hD : Disjoint env D) {c r v : Bytes}
    (hc : c ∈ symColls) : s.db.get (entryKey c r) = some v ↔
      ∃ x : Sym, LiveK env L x ∧ x.dbKey env = entryKey c r ∧ v = x.serialise := by
  rw [inv.syms c hc]
  constructor
  · rintro ⟨u, d, x, h1, h2, h3⟩
    obtain ⟨-, h5⟩ := lastBy_mem h2
    exact ⟨x, ⟨u, d, h1, by rw [h5]; exact h2⟩, h5, h3⟩
  · rintro ⟨x, ⟨u, d, h1, h2⟩, h3, h4⟩
    exact ⟨u, d, x, h1, by rw [← h3]; exact h2, h4⟩

theorem liveK_inj {env : Env} {D L} {s : Store} (inv : Inv env D L s) (hD : Disjoint env D) {x y : Sym}
    (hx : LiveK env L x) (hy : LiveK env L y) (h : x.dbKey env = y.dbKey env) : x = y := by
  obtain ⟨u, d, h1, h2⟩ := hx
  obtain ⟨u', d', h1', h2'⟩ := hy
  obtain ⟨m, e⟩ := inv.live u d h1
  obtain ⟨m', e'⟩ := inv.live u' d' h1'
  have := hD d m d' m' x (lastBy_mem h2).1 y (lastBy_mem h2').1 h
  have hu : u = u' := by rw [← e, ← e', this]
  subst hu
  rw [h1] at h1'
  cases h1'
  rw [h] at h2
  rw [h2] at h2'
  exact Option.some.inj h2'

/-- One of the ten kinds of symbols. -/
structure KindSpec (α : Type) where
  con : α → Sym
  coll : Bytes
  read : Dec α
  st : α → α
  mem : coll ∈ symColls
  con_coll : ∀ a, (con a).coll = coll
  con_surj : ∀ x : Sym, x.coll = coll → ∃ a, x = con a
  con_inj : ∀ a b, con a = con b → a = b
  reads : ∀ a, (con a).WF → ∃ rest, read (con a).serialise = some (st a, rest)
  stored : ∀ a, (con a).stored = con (st a)

theorem scan_foldl {α} (read : Dec α) (xs : List α) (f : α → Bytes × Bytes) (st : α → α)
    (h : ∀ a ∈ xs, ∃ rest, read (f a).2 = some (st a, rest)) (acc : List α) :
    (xs.map f).foldl (scanStep read) (some acc) = some (acc ++ xs.map st) := by
  induction xs generalizing acc with
  | nil => simp
  | cons a xs ih =>
    obtain ⟨rest, hr⟩ := h a (by simp)
    rw [List.map_cons, List.foldl_cons]
    have : scanStep read (some acc) (f a) = some (acc ++ [st a]) := by simp [scanStep, hr]
    rw [this, ih fun a ha => h a (by simp [ha])]
    simp

/-- A scan of the keys of one kind that start with `p`. -/
theorem entries_live {α} (K : KindSpec α) {env : Env} {D L} {s : Store} (inv : Inv env D L s)
    (hD : Disjoint env D) (p : Bytes) :
    ∃ xs : List α,
      s.db.db.filter (fun e => hasPrefix (entryKey K.coll p) e.1)
        = xs.map (fun a => ((K.con a).dbKey env, (K.con a).serialise)) ∧
      (xs.map fun a => (K.con a).dbKey env).Nodup ∧
      ∀ a, a ∈ xs ↔ LiveK env L (K.con a) ∧ p <+: (K.con a).key env := by
  have hn := symColls_nosep _ K.mem
  have hes : ∀ e ∈ s.db.db.filter (fun e => hasPrefix (entryKey K.coll p) e.1),
      ∃ a, e = ((K.con a).dbKey env, (K.con a).serialise) ∧ LiveK env L (K.con a) ∧ p <+: (K.con a).key env := by
    rintro ⟨k, v⟩ he
    obtain ⟨hm, hp⟩ := List.mem_filter.mp he
    rw [hasPrefix_iff] at hp
    obtain ⟨t, rfl⟩ := hp
    have hk : entryKey K.coll p ++ t = entryKey K.coll (p ++ t) := by simp [entryKey]
    have hg := (mem_iff_get inv.sorted _ _).mp hm
    simp only [hk] at hg ⊢
    obtain ⟨x, h1, h2, h3⟩ := (get_live inv hD K.mem).mp hg
    have h4 := (entryKey_inj (coll_nosep x) hn).mp h2
    obtain ⟨a, rfl⟩ := K.con_surj x h4.1
    exact ⟨a, by rw [h2, h3], h1, ⟨t, h4.2.symm⟩⟩
  have hsort : Sorted (s.db.db.filter (fun e => hasPrefix (entryKey K.coll p) e.1)) :=
    filter_sorted inv.sorted
  have choose : ∀ es : Entries, (∀ e ∈ es, ∃ a, e = ((K.con a).dbKey env, (K.con a).serialise) ∧
      LiveK env L (K.con a) ∧ p <+: (K.con a).key env) →
      ∃ xs : List α, es = xs.map (fun a => ((K.con a).dbKey env, (K.con a).serialise)) ∧
        ∀ a ∈ xs, LiveK env L (K.con a) ∧ p <+: (K.con a).key env := by
    intro es
    induction es with
    | nil => intro _; exact ⟨[], rfl, by simp⟩
    | cons e es ih =>
      intro h
      obtain ⟨a, h1, h2⟩ := h e (by simp)
      obtain ⟨xs, h3, h4⟩ := ih fun e he => h e (by simp [he])
      exact ⟨a :: xs, by simp [h1, h3], by simpa using ⟨h2, h4⟩⟩
  obtain ⟨xs, h1, h2⟩ := choose _ hes
  refine ⟨xs, h1, ?_, ?_⟩
  · rw [h1] at hsort
    have : (xs.map fun a => (K.con a).dbKey env) =
        (xs.map (fun a => ((K.con a).dbKey env, (K.con a).serialise))).map (·.1) := by simp
    rw [this]
    refine List.Pairwise.map _ ?_ hsort
    intro a b hab e
    rw [e, bLt_irrefl] at hab
    cases hab
  · intro a
    refine ⟨h2 a, ?_⟩
    rintro ⟨hlive, hpre⟩
    have hdb : (K.con a).dbKey env = entryKey K.coll ((K.con a).key env) := by
      rw [Sym.dbKey, K.con_coll]
    have hg : s.db.get ((K.con a).dbKey env) = some (K.con a).serialise := by
      rw [hdb]
      exact (get_live inv hD K.mem).mpr ⟨K.con a, hlive, hdb, rfl⟩
    have hm : ((K.con a).dbKey env, (K.con a).serialise) ∈
        s.db.db.filter (fun e => hasPrefix (entryKey K.coll p) e.1) := by
      refine List.mem_filter.mpr ⟨(mem_iff_get inv.sorted _ _).mpr hg, ?_⟩
      rw [hasPrefix_iff]
      simp only [hdb]
      exact (entryKey_prefix hn hn).mpr ⟨rfl, hpre⟩
    rw [h1] at hm
    obtain ⟨b, hb, e⟩ := List.mem_map.mp hm
    simp only [Prod.mk.injEq] at e
    have := liveK_inj inv hD (h2 b hb).1 hlive e.1
    rw [← K.con_inj _ _ this]
    exact hb

theorem scan_live {α} (K : KindSpec α) {env : Env} {D L} {s : Store} (inv : Inv env D L s)
    (hok : ∀ d ∈ D, DocOK env d) (hD : Disjoint env D) (p : Bytes) :
    ∃ xs : List α, scanDecode s.db (entryKey K.coll p) K.read = some (xs.map K.st) ∧
      (xs.map fun a => (K.con a).dbKey env).Nodup ∧
      ∀ a, a ∈ xs ↔ LiveK env L (K.con a) ∧ p <+: (K.con a).key env := by
  obtain ⟨xs, h1, h2, h3⟩ := entries_live K inv hD p
  refine ⟨xs, ?_, h2, h3⟩
  unfold scanDecode LevelDB.prefixStream
  rw [LevelDB.stream_deliver _ _ _ _ _ (Nat.lt_succ_self _), deliver_all, h1]
  rw [scan_foldl K.read xs _ K.st, List.nil_append]
  intro a ha
  have hl := ((h3 a).mp ha).1
  obtain ⟨u, d, -, -, -, -, hs⟩ := hl.ok (fun u d h => ⟨(inv.live u d h).2, hok d (inv.live u d h).1⟩)
  exact K.reads a hs.wf

/-! ### the ten kinds -/

def kCla : KindSpec Class where
  con := .cla
  coll := cCla
  read := readClass
  st := id
  mem := by decide
  con_coll _ := rfl
  con_surj x h := by cases x <;> first | exact ⟨_, rfl⟩ | (simp only [Sym.coll] at h; exact absurd h (by decide))
  con_inj _ _ h := Sym.cla.inj h
  reads a h := ⟨[], by have := C02_class_round_trip a h []; rwa [List.append_nil] at this⟩
  stored _ := rfl

def kInt : KindSpec Interface where
  con := .int
  coll := cInt
  read := readInterface
  st c := { c with refLocation := Location.zero }
  mem := by decide
  con_coll _ := rfl
  con_surj x h := by cases x <;> first | exact ⟨_, rfl⟩ | (simp only [Sym.coll] at h; exact absurd h (by decide))
  con_inj _ _ h := Sym.int.inj h
  reads a h := ⟨[], by have := C02_interface_round_trip a h []; rwa [List.append_nil] at this⟩
  stored _ := rfl

def kTra : KindSpec Trait where
  con := .tra
  coll := cTra
  read := readTrait
  st := id
  mem := by decide
  con_coll _ := rfl
  con_surj x h := by cases x <;> first | exact ⟨_, rfl⟩ | (simp only [Sym.coll] at h; exact absurd h (by decide))
  con_inj _ _ h := Sym.tra.inj h
  reads a h := ⟨[], by have := C02_trait_round_trip a h []; rwa [List.append_nil] at this⟩
  stored _ := rfl

def kFn : KindSpec Function where
  con := .fn
  coll := cFun
  read := readFunction
  st c := { c with refLocation := Location.zero, params := c.params.map Parameter.forget }
  mem := by decide
  con_coll _ := rfl
  con_surj x h := by cases x <;> first | exact ⟨_, rfl⟩ | (simp only [Sym.coll] at h; exact absurd h (by decide))
  con_inj _ _ h := Sym.fn.inj h
  reads a h := ⟨[], by have := C02_function_round_trip_partial a h []; rwa [List.append_nil] at this⟩
  stored _ := rfl

def kCon : KindSpec Const where
  con := .con
  coll := cCon
  read := readConst
  st := id
  mem := by decide
  con_coll _ := rfl
  con_surj x h := by cases x <;> first | exact ⟨_, rfl⟩ | (simp only [Sym.coll] at h; exact absurd h (by decide))
  con_inj _ _ h := Sym.con.inj h
  reads a h := ⟨[], by have := C02_const_round_trip a h []; rwa [List.append_nil] at this⟩
  stored _ := rfl

def kDef : KindSpec Const where
  con := .def_
  coll := cDef
  read := readConst
  st := id
  mem := by decide
  con_coll _ := rfl
  con_surj x h := by cases x <;> first | exact ⟨_, rfl⟩ | (simp only [Sym.coll] at h; exact absurd h (by decide))
  con_inj _ _ h := Sym.def_.inj h
  reads a h := ⟨[], by have := C02_const_round_trip a h []; rwa [List.append_nil] at this⟩
  stored _ := rfl

def kMet : KindSpec Method where
  con := .met
  coll := cMet
  read := readMethod
  st c := { c with refLocation := Location.zero, params := c.params.map Parameter.forget }
  mem := by decide
  con_coll _ := rfl
  con_surj x h := by cases x <;> first | exact ⟨_, rfl⟩ | (simp only [Sym.coll] at h; exact absurd h (by decide))
  con_inj _ _ h := Sym.met.inj h
  reads a h := ⟨[], by have := C02_method_round_trip_partial a h []; rwa [List.append_nil] at this⟩
  stored _ := rfl

def kClaCon : KindSpec ClassConst where
  con := .claCon
  coll := cClaCon
  read := readClassConst
  st c := { c with refLocation := Location.zero, visibility := 0 }
  mem := by decide
  con_coll _ := rfl
  con_surj x h := by cases x <;> first | exact ⟨_, rfl⟩ | (simp only [Sym.coll] at h; exact absurd h (by decide))
  con_inj _ _ h := Sym.claCon.inj h
  reads a h := ⟨[], by have := C02_classConst_round_trip_partial a h []; rwa [List.append_nil] at this⟩
  stored _ := rfl

def kPro : KindSpec Property where
  con := .pro
  coll := cPro
  read := readProperty
  st c := { c with refLocation := Location.zero }
  mem := by decide
  con_coll _ := rfl
  con_surj x h := by cases x <;> first | exact ⟨_, rfl⟩ | (simp only [Sym.coll] at h; exact absurd h (by decide))
  con_inj _ _ h := Sym.pro.inj h
  reads a h := ⟨[], by have := C02_property_round_trip a h []; rwa [List.append_nil] at this⟩
  stored _ := rfl

def kGlo : KindSpec GlobalVariable where
  con := .gloVar
  coll := cGloVar
  read := readGlobalVariable
  st := id
  mem := by decide
  con_coll _ := rfl
  con_surj x h := by cases x <;> first | exact ⟨_, rfl⟩ | (simp only [Sym.coll] at h; exact absurd h (by decide))
  con_inj _ _ h := Sym.gloVar.inj h
  reads a h := ⟨[], by have := C02_globalVariable_round_trip a h []; rwa [List.append_nil] at this⟩
  stored _ := rfl

/-- Scans along a history, in the terms of the specification. -/
theorem scan_history {α} (K : KindSpec α) {env : Env} {root : Bytes} {h : List HOp} {s : Store}
    (he : EnvOK env) (hok : HistOK env h) (hs : run env root h = some s) (p : Bytes) (P : α → Prop)
    (hP : ∀ a u, UriOK u → SymOK env u (K.con a) → (K.con a).Indexed → (p <+: (K.con a).key env ↔ P a)) :
    ∃ xs : List α, scanDecode s.db (entryKey K.coll p) K.read = some (xs.map K.st) ∧ xs.Nodup ∧
      ∀ a, a ∈ xs ↔ Live env (latest h) (K.con a) ∧ P a := by
  obtain ⟨s', h1, inv, rb, -⟩ := run_inv (root := root) he hok
  rw [hs] at h1
  cases h1
  have hD := disjoint_of_ok he.lower hok.docs hok.consts
  obtain ⟨xs, h2, h3, h4⟩ := scan_live K inv hok.docs hD p
  refine ⟨xs, h2, ?_, ?_⟩
  · exact (List.pairwise_map.mp h3).imp fun hne e => hne (by rw [e])
  · intro a
    have hdl : ∀ u d, latest h u = some d → DocOK env d := fun u d hu => hok.docs d (inv.live u d hu).1
    rw [h4, liveK_iff he.lower hdl]
    constructor
    · rintro ⟨h5, h6⟩
      refine ⟨h5, ?_⟩
      obtain ⟨u, d, -, -, hm, hu, hsok⟩ := ((liveK_iff he.lower hdl _).mpr h5).ok
        (fun u d hu => ⟨(inv.live u d hu).2, hdl u d hu⟩)
      obtain ⟨_, _, _, _, _, _, hi, _⟩ := h5
      exact (hP a u hu hsok hi).mp h6
    · rintro ⟨h5, h6⟩
      refine ⟨h5, ?_⟩
      obtain ⟨u, d, -, -, hm, hu, hsok⟩ := ((liveK_iff he.lower hdl _).mpr h5).ok
        (fun u d hu => ⟨(inv.live u d hu).2, hdl u d hu⟩)
      obtain ⟨_, _, _, _, _, _, hi, _⟩ := h5
      exact (hP a u hu hsok hi).mpr h6

end Verif.Store
