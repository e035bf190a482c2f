import Verif.Complete.Names
import Verif.Store.PropsSearch

/-! Properties C90 and C91: lists of completions of names. -/

namespace Verif.Complete

open Verif.Encoding Verif.Store Verif.Types Verif.Imports

/-! ### Specification -/

/-- The symbol an item stands for. -/
def Item.symbol : Item → Option Sym
  | .sym x _ _ _ => some x
  | .ns _ _ => none

/-- The symbols that a list offers. -/
def CList.symbols (l : CList) : List Sym := l.items.filterMap Item.symbol

/-- The symbols whose names can stand in an expression: classes, interfaces, constants and functions. -/
def InExpression : Sym → Prop
  | .cla _ | .int _ | .con _ | .def_ _ | .fn _ => True
  | _ => False

/-- The list offers `x`, as the index stores it. -/
def Offers (l : CList) (x : Sym) : Prop := x.stored ∈ l.symbols

/-- The name of `x` matches the word. -/
def Fits (env : Env) (word : Bytes) (x : Sym) : Prop := ∃ n, x.searchName env = some n ∧ Matches env word n

/-! ### Lemmas -/

variable {env : Env} {root : Bytes} {h : List HOp} {s : Store}

theorem collect_few {α} (valid : α → Bool) (l : Int) (f : Found α) (xs : List α)
    (hl : (f.count : Int) + (xs.filter valid).length < l) :
    collect valid (some l) f xs = (⟨f.results ++ xs.filter valid, f.count + (xs.filter valid).length⟩, true) := by
  induction xs generalizing f with
  | nil => simp [collect]
  | cons x xs ih =>
    by_cases hv : valid x
    · have ha : addFound valid (some l) f x =
          (⟨f.results ++ [x], f.count + 1⟩, decide ((f.count + 1 : Int) ≥ l)) := by
        simp [addFound, limitReached, hv]
      rw [List.filter_cons, if_pos hv, List.length_cons] at hl ⊢
      simp only [collect, ha]
      rw [if_neg (by simp only [decide_eq_true_eq]; omega), ih _ (by simp only; omega)]
      simp only [List.append_assoc, List.singleton_append, Prod.mk.injEq, Found.mk.injEq, and_true, true_and]
      omega
    · have ha : addFound valid (some l) f x = (f, false) := by simp [addFound, hv]
      rw [List.filter_cons, if_neg hv] at hl ⊢
      simp only [collect, ha, Bool.false_eq_true, if_false]
      exact ih f hl

/-- A search that is not cut off gives the same results with and without a limit, and counts them. -/
def Same {α} (search : Option Int → Nat → Option (Found α × Bool)) (ys : List α) : Prop :=
  (search none 0).map (fun r => r.1.results) = some ys ∧
  ∀ (l : Int) (count : Nat), (count : Int) + ys.length < l →
    search (some l) count = some (⟨ys, count + ys.length⟩, true)

theorem same_of {α} {search : Option Int → Nat → Option (Found α × Bool)} {valid : α → Bool} {xs : List α}
    (e : ∀ limit count, search limit count = some (collect valid limit ⟨[], count⟩ xs)) : Same search (xs.filter valid) := by
  refine ⟨by rw [e, collect_none]; simp, fun l count hl => ?_⟩
  rw [e, collect_few _ _ _ _ (by simpa using hl)]
  simp

theorem same_classes (he : EnvOK env) (hok : HistOK env h) (hs : run env root h = some s) (word : Bytes) :
    ∃ ys, Same (s.searchClasses env word fun _ => true) ys := by
  by_cases hsc : (scopeAndName word).1 ≠ []
  · obtain ⟨xs, -, -, x3⟩ := search_classes_scoped he hok hs word hsc
    refine ⟨_, ⟨by rw [x3, collect_none]; rfl, fun l count hl => ?_⟩⟩
    rw [x3, collect_few _ _ _ _ (by simpa using hl)]
    simp
  · obtain ⟨xs, -, -, -, x4⟩ := search_kind sCla he hok hs (scopeAndName word).2
    refine ⟨_, same_of (valid := fun _ => true) (xs := xs.map sCla.st) fun limit count => ?_⟩
    unfold Store.searchClasses
    simp only
    rw [if_neg hsc]
    exact x4 _ _ limit _

theorem same_interfaces (he : EnvOK env) (hok : HistOK env h) (hs : run env root h = some s) (word : Bytes) :
    ∃ ys, Same (s.searchInterfaces env word fun _ => true) ys := by
  obtain ⟨xs, -, -, -, x4⟩ := search_kind sInt he hok hs (scopeAndName word).2
  exact ⟨_, same_of fun limit count => x4 _ _ limit _⟩

theorem same_functions (he : EnvOK env) (hok : HistOK env h) (hs : run env root h = some s) (word : Bytes) :
    ∃ ys, Same (s.searchFunctions env word fun _ => true) ys := by
  obtain ⟨xs, -, -, -, x4⟩ := search_kind sFn he hok hs (scopeAndName word).2
  exact ⟨_, same_of fun limit count => x4 _ _ limit _⟩

theorem same_consts (he : EnvOK env) (hok : HistOK env h) (hs : run env root h = some s) (word : Bytes) :
    ∃ ys, Same (s.searchConsts env word fun _ => true) ys := by
  obtain ⟨xs, -, -, -, x4⟩ := search_kind sCon he hok hs word
  exact ⟨_, same_of fun limit count => x4 _ _ limit _⟩

theorem same_defines (he : EnvOK env) (hok : HistOK env h) (hs : run env root h = some s) (word : Bytes) :
    ∃ ys, Same (s.searchDefines env word fun _ => true) ys := by
  obtain ⟨xs, -, -, -, x4⟩ := search_kind sDef he hok hs word
  exact ⟨_, same_of fun limit count => x4 _ _ limit _⟩

/-- An offer is made for every name, unless the word is one on which `NewTypeString` panics. -/
theorem offer_some (tbl : Table) (sym : SymKind) (name : Ty) (word : Bytes) (hw : newTypeString word ≠ none) :
    ∃ o, tbl.resolveToQualified sym name word = some o := by
  unfold Table.resolveToQualified
  cases hn : newTypeString word with
  | none => exact absurd hn hw
  | some w =>
    simp only
    repeat' split
    all_goals exact ⟨_, rfl⟩

theorem items_some {α} (con : α → Sym) (insert : α → Bytes → Bytes) (offer : α → Option Offer) (ys : List α)
    (ho : ∀ y, ∃ o, offer y = some o) :
    ∃ is, ys.mapM (fun y => itemOf (insert y) (con y) (offer y)) = some is ∧ is.filterMap Item.symbol = ys.map con := by
  induction ys with
  | nil => exact ⟨[], rfl, rfl⟩
  | cons y ys ih =>
    obtain ⟨is, h1, h2⟩ := ih
    obtain ⟨o, hoy⟩ := ho y
    refine ⟨Item.sym (con y) o.label (insert y o.label) o.use :: is, ?_, ?_⟩
    · rw [List.mapM_cons, h1, hoy]; rfl
    · simp [Item.symbol, h2]

theorem items_mem {α} (con : α → Sym) (insert : α → Bytes → Bytes) (offer : α → Option Offer) (ys : List α) (is : List Item)
    (hi : ys.mapM (fun y => itemOf (insert y) (con y) (offer y)) = some is) : is.filterMap Item.symbol = ys.map con := by
  induction ys generalizing is with
  | nil => cases hi; rfl
  | cons y ys ih =>
    rw [List.mapM_cons] at hi
    cases ho : offer y with
    | none => rw [ho] at hi; cases hi
    | some o =>
      cases hm : ys.mapM (fun y => itemOf (insert y) (con y) (offer y)) with
      | none => rw [hm, ho] at hi; cases hi
      | some js =>
        rw [hm, ho] at hi
        cases hi
        rw [List.map_cons, ← ih js hm]
        rfl

/-- A search that is not cut off. -/
theorem searchAll_few {α} {search : Option Int → Nat → Option (Found α × Bool)} {ys : List α} (hs : Same search ys)
    (con : α → Sym) (insert : α → Bytes → Bytes) (offer : α → Option Offer) (ho : ∀ y, ∃ o, offer y = some o)
    (limit : Int) (l : CList) (hl : (l.count : Int) + ys.length < limit) :
    ∃ l', searchAll (search (some limit)) (fun y => itemOf (insert y) (con y) (offer y)) l = some l' ∧
      l'.symbols = l.symbols ++ ys.map con ∧ l'.incomplete = false ∧ l'.count = l.count + ys.length := by
  obtain ⟨is, h1, h2⟩ := items_some con insert offer ys ho
  refine ⟨⟨l.items ++ is, false, l.count + ys.length⟩, ?_, ?_, rfl, rfl⟩
  · unfold searchAll
    rw [hs.2 limit l.count hl]
    simp only [h1, Option.map_some, Bool.not_true]
  · simp [CList.symbols, h2]

/-- Any search: the results are appended. -/
theorem searchAll_some {α} {search : Nat → Option (Found α × Bool)} (con : α → Sym) (insert : α → Bytes → Bytes)
    (offer : α → Option Offer) (l l' : CList)
    (hl : searchAll search (fun y => itemOf (insert y) (con y) (offer y)) l = some l') :
    ∃ f b, search l.count = some (f, b) ∧ l'.symbols = l.symbols ++ f.results.map con ∧ l'.incomplete = !b := by
  unfold searchAll at hl
  cases hf : search l.count with
  | none => rw [hf] at hl; cases hl
  | some r =>
    obtain ⟨f, b⟩ := r
    rw [hf] at hl
    simp only [Option.map_eq_some_iff] at hl
    obtain ⟨is, h1, rfl⟩ := hl
    exact ⟨f, b, rfl, by simp [CList.symbols, items_mem con insert offer _ _ h1], rfl⟩

theorem symbols_empty : CList.empty.symbols = [] := rfl

/-- The unlimited searches of `nameCompletion`, each with its results. -/
structure All (env : Env) (s : Store) (word : Bytes) where
  classes : List Class
  interfaces : List Interface
  consts : List Const
  defines : List Const
  functions : List Function

/-- These are the results of the searches without a limit. -/
structure All.Of {env : Env} {s : Store} {word : Bytes} (a : All env s word) : Prop where
  classes : (s.searchClasses env word (fun _ => true) none 0).map (·.1.results) = some a.classes
  interfaces : (s.searchInterfaces env word (fun _ => true) none 0).map (·.1.results) = some a.interfaces
  consts : (s.searchConsts env word (fun _ => true) none 0).map (·.1.results) = some a.consts
  defines : (s.searchDefines env word (fun _ => true) none 0).map (·.1.results) = some a.defines
  functions : (s.searchFunctions env word (fun _ => true) none 0).map (·.1.results) = some a.functions

/-- How many symbols match. -/
def All.size {env : Env} {s : Store} {word : Bytes} (a : All env s word) : Nat :=
  a.classes.length + a.interfaces.length + a.consts.length + a.defines.length + a.functions.length

/-- The symbols that match. -/
def All.symbols {env : Env} {s : Store} {word : Bytes} (a : All env s word) : List Sym :=
  a.classes.map .cla ++ a.interfaces.map .int ++ a.consts.map .con ++ a.defines.map .def_ ++ a.functions.map .fn

/-- C90: if fewer symbols match the word than the limit allows, the list in an expression consists of all the results of
the searches, and it is not marked as incomplete. -/
theorem C90_few (he : EnvOK env) (hok : HistOK env h) (hs : run env root h = some s) (tbl : Table) (word : Bytes)
    (hw : newTypeString word ≠ none) (hf : isFQN word = false) (limit : Nat) (a : All env s word) (ha : a.Of)
    (hlt : a.size < limit) :
    ∃ l, nameCompletion env s tbl word (some limit) = some l ∧ l.incomplete = false ∧ l.symbols = a.symbols := by
  obtain ⟨cs, hcs⟩ := same_classes he hok hs word
  obtain ⟨is, his⟩ := same_interfaces he hok hs word
  obtain ⟨ks, hks⟩ := same_consts he hok hs word
  obtain ⟨ds, hds⟩ := same_defines he hok hs word
  obtain ⟨fs, hfs⟩ := same_functions he hok hs word
  have e1 : cs = a.classes := Option.some.inj (hcs.1.symm.trans ha.classes)
  have e2 : is = a.interfaces := Option.some.inj (his.1.symm.trans ha.interfaces)
  have e3 : ks = a.consts := Option.some.inj (hks.1.symm.trans ha.consts)
  have e4 : ds = a.defines := Option.some.inj (hds.1.symm.trans ha.defines)
  have e5 : fs = a.functions := Option.some.inj (hfs.1.symm.trans ha.functions)
  subst e1 e2 e3 e4 e5
  unfold All.size at hlt
  have z : CList.empty.count = 0 := rfl
  obtain ⟨l1, a1, b1, -, d1⟩ := searchAll_few hcs .cla (fun _ => id)
    (fun c => tbl.resolveToQualified .other (nameTy c.name) word) (fun _ => offer_some _ _ _ _ hw) limit CList.empty
    (by omega)
  obtain ⟨l2, a2, b2, -, d2⟩ := searchAll_few his .int (fun _ => id)
    (fun c => tbl.resolveToQualified .other (nameTy c.name) word) (fun _ => offer_some _ _ _ _ hw) limit l1 (by omega)
  obtain ⟨l3, a3, b3, -, d3⟩ := searchAll_few hks .con (fun _ => id)
    (fun c => tbl.resolveToQualified .constant (nameTy c.name) word) (fun _ => offer_some _ _ _ _ hw) limit l2 (by omega)
  obtain ⟨l4, a4, b4, -, d4⟩ := searchAll_few hds .def_ (fun _ => id)
    (fun c => tbl.resolveToQualified .define (nameTy c.name) word) (fun _ => offer_some _ _ _ _ hw) limit l3 (by omega)
  obtain ⟨l5, a5, b5, c5, d5⟩ := searchAll_few hfs .fn (fun c => callText (!c.params.isEmpty))
    (fun c => tbl.resolveToQualified .function (nameTy c.name) word) (fun _ => offer_some _ _ _ _ hw) limit l4 (by omega)
  refine ⟨l5, ?_, c5, ?_⟩
  · unfold nameCompletion addClasses addInterfaces addConsts addDefines addFunctions addNamespaces
    simp only [a1, a2, a3, a4, a5, hf, Option.bind_eq_bind, Option.bind_some, Bool.false_eq_true, if_false]
  · rw [b5, b4, b3, b2, b1, symbols_empty, List.nil_append]
    rfl

theorem nodup_kind {α} (con : α → Sym) (hc : ∀ a b, con a = con b → a = b) {xs : List α} (hn : xs.Nodup) : (xs.map con).Nodup :=
  List.pairwise_map.mpr (hn.imp fun hne e => hne (hc _ _ e))

theorem results_of {α} {r : Option (Found α × Bool)} {ys : List α} (hr : r.map (·.1.results) = some ys) {f : Found α} {b : Bool}
    (hf : r = some (f, b)) : ys = f.results := by
  rw [hf] at hr
  exact (Option.some.inj hr).symm

/-- C90: in an expression, if fewer symbols match the word than the limit allows, the list is not marked as incomplete and
offers every class, interface, constant and function of the current files whose name matches the word, each once. The word has no
namespace. -/
theorem C90_all (he : EnvOK env) (hok : HistOK env h) (hso : SearchOK env h) (hs : run env root h = some s)
    (tbl : Table) (word : Bytes) (hk : word ≠ []) (hb : 92 ∉ word) (hn : sep ∉ word) (hw : newTypeString word ≠ none)
    (hf : isFQN word = false) (limit : Nat) (a : All env s word) (ha : a.Of) (hlt : a.size < limit) :
    ∃ l, nameCompletion env s tbl word (some limit) = some l ∧ l.incomplete = false ∧ l.symbols.Nodup ∧
      ∀ x, Live env (latest h) x → InExpression x → Fits env word x → Offers l x := by
  obtain ⟨l, h1, h2, h3⟩ := C90_few he hok hs tbl word hw hf limit a ha hlt
  obtain ⟨fc, c1, c2, c3⟩ := C16_classes he hok hso hs word hk hb hn
  obtain ⟨fi, i1, i2, i3⟩ := C16_interfaces he hok hso hs word hk hb hn
  obtain ⟨fk, k1, k2, k3⟩ := C16_consts he hok hso hs word hn
  obtain ⟨fd, d1, d2, d3⟩ := C16_defines he hok hso hs word hn
  obtain ⟨ff, f1, f2, f3⟩ := C16_functions he hok hso hs word hk hb hn
  have e1 := results_of ha.classes c1
  have e2 := results_of ha.interfaces i1
  have e3 := results_of ha.consts k1
  have e4 := results_of ha.defines d1
  have e5 := results_of ha.functions f1
  refine ⟨l, h1, h2, ?_, ?_⟩
  · rw [h3]
    unfold All.symbols
    rw [e1, e2, e3, e4, e5]
    have n1 := nodup_kind Sym.cla (by simp) c2
    have n2 := nodup_kind Sym.int (by simp) i2
    have n3 := nodup_kind Sym.con (by simp) k2
    have n4 := nodup_kind Sym.def_ (by simp) d2
    have n5 := nodup_kind Sym.fn (by simp) f2
    refine List.nodup_append.mpr ⟨List.nodup_append.mpr ⟨List.nodup_append.mpr ⟨List.nodup_append.mpr ⟨n1, n2, ?_⟩, n3, ?_⟩,
      n4, ?_⟩, n5, ?_⟩
    all_goals
      intro x hx y hy e
      subst e
      simp only [List.mem_append, List.mem_map] at hx hy
      obtain ⟨c, -, rfl⟩ := hy
      simp at hx
  · rintro x hx hin ⟨n, hn1, hn2⟩
    unfold Offers
    rw [h3]
    unfold All.symbols
    rw [e1, e2, e3, e4, e5]
    simp only [List.mem_append, List.mem_map]
    cases x with
    | cla c =>
      cases hn1
      obtain ⟨y, y1, y2⟩ := c3 c hx hn2
      exact .inl (.inl (.inl (.inl ⟨y, y1, y2.symm⟩)))
    | int c =>
      cases hn1
      obtain ⟨y, y1, y2⟩ := i3 c hx hn2
      exact .inl (.inl (.inl (.inr ⟨y, y1, y2.symm⟩)))
    | con c =>
      cases hn1
      obtain ⟨y, y1, y2⟩ := k3 c hx hn2
      exact .inl (.inl (.inr ⟨y, y1, y2.symm⟩))
    | def_ c =>
      cases hn1
      obtain ⟨y, y1, y2⟩ := d3 c hx hn2
      exact .inl (.inr ⟨y, y1, y2.symm⟩)
    | fn c =>
      cases hn1
      obtain ⟨y, y1, y2⟩ := f3 c hx hn2
      exact .inr ⟨y, y1, y2.symm⟩
    | tra _ => cases hin
    | met _ => cases hin
    | claCon _ => cases hin
    | pro _ => cases hin
    | gloVar _ => cases hin

/-- Every symbol offered is the stored form of one that is declared in the current files. -/
def OnlyLive (env : Env) (h : List HOp) (l : CList) : Prop := ∀ y ∈ l.symbols, ∃ x, Live env (latest h) x ∧ x.stored = y

theorem only_step {α} {search : Nat → Option (Found α × Bool)} {con : α → Sym} {insert : α → Bytes → Bytes}
    {offer : α → Option Offer} {l l' : CList} (hl : OnlyLive env h l)
    (hsnd : ∀ count, SoundSearch env (latest h) con (search count))
    (he : searchAll search (fun y => itemOf (insert y) (con y) (offer y)) l = some l') : OnlyLive env h l' := by
  obtain ⟨f, b, h1, h2, -⟩ := searchAll_some con insert offer l l' he
  obtain ⟨f', b', h3, h4⟩ := hsnd l.count
  rw [h1] at h3
  cases h3
  intro y hy
  rw [h2, List.mem_append, List.mem_map] at hy
  rcases hy with hy | ⟨c, hc, rfl⟩
  · exact hl y hy
  · obtain ⟨a, ha, e⟩ := h4 c hc
    exact ⟨con a, ha, e⟩

theorem only_namespaces {word : Bytes} {l l' : CList} (hl : OnlyLive env h l) (he : addNamespaces env s word l = some l') :
    OnlyLive env h l' := by
  unfold addNamespaces at he
  split at he
  · simp only [Option.map_eq_some_iff] at he
    obtain ⟨⟨names, b⟩, -, rfl⟩ := he
    intro y hy
    refine hl y ?_
    simpa [CList.symbols, List.filterMap_map, Function.comp_def, Item.symbol] using hy
  · cases he; exact hl

/-- C90: whatever the word and the limit, all lists of names offer only symbols that are declared in the current files. -/
theorem C90_declared (he : EnvOK env) (hok : HistOK env h) (hs : run env root h = some s) (tbl : Table) (word : Bytes)
    (limit : Option Int) (l : CList)
    (hl : nameCompletion env s tbl word limit = some l ∨ classCompletion env s tbl word limit = some l ∨
      interfaceCompletion env s tbl word limit = some l ∨ traitCompletion env s tbl word limit = some l ∨
      typeCompletion env s tbl word limit = some l) : OnlyLive env h l := by
  have h0 : OnlyLive env h CList.empty := by simp [OnlyLive, CList.symbols, CList.empty]
  have k1 : ∀ a b, OnlyLive env h a → addClasses env s tbl word limit a = some b → OnlyLive env h b := fun a b ha hb =>
    only_step ha (fun count => C09_classes he hok hs word _ limit count) hb
  have k2 : ∀ a b, OnlyLive env h a → addInterfaces env s tbl word limit a = some b → OnlyLive env h b := fun a b ha hb =>
    only_step ha (fun count => C09_interfaces he hok hs word _ limit count) hb
  have k3 : ∀ a b, OnlyLive env h a → addConsts env s tbl word limit a = some b → OnlyLive env h b := fun a b ha hb =>
    only_step ha (fun count => C09_consts he hok hs word _ limit count) hb
  have k4 : ∀ a b, OnlyLive env h a → addDefines env s tbl word limit a = some b → OnlyLive env h b := fun a b ha hb =>
    only_step ha (fun count => C09_defines he hok hs word _ limit count) hb
  have k5 : ∀ a b, OnlyLive env h a → addFunctions env s tbl word limit a = some b → OnlyLive env h b := fun a b ha hb =>
    only_step ha (fun count => C09_functions he hok hs word _ limit count) hb
  have k6 : ∀ a b, OnlyLive env h a → addTraits env s tbl word limit a = some b → OnlyLive env h b := fun a b ha hb =>
    only_step ha (fun count => C09_traits he hok hs word _ limit count) hb
  rcases hl with hl | hl | hl | hl | hl
  · simp only [nameCompletion, Option.bind_eq_bind, Option.bind_eq_some_iff] at hl
    obtain ⟨l1, a1, l2, a2, l3, a3, l4, a4, l5, a5, a6⟩ := hl
    exact only_namespaces (k5 _ _ (k4 _ _ (k3 _ _ (k2 _ _ (k1 _ _ h0 a1) a2) a3) a4) a5) a6
  · exact k1 _ _ h0 hl
  · exact k2 _ _ h0 hl
  · exact k6 _ _ h0 hl
  · simp only [typeCompletion, Option.bind_eq_bind, Option.bind_eq_some_iff] at hl
    obtain ⟨l1, a1, l2, a2, a3⟩ := hl
    exact only_namespaces (k2 _ _ (k1 _ _ h0 a1) a2) a3

theorem single_complete {α} {search : Option Int → Nat → Option (Found α × Bool)} (con : α → Sym)
    (insert : α → Bytes → Bytes) (offer : α → Option Offer) (P : α → Prop)
    (hlim : LimitedSearch fun limit => search limit 0)
    (hall : CompleteSearch env (latest h) con (search none 0) P) (n : Nat) (hn : 1 ≤ n) (l : CList)
    (hl : searchAll (search (some n)) (fun y => itemOf (insert y) (con y) (offer y)) CList.empty = some l)
    (hc : l.incomplete = false) (a : α) (ha : Live env (latest h) (con a)) (hp : P a) : Offers l (con a) := by
  obtain ⟨f, b, h1, h2, h3⟩ := searchAll_some con insert offer _ l hl
  obtain ⟨all, g1, g2⟩ := hlim
  obtain ⟨f', b', g3, -, -, g4⟩ := g2 n hn
  rw [show CList.empty.count = 0 from rfl] at h1
  simp only [h1] at g3
  cases g3
  rw [hc] at h3
  have hb : b = true := by simpa using h3
  obtain ⟨fa, e1, -, e2⟩ := hall
  simp only [e1] at g1
  cases g1
  obtain ⟨y, y1, y2⟩ := e2 a ha hp
  unfold Offers
  rw [h2, symbols_empty, List.nil_append, g4 hb, y2]
  exact List.mem_map.mpr ⟨y, y1, rfl⟩

/-- C91, after `extends` and `new`: a list that is not marked as incomplete offers every class of the current files whose
name matches the word. Missing: words with a namespace (`C15_false_scoped_classes`). -/
theorem C91_classes_partial (he : EnvOK env) (hok : HistOK env h) (hso : SearchOK env h) (hs : run env root h = some s)
    (tbl : Table) (word : Bytes) (hk : word ≠ []) (hb : 92 ∉ word) (hn : sep ∉ word) (n : Nat) (h1 : 1 ≤ n) (l : CList)
    (hl : classCompletion env s tbl word (some n) = some l) (hc : l.incomplete = false) (c : Class)
    (hlive : Live env (latest h) (.cla c)) (hm : Matches env word c.name.original) : Offers l (.cla c) :=
  single_complete Sym.cla (fun _ => id) _ _ (C15_classes_partial he hok hs word hk hb _)
    (C16_classes he hok hso hs word hk hb hn) n h1 l hl hc c hlive hm

/-- C91, after `implements`: the same for interfaces. -/
theorem C91_interfaces_partial (he : EnvOK env) (hok : HistOK env h) (hso : SearchOK env h) (hs : run env root h = some s)
    (tbl : Table) (word : Bytes) (hk : word ≠ []) (hb : 92 ∉ word) (hn : sep ∉ word) (n : Nat) (h1 : 1 ≤ n) (l : CList)
    (hl : interfaceCompletion env s tbl word (some n) = some l) (hc : l.incomplete = false) (c : Interface)
    (hlive : Live env (latest h) (.int c)) (hm : Matches env word c.name.original) : Offers l (.int c) :=
  single_complete Sym.int (fun _ => id) _ _ (C15_interfaces he hok hs word _)
    (C16_interfaces he hok hso hs word hk hb hn) n h1 l hl hc c hlive hm

/-- C91, after `use` in a class: the same for traits. -/
theorem C91_traits_partial (he : EnvOK env) (hok : HistOK env h) (hso : SearchOK env h) (hs : run env root h = some s)
    (tbl : Table) (word : Bytes) (hk : word ≠ []) (hb : 92 ∉ word) (hn : sep ∉ word) (n : Nat) (h1 : 1 ≤ n) (l : CList)
    (hl : traitCompletion env s tbl word (some n) = some l) (hc : l.incomplete = false) (c : Trait)
    (hlive : Live env (latest h) (.tra c)) (hm : Matches env word c.name.original) : Offers l (.tra c) :=
  single_complete Sym.tra (fun _ => id) _ _ (C15_traits he hok hs word _)
    (C16_traits_partial he hok hso hs word hk hb hn) n h1 l hl hc c hlive hm

/-- C91 is false for lists of several searches: if no function matches the word, the list in an expression is not marked
as incomplete, however many classes, interfaces and constants were left out. -/
theorem C91_false_functions_decide (he : EnvOK env) (hok : HistOK env h) (hs : run env root h = some s) (tbl : Table)
    (word : Bytes) (hf : isFQN word = false) (limit : Option Int)
    (h0 : (s.searchFunctions env word (fun _ => true) none 0).map (·.1.results) = some []) (l : CList)
    (hl : nameCompletion env s tbl word limit = some l) : l.incomplete = false := by
  simp only [nameCompletion, Option.bind_eq_bind, Option.bind_eq_some_iff] at hl
  obtain ⟨l1, -, l2, -, l3, -, l4, -, l5, a5, a6⟩ := hl
  simp only [addNamespaces, hf, Bool.false_eq_true, if_false, Option.some.injEq] at a6
  subst a6
  obtain ⟨f, b, b1, -, b3⟩ := searchAll_some Sym.fn (fun c => callText (!c.params.isEmpty)) _ _ _ a5
  obtain ⟨xs, -, -, -, x4⟩ := search_kind sFn he hok hs (scopeAndName word).2
  have e : ∀ limit count, s.searchFunctions env word (fun _ => true) limit count = some (collect
      (fun c : Function => true && inScope (scopeAndName word).1 (namespaceOf c.name.fqn)) limit ⟨[], count⟩
        (xs.map sFn.st)) := fun limit count => x4 _ _ limit _
  rw [e, collect_none] at h0
  simp only [Option.map_some, List.nil_append, Option.some.injEq] at h0
  have key : ∀ (ys : List Function) (v : Function → Bool) (g : Found Function), ys.filter v = [] →
      collect v limit g ys = (g, true) := by
    intro ys v g
    induction ys with
    | nil => intro _; rfl
    | cons y ys ih =>
      intro hy
      by_cases hv : v y
      · rw [List.filter_cons, if_pos hv] at hy; cases hy
      · rw [List.filter_cons, if_neg hv] at hy
        have : addFound v limit g y = (g, false) := by simp [addFound, hv]
        simp only [collect, this, Bool.false_eq_true, if_false]
        exact ih hy
  rw [e, key _ _ _ h0] at b1
  cases b1
  simpa using b3

/-! ### Examples -/

namespace Demo

open Verif.Store.Demo

/-- a file without imports -/
def tbl : Table := newTable default

theorem search2_ok : SearchOK Store.Demo.env [.index c2] where
  tok := by intro n hn t ht; simp only [Store.Demo.env, List.mem_singleton] at ht; rw [ht]; exact hn
  names := by
    intro d hd x hx n hn
    have : ∀ d ∈ docs [.index c2], ∀ x ∈ d.symbols, ∀ n ∈ (x.searchName Store.Demo.env).toList, sep ∉ n := by decide +kernel
    exact this d hd x hx n (by simp [hn])

/-- The two classes of the file are live and match `N`. -/
theorem live_foo : Live Store.Demo.env (latest [.index c2]) (cla uA b!"N\\Foo") :=
  have : ∀ y ∈ c2.symbols.tail, ¬ ((cla uA b!"N\\Foo").kind = y.kind ∧
    (cla uA b!"N\\Foo").path Store.Demo.env = y.path Store.Demo.env) := by decide +kernel
  ⟨uA, c2, [], c2.symbols.tail, rfl, rfl, trivial, fun y hy hs =>
    absurd ⟨hs.2.1, hs.2.2.1⟩ (this y hy)⟩

theorem live_fox : Live Store.Demo.env (latest [.index c2]) (cla uA b!"N\\Fox") :=
  have : ∀ y ∈ (c2.symbols.drop 2), ¬ ((cla uA b!"N\\Fox").kind = y.kind ∧
    (cla uA b!"N\\Fox").path Store.Demo.env = y.path Store.Demo.env) := by decide +kernel
  ⟨uA, c2, c2.symbols.take 1, c2.symbols.drop 2, rfl, rfl, trivial, fun y hy hs =>
    absurd ⟨hs.2.1, hs.2.2.1⟩ (this y hy)⟩

theorem fits_foo : Fits Store.Demo.env b!"N" (cla uA b!"N\\Foo") :=
  ⟨_, rfl, b!"N", by simp [Store.Demo.env], b!"N\\Foo", by simp [Store.Demo.env, ty], by decide +kernel⟩

theorem fits_fox : Fits Store.Demo.env b!"N" (cla uA b!"N\\Fox") :=
  ⟨_, rfl, b!"N", by simp [Store.Demo.env], b!"N\\Fox", by simp [Store.Demo.env, ty], by decide +kernel⟩

end Demo

open Verif.Store.Demo in
/-- C91 is false: two classes match, one is offered because of the limit, and the list is not marked as incomplete. -/
theorem C91_false_not_marked :
    ∃ (h : List HOp) (s : Store) (l : CList) (x y : Sym), HistOK Demo.env h ∧ SearchOK Demo.env h ∧
      run Demo.env Demo.root h = some s ∧ nameCompletion Demo.env s Demo.tbl b!"N" (some 1) = some l ∧
      Live Demo.env (latest h) x ∧ Fits Demo.env b!"N" x ∧ Live Demo.env (latest h) y ∧ Fits Demo.env b!"N" y ∧
      l.symbols = [x.stored] ∧ y.stored ≠ x.stored ∧ l.incomplete = false := by
  obtain ⟨s, h1, h2⟩ := Demo.observe (env := Demo.env) (root := Demo.root) (h := [.index Demo.c2])
    (fun s => (nameCompletion Demo.env s Demo.tbl b!"N" (some 1)).map fun l => (l.symbols, l.incomplete))
    (some ([(cla uA b!"N\\Foo").stored], false)) (by decide +kernel)
  cases hr : nameCompletion Demo.env s Demo.tbl b!"N" (some 1) with
  | none => rw [hr] at h2; cases h2
  | some l =>
    rw [hr] at h2
    have h3 := Option.some.inj h2
    exact ⟨_, s, l, _, _, Demo.single_ok Demo.c2_ok, Demo.search2_ok, h1, hr, Demo.live_foo, Demo.fits_foo,
      Demo.live_fox, Demo.fits_fox, congrArg Prod.fst h3, by decide +kernel, congrArg Prod.snd h3⟩

open Verif.Store.Demo in
/-- `C90_few`, `C90_all`: with room for three, both classes are offered. -/
example : ∃ s, run Demo.env Demo.root [.index Demo.c2] = some s ∧
    (nameCompletion Demo.env s Demo.tbl b!"N" (some 3)).map (fun l => (l.symbols, l.incomplete)) =
      some ([(cla uA b!"N\\Foo").stored, (cla uA b!"N\\Fox").stored], false) ∧
    ∃ a : All Demo.env s b!"N", a.Of ∧ a.size < 3 := by
  obtain ⟨s, h1, h2⟩ := Demo.observe (env := Demo.env) (root := Demo.root) (h := [.index Demo.c2])
    (fun s => ((nameCompletion Demo.env s Demo.tbl b!"N" (some 3)).map fun l => (l.symbols, l.incomplete),
      [(s.searchClasses Demo.env b!"N" (fun _ => true) none 0).map (·.1.results.length),
      (s.searchInterfaces Demo.env b!"N" (fun _ => true) none 0).map (·.1.results.length),
      (s.searchConsts Demo.env b!"N" (fun _ => true) none 0).map (·.1.results.length),
      (s.searchDefines Demo.env b!"N" (fun _ => true) none 0).map (·.1.results.length),
      (s.searchFunctions Demo.env b!"N" (fun _ => true) none 0).map (·.1.results.length)]))
    (some ([(cla uA b!"N\\Foo").stored, (cla uA b!"N\\Fox").stored], false),
      [some 2, some 0, some 0, some 0, some 0])
    (by decide +kernel)
  have key : ∀ {α} (r : Option (Found α × Bool)) (n : Nat),
      r.map (fun r => r.1.results.length) = some n → ∃ xs, r.map (·.1.results) = some xs ∧ xs.length = n := by
    intro α r n hr
    cases r with
    | none => cases hr
    | some r => cases hr; exact ⟨_, rfl, rfl⟩
  simp only [Prod.mk.injEq, List.cons.injEq, and_true] at h2
  obtain ⟨e, e1, e2, e3, e4, e5⟩ := h2
  obtain ⟨cs, c1, c2⟩ := key _ _ e1
  obtain ⟨is, i1, i2⟩ := key _ _ e2
  obtain ⟨ks, k1, k2⟩ := key _ _ e3
  obtain ⟨ds, d1, d2⟩ := key _ _ e4
  obtain ⟨fs, f1, f2⟩ := key _ _ e5
  exact ⟨s, h1, e, ⟨cs, is, ks, ds, fs⟩, ⟨c1, i1, k1, d1, f1⟩, by simp only [All.size, c2, i2, k2, d2, f2]; omega⟩

open Verif.Store.Demo in
/-- `C91_classes_partial`, `C90_declared`: with room for one, the list of classes is marked as incomplete; with room for
three it is not, and it offers both. -/
example : ∃ s, run Demo.env Demo.root [.index Demo.c2] = some s ∧
    (classCompletion Demo.env s Demo.tbl b!"N" (some 1)).map (fun l => (l.symbols.length, l.incomplete)) = some (1, true) ∧
    (classCompletion Demo.env s Demo.tbl b!"N" (some 3)).map (fun l => (l.symbols.length, l.incomplete)) = some (2, false) := by
  obtain ⟨s, h1, h2⟩ := Demo.observe (env := Demo.env) (root := Demo.root) (h := [.index Demo.c2])
    (fun s => ((classCompletion Demo.env s Demo.tbl b!"N" (some 1)).map (fun l => (l.symbols.length, l.incomplete)),
      (classCompletion Demo.env s Demo.tbl b!"N" (some 3)).map (fun l => (l.symbols.length, l.incomplete))))
    (some (1, true), some (2, false)) (by decide +kernel)
  exact ⟨s, h1, congrArg Prod.fst h2, congrArg Prod.snd h2⟩

end Verif.Complete
