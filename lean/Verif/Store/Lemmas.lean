import Verif.Common.Tactics
import Verif.Store.Spec
import Verif.Storage.Lemmas
import Verif.Encoding.Lemmas
import Verif.Encoding.Props

namespace Verif.Store

open Verif.Encoding Verif.Storage

/-! ### the effect of a batch on one key -/

def opKey : BOp → Bytes
  | .put k _ => k
  | .del k => k

/-- `none`: untouched; `some none`: deleted; `some (some v)`: set to `v`. -/
def effect : List BOp → Bytes → Option (Option Bytes)
  | [], _ => none
  | o :: os, k =>
    match effect os k with
    | some r => some r
    | none =>
      match o with
      | .put k' v => if k = k' then some (some v) else none
      | .del k' => if k = k' then some none else none

theorem get_applyOps_effect (m : Entries) (ops : List BOp) (k : Bytes) :
    Storage.get k (applyOps m ops) = (effect ops k).getD (Storage.get k m) := by
  induction ops generalizing m with
  | nil => rfl
  | cons o os ih =>
    show Storage.get k (applyOps (BOp.apply m o) os) = _
    rw [ih]
    simp only [effect]
    cases effect os k with
    | some r => rfl
    | none =>
      cases o with
      | put k' v => simp only [BOp.apply, get_put]; split <;> simp_all
      | del k' => simp only [BOp.apply, get_del]; split <;> simp_all

theorem effect_append (a b : List BOp) (k : Bytes) : effect (a ++ b) k = (effect b k).or (effect a k) := by
  induction a with
  | nil => simp [effect]
  | cons o os ih =>
    simp only [List.cons_append, effect, ih]
    cases effect b k <;> simp

theorem effect_none {ops : List BOp} {k : Bytes} (h : ∀ o ∈ ops, opKey o ≠ k) : effect ops k = none := by
  induction ops with
  | nil => rfl
  | cons o os ih =>
    simp only [effect, ih fun o ho => h o (by simp [ho])]
    have := h o (by simp)
    cases o <;> simp only [opKey] at this <;> simp [Ne.symm this]

/-- last element of a list with a given key -/
def lastBy {α} (f : α → Bytes) (k : Bytes) : List α → Option α
  | [] => none
  | x :: xs =>
    match lastBy f k xs with
    | some y => some y
    | none => if f x = k then some x else none

theorem lastBy_none {α} {f : α → Bytes} {k : Bytes} {xs : List α} :
    lastBy f k xs = none ↔ ∀ x ∈ xs, f x ≠ k := by
  induction xs with
  | nil => simp [lastBy]
  | cons x xs ih =>
    simp only [lastBy, List.mem_cons, forall_eq_or_imp]
    cases h : lastBy f k xs with
    | some y => simp only [h, reduceCtorEq, false_iff] at *; tauto
    | none => simp only [h, true_iff] at ih; simp; tauto

theorem lastBy_mem {α} {f : α → Bytes} {k : Bytes} {xs : List α} {x : α} (h : lastBy f k xs = some x) :
    x ∈ xs ∧ f x = k := by
  induction xs with
  | nil => simp [lastBy] at h
  | cons y xs ih =>
    simp only [lastBy] at h
    cases hx : lastBy f k xs with
    | some z => rw [hx] at h ih; cases h; simp [ih rfl]
    | none =>
      rw [hx] at h
      simp only at h
      split at h
      · cases h; simp_all
      · cases h

theorem lastBy_some_of_mem {α} {f : α → Bytes} {k : Bytes} {xs : List α} {x : α} (h : x ∈ xs)
    (hk : f x = k) : ∃ y, lastBy f k xs = some y := by
  cases hl : lastBy f k xs with
  | some y => exact ⟨y, rfl⟩
  | none => exact absurd hk (lastBy_none.mp hl x h)

theorem lastBy_filter {α} {f : α → Bytes} {k : Bytes} {p : α → Bool} {xs : List α} {x : α} :
    lastBy f k (xs.filter p) = some x ↔
      ∃ pre post, xs = pre ++ x :: post ∧ p x = true ∧ f x = k ∧
        ∀ y ∈ post, ¬ (p y = true ∧ f y = k) := by
  induction xs with
  | nil => simp [lastBy]
  | cons y xs ih =>
    have aux : (∃ pre post, y :: xs = pre ++ x :: post ∧ p x = true ∧ f x = k ∧
        ∀ y ∈ post, ¬ (p y = true ∧ f y = k)) ↔
        (∃ pre post, xs = pre ++ x :: post ∧ p x = true ∧ f x = k ∧
        ∀ y ∈ post, ¬ (p y = true ∧ f y = k)) ∨
        (x = y ∧ p y = true ∧ f y = k ∧ ∀ z ∈ xs, ¬ (p z = true ∧ f z = k)) := by
      constructor
      · rintro ⟨pre, post, he, h1, h2, h3⟩
        cases pre with
        | nil =>
          simp only [List.nil_append, List.cons.injEq] at he
          obtain ⟨rfl, rfl⟩ := he
          exact .inr ⟨rfl, h1, h2, h3⟩
        | cons a pre =>
          simp only [List.cons_append, List.cons.injEq] at he
          exact .inl ⟨pre, post, he.2, h1, h2, h3⟩
      · rintro (⟨pre, post, he, h1, h2, h3⟩ | ⟨rfl, h1, h2, h3⟩)
        · exact ⟨y :: pre, post, by simp [he], h1, h2, h3⟩
        · exact ⟨[], xs, rfl, h1, h2, h3⟩
    rw [aux, ← ih]
    have hnone : lastBy f k (xs.filter p) = none ↔ ∀ z ∈ xs, ¬ (p z = true ∧ f z = k) := by
      rw [lastBy_none]; simp only [List.mem_filter]; constructor
      · intro h z hz ⟨h1, h2⟩; exact h z ⟨hz, h1⟩ h2
      · intro h z ⟨hz, h1⟩ h2; exact h z hz ⟨h1, h2⟩
    rw [← hnone]
    by_cases hp : p y = true
    · simp only [List.filter_cons, hp, if_true, lastBy]
      cases hl : lastBy f k (xs.filter p) with
      | some z => simp
      | none =>
        simp only [reduceCtorEq, false_or]
        by_cases hf : f y = k
        · simp [hf, eq_comm]
        · simp [hf]
    · simp [hp]

theorem effect_puts {α} (f g : α → Bytes) (xs : List α) (k : Bytes) :
    effect (xs.map fun x => BOp.put (f x) (g x)) k = (lastBy f k xs).map fun x => some (g x) := by
  induction xs with
  | nil => rfl
  | cons x xs ih =>
    simp only [List.map_cons, effect, ih, lastBy]
    cases lastBy f k xs with
    | some y => rfl
    | none => simp only [Option.map_none]; by_cases h : f x = k
              · simp [h]
              · simp [h, Ne.symm h]

theorem effect_dels (ks : List Bytes) (k : Bytes) :
    effect (ks.map BOp.del) k = if k ∈ ks then some none else none := by
  induction ks with
  | nil => rfl
  | cons x xs ih =>
    simp only [List.map_cons, effect, ih, List.mem_cons]
    by_cases h1 : k ∈ xs
    · simp [h1]
    · by_cases h2 : k = x
      · subst h2; simp [h1]
      · simp [h1, h2]

/-! ### keys -/

theorem entryKey_inj {c c' k k' : Bytes} (h : sep ∉ c) (h' : sep ∉ c') :
    entryKey c k = entryKey c' k' ↔ c = c' ∧ k = k' := by
  constructor
  · exact sep_inj h h'
  · rintro ⟨rfl, rfl⟩; rfl

theorem entryKey_prefix {c c' k k' : Bytes} (h : sep ∉ c) (h' : sep ∉ c') :
    entryKey c k <+: entryKey c' k' ↔ c = c' ∧ k <+: k' := sep_prefix h h'

/-- collections of symbols -/
def symColls : List Bytes := [cCla, cInt, cTra, cFun, cCon, cDef, cMet, cClaCon, cPro, cGloVar]

theorem symColls_nosep : ∀ c ∈ symColls, sep ∉ c := by decide
theorem coll_mem (x : Sym) : x.coll ∈ symColls := by cases x <;> simp [Sym.coll, symColls]
theorem coll_nosep (x : Sym) : sep ∉ x.coll := symColls_nosep _ (coll_mem x)
theorem coll_inj {x y : Sym} : x.coll = y.coll ↔ x.kind = y.kind := by
  cases x <;> cases y <;> simp only [Sym.coll, Sym.kind] <;> decide

theorem key_ne_nil (env : Env) (x : Sym) : x.key env ≠ [] ↔ x.Indexed := by
  cases x <;> simp only [Sym.key, Sym.Indexed]
  case gloVar c => cases typesEmpty c.types <;> simp
  all_goals simp

theorem mem_keyed {env : Env} {d : Doc} {x : Sym} : x ∈ d.keyed env ↔ x ∈ d.symbols ∧ x.Indexed := by
  simp [Doc.keyed, ← key_ne_nil env]

theorem lastIndexB_some {sep : UInt8} {s : Bytes} {i : Nat} (h : lastIndexB sep s = some i) :
    s = s.take i ++ sep :: s.drop (i + 1) ∧ sep ∉ s.drop (i + 1) := by
  induction s generalizing i with
  | nil => simp [lastIndexB] at h
  | cons c cs ih =>
    simp only [lastIndexB] at h
    cases hl : lastIndexB sep cs with
    | some j =>
      rw [hl] at h
      cases h
      obtain ⟨h1, h2⟩ := ih hl
      refine ⟨?_, by simpa using h2⟩
      simp only [List.take_succ_cons, List.drop_succ_cons, List.cons_append]
      rw [← h1]
    | none =>
      rw [hl] at h
      simp only at h
      split at h
      · cases h
        subst_vars
        have : ∀ (s : Bytes), lastIndexB c s = none → c ∉ s := by
          intro s
          induction s with
          | nil => simp
          | cons a as ih2 =>
            simp only [lastIndexB]
            cases h3 : lastIndexB c as with
            | some j => simp
            | none => simp only [List.mem_cons, not_or]
                      intro h4
                      refine ⟨?_, ih2 h3⟩
                      intro h5; subst h5; simp at h4
        exact ⟨by simp, by simpa using this cs hl⟩
      · cases h

theorem lastIndexB_none {sep : UInt8} {s : Bytes} : lastIndexB sep s = none ↔ sep ∉ s := by
  induction s with
  | nil => simp [lastIndexB]
  | cons a as ih =>
    simp only [lastIndexB]
    cases h : lastIndexB sep as with
    | some j => rw [h] at ih; simp at ih; simp [ih]
    | none => rw [h] at ih; simp at ih
              simp only [List.mem_cons, not_or]
              by_cases h2 : a = sep
              · simp [h2]
              · simp [h2, ih, Ne.symm h2]

theorem lastIndexB_append {sep : UInt8} {a b : Bytes} (h : sep ∉ b) :
    lastIndexB sep (a ++ sep :: b) = some a.length := by
  induction a with
  | nil => simp [lastIndexB, lastIndexB_none.mpr h]
  | cons c cs ih => simp [lastIndexB, ih]

theorem classFQNLower_nosep {env : Env} (hl : env.LowerOK) {s : Bytes} (h : sep ∉ s) :
    sep ∉ classFQNLower env s := by
  unfold classFQNLower
  cases hi : lastIndexB 92 s with
  | none => exact h
  | some i =>
    simp only [List.mem_append, List.mem_cons, not_or]
    refine ⟨fun hm => h (List.mem_of_mem_take hm), by decide, hl _ fun hm => h (List.mem_of_mem_drop hm)⟩

theorem path_nosep {env : Env} (hl : env.LowerOK) {x : Sym} (h : x.NameOK) : ∀ p ∈ x.path env, sep ∉ p := by
  intro p hp
  unfold Sym.NameOK at h
  cases x <;> simp only [Sym.path, Sym.names, List.mem_cons, List.not_mem_nil, or_false,
    forall_eq_or_imp, forall_eq] at hp h
  case cla c => subst hp; exact classFQNLower_nosep hl h
  case met c => rcases hp with rfl | rfl
                · exact h.1
                · exact hl _ h.2
  case claCon c => rcases hp with rfl | rfl
                   · exact h.1
                   · exact h.2
  case pro c => rcases hp with rfl | rfl
                · exact h.1
                · exact h.2
  all_goals subst hp; exact h

theorem rangeString_chars (r : Range) : ∀ c ∈ rangeString r, rangeChar c := by
  have hp : ∀ (p : Position), ∀ c ∈ posString p, rangeChar c := by
    intro p c hc
    simp only [posString, List.mem_append, List.mem_cons] at hc
    rcases hc with hc | rfl | hc
    · rcases itoa_mem _ _ hc with h | h
      · exact .inl h
      · exact .inr (.inr h)
    · exact .inr (.inl rfl)
    · rcases itoa_mem _ _ hc with h | h
      · exact .inl h
      · exact .inr (.inr h)
  intro c hc
  simp only [rangeString, List.mem_append, List.mem_cons] at hc
  rcases hc with hc | rfl | hc
  · exact hp _ _ hc
  · exact .inl rfl
  · exact hp _ _ hc

/-- A URI followed by a printed range determines both. -/
theorem uri_range_inj {u u' r r' : Bytes} (hu : ∃ c, u.getLast? = some c ∧ ¬ rangeChar c)
    (hu' : ∃ c, u'.getLast? = some c ∧ ¬ rangeChar c) (hr : ∀ c ∈ r, rangeChar c)
    (hr' : ∀ c ∈ r', rangeChar c) (h : u ++ r = u' ++ r') : u = u' ∧ r = r' := by
  have key : ∀ {u u' r r' : Bytes}, (∃ c, u'.getLast? = some c ∧ ¬ rangeChar c) → (∀ c ∈ r, rangeChar c) →
      u ++ r = u' ++ r' → u'.length ≤ u.length := by
    intro u u' r r' ⟨c, hc, hn⟩ hr h
    by_contra hlt
    have hlt : u.length < u'.length := by omega
    -- the last element of u' lies in r
    obtain ⟨t, rfl⟩ : ∃ t, u' = t ++ [c] := by
      have hne : u' ≠ [] := by rintro rfl; simp at hc
      have := List.dropLast_concat_getLast hne
      rw [List.getLast?_eq_some_getLast hne] at hc
      cases hc
      exact ⟨_, this.symm⟩
    simp only [List.length_append, List.length_singleton] at hlt
    have h1 : (u ++ r)[t.length]? = some c := by rw [h]; simp
    rw [List.getElem?_append_right (by omega)] at h1
    exact hn (hr _ (List.mem_of_getElem? h1))
  have h1 := key hu' hr h
  have h2 := key hu hr' h.symm
  exact List.append_inj h (by omega)

theorem dbKey_inj (env : Env) (hl : env.LowerOK) {u v : Bytes} {x y : Sym} (hx : SymOK env u x)
    (hy : SymOK env v y) (hu : UriOK u) (hv : UriOK v) (ix : x.Indexed) (iy : y.Indexed) :
    x.dbKey env = y.dbKey env ↔ SameDecl env x y ∧ (x.kind ≠ 7 → u = v) := by
  unfold Sym.dbKey
  rw [entryKey_inj (coll_nosep x) (coll_nosep y), coll_inj]
  have nx := path_nosep hl hx.name
  have ny := path_nosep hl hy.name
  have ux := hx.uri
  have uy := hy.uri
  unfold SameDecl
  have one : ∀ {a b : Bytes}, sep ∉ a → sep ∉ b →
      (a ++ sep :: u = b ++ sep :: v ↔ a = b ∧ u = v) := by
    intro a b ha hb
    exact ⟨sep_inj ha hb, by rintro ⟨rfl, rfl⟩; rfl⟩
  cases x <;> cases y <;> simp only [Sym.kind, Nat.reduceEqDiff, false_and, true_and, reduceCtorEq] <;>
    simp only [Sym.path, List.mem_cons, List.not_mem_nil, or_false, forall_eq_or_imp, forall_eq,
      Sym.location, Sym.Indexed] at nx ny ux uy ix iy <;>
    simp only [Sym.key, Sym.path, ux, uy, List.cons.injEq, and_true, ix, iy]
  case gloVar.gloVar c c' => simp [one nx ny]
  case met.met c c' =>
    constructor
    · intro h
      obtain ⟨h1, h2⟩ := sep_inj nx.1 ny.1 h
      obtain ⟨h3, h4⟩ := sep_inj nx.2 ny.2 h2
      exact ⟨⟨h1, h3⟩, fun _ => h4⟩
    · rintro ⟨⟨h1, h2⟩, h3⟩
      rw [h1, h2, h3 (by decide)]
  case claCon.claCon c c' =>
    constructor
    · intro h
      obtain ⟨h1, h2⟩ := sep_inj nx.1 ny.1 h
      exact ⟨⟨h1, h2⟩, fun h => absurd rfl h⟩
    · rintro ⟨⟨h1, h2⟩, -⟩
      rw [h1, h2]
  case pro.pro c c' =>
    constructor
    · intro h
      obtain ⟨h1, h2⟩ := sep_inj nx.1 ny.1 h
      obtain ⟨h3, h4⟩ := sep_inj nx.2 ny.2 h2
      obtain ⟨h5, h6⟩ := uri_range_inj hu.2 hv.2 (rangeString_chars _) (rangeString_chars _) h4
      exact ⟨⟨⟨h1, h3⟩, h6⟩, fun _ => h5⟩
    · rintro ⟨⟨⟨h1, h2⟩, h3⟩, h4⟩
      rw [h1, h2, h3, h4 (by decide)]
  all_goals
    rw [one nx ny]
    constructor
    · rintro ⟨h1, h2⟩; exact ⟨h1, fun _ => h2⟩
    · rintro ⟨h1, h2⟩; exact ⟨h1, h2 (by decide)⟩

end Verif.Store
