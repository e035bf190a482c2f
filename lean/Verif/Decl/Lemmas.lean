import Verif.Decl.Spec
import Verif.Common.Tactics
import Mathlib.Data.List.Forall2

/-! Lemmas that tie the tests of the model to the descriptions of the specification. -/

namespace Verif.Decl
open Verif.Analyser (Node PType TokType Tok Ctx)

theorem typ_iff (ty : PType) (k : Node) : typ? k = some ty ↔ IsPhrase ty k := by
  cases k with
  | phr t ks => simp [typ?, IsPhrase]
  | tok t => simp [typ?, IsPhrase]
  | err t => simp [typ?, IsPhrase]

theorem tokType_iff (ty : TokType) (k : Node) : tokType? k = some ty ↔ IsToken ty k := by
  cases k with
  | phr t ks => simp [tokType?, IsToken]
  | tok t => simp [tokType?, IsToken]
  | err t => simp [tokType?, IsToken]

theorem filter_only {p : Node → Bool} {pre post : List Node} {x : Node} (hx : p x = true)
    (h : ∀ k ∈ pre ++ post, p k = false) : (pre ++ x :: post).filter p = [x] := by
  rw [List.filter_append, List.filter_cons_of_pos hx]
  rw [List.filter_eq_nil_iff.2 fun k hk => by rw [h k (List.mem_append_left _ hk)]; decide]
  rw [List.filter_eq_nil_iff.2 fun k hk => by rw [h k (List.mem_append_right _ hk)]; decide]
  rfl

theorem OnlyPhrase.filter {ty : PType} {ks : List Node} {x : Node} (h : OnlyPhrase ty ks x) :
    ks.filter (fun k => typ? k = some ty) = [x] := by
  obtain ⟨pre, post, rfl, hx, hn⟩ := h
  exact filter_only (by simpa using (typ_iff _ _).2 hx) fun k hk => by simpa using fun hh => hn k hk ((typ_iff _ _).1 hh)

theorem NoPhrase.filter {ty : PType} {ks : List Node} (h : NoPhrase ty ks) :
    ks.filter (fun k => typ? k = some ty) = [] :=
  List.filter_eq_nil_iff.2 fun k hk => by simpa using fun hh => h k hk ((typ_iff _ _).1 hh)

/-- The last assignment, if there is exactly one. -/
theorem lastOf_only {α : Type} {f : Node → Option α} {pre post : List Node} {x : Node} {a : α} (d : α)
    (hx : f x = some a) (h : ∀ k ∈ pre ++ post, f k = none) : lastOf f (pre ++ x :: post) d = a := by
  unfold lastOf
  rw [List.filterMap_append, List.filterMap_cons_some hx]
  rw [List.filterMap_eq_nil_iff.2 fun k hk => h k (List.mem_append_left _ hk)]
  rw [List.filterMap_eq_nil_iff.2 fun k hk => h k (List.mem_append_right _ hk)]
  rfl

/-- No assignment. -/
theorem lastOf_none {α : Type} {f : Node → Option α} {ks : List Node} (d : α) (h : ∀ k ∈ ks, f k = none) :
    lastOf f ks d = d := by
  unfold lastOf
  rw [List.filterMap_eq_nil_iff.2 h]
  rfl

theorem tokText_of {c : Ctx} {ty : TokType} {t : Tok} (h : t.type = ty) : tokText? c ty (.tok t) = some (c.tokText t) := by
  simp [tokText?, h]

theorem tokText_none {c : Ctx} {ty : TokType} {k : Node} (h : ¬ IsToken ty k) : tokText? c ty k = none := by
  cases k with
  | tok t =>
    unfold tokText?
    exact if_neg fun ht => h ⟨t, rfl, ht⟩
  | phr _ _ => rfl
  | err _ => rfl

theorem OnlyToken.text {c : Ctx} {ty : TokType} {ks : List Node} {t : Tok} (h : OnlyToken ty ks t) (d : Bytes) :
    lastOf (tokText? c ty) ks d = c.tokText t := by
  obtain ⟨pre, post, rfl, ht, hn⟩ := h
  exact lastOf_only d (tokText_of ht) fun k hk => tokText_none (hn k hk)

theorem OnlyToken.range {env : Env} {ty : TokType} {ks : List Node} {t : Tok} (h : OnlyToken ty ks t) :
    lastRange env (fun k => tokType? k = some ty) ks = env.ctx.range (.tok t) := by
  obtain ⟨pre, post, rfl, ht, hn⟩ := h
  refine lastOf_only _ (by simp [tokType?, ht]) fun k hk => ?_
  have := hn k hk
  rw [← tokType_iff] at this
  simp [this]

theorem OnlyPhrase.last {α : Type} {ty : PType} {ks : List Node} {x : Node} (h : OnlyPhrase ty ks x) (f : Node → α)
    (d : α) : lastOf (fun k => if typ? k = some ty then some (f k) else none) ks d = f x := by
  obtain ⟨pre, post, rfl, hx, hn⟩ := h
  refine lastOf_only d (by simp [(typ_iff _ _).2 hx]) fun k hk => ?_
  have := hn k hk
  rw [← typ_iff] at this
  simp [this]

theorem NoPhrase.last {α : Type} {ty : PType} {ks : List Node} (h : NoPhrase ty ks) (f : Node → α)
    (d : α) : lastOf (fun k => if typ? k = some ty then some (f k) else none) ks d = d := by
  refine lastOf_none d fun k hk => ?_
  have := h k hk
  rw [← typ_iff] at this
  simp [this]

theorem Listed.filter {ty : PType} {ks es : List Node} (h : Listed ty ks es) :
    ks.filter (fun k => typ? k = some ty) = es := by
  induction h with
  | nil => rfl
  | take hk _ ih => rw [List.filter_cons_of_pos (by simpa using (typ_iff _ _).2 hk), ih]
  | skip hk _ ih => rw [List.filter_cons_of_neg (by simpa using fun hh => hk ((typ_iff _ _).1 hh)), ih]

theorem forall₂_map_right {α β : Type} {R : α → β → Prop} (f : α → β) (h : ∀ a, R a (f a)) :
    (l : List α) → List.Forall₂ R l (l.map f)
  | [] => .nil
  | a :: l => .cons (h a) (forall₂_map_right f h l)

theorem foldl_skip {α : Type} {f : α → Node → α} {ks : List Node} {s : α} (h : ∀ k ∈ ks, ∀ s, f s k = s) :
    ks.foldl f s = s := by
  induction ks generalizing s with
  | nil => rfl
  | cons k ks ih =>
    rw [List.foldl_cons, h k List.mem_cons_self]
    exact ih fun k' hk' => h k' (List.mem_cons_of_mem _ hk')

/-- A loop in which only one child does something. -/
theorem foldl_only {α : Type} {f : α → Node → α} {pre post : List Node} {x : Node} {s : α}
    (h : ∀ k ∈ pre ++ post, ∀ s, f s k = s) : (pre ++ x :: post).foldl f s = f s x := by
  rw [List.foldl_append, foldl_skip fun k hk => h k (List.mem_append_left _ hk), List.foldl_cons,
    foldl_skip fun k hk => h k (List.mem_append_right _ hk)]

theorem noSuffix_of {s : Bytes} (h : ¬ b!"]" <:+ s) : ¬ b!"[]" <:+ s := by
  rintro ⟨a, rfl⟩
  exact h ⟨a ++ b!"[", by simp [List.append_assoc]⟩

theorem tyOf_plain {s : Bytes} (h0 : s ≠ []) (h1 : s ≠ b!"boolean") (h2 : s ≠ b!"integer") (h3 : ¬ b!"]" <:+ s) :
    Analyser.tyOf s = ⟨s, s, 0⟩ := by
  have := Types.newTypeString_spec s (noSuffix_of h3) h0 (by rintro rfl; exact h3 ⟨[], rfl⟩) 0
  unfold Analyser.tyOf
  rw [show s ++ Types.suffixes 0 = s by simp [Types.suffixes]] at this
  rw [this, Types.aliasOf, if_neg h1, if_neg h2]
  rfl

theorem ordinary_name (ns s : Bytes) (h : Ordinary s) :
    ((Analyser.tyOf s).setNamespace ns).fqn = Imports.inNamespace ns s := by
  obtain ⟨h0, hn, h1, h2, hf, h3⟩ := h
  rw [tyOf_plain h0 h1 h2 h3]
  have : Types.isFQN s = false := by
    unfold Types.isFQN
    cases s with
    | nil => rfl
    | cons c s =>
      simp only [Bool.or_eq_false_iff]
      refine ⟨by simpa using hn, ?_⟩
      unfold Imports.FullyQualified at hf
      simpa using hf
  unfold Types.Ty.setNamespace Imports.inNamespace
  rw [if_neg (by rw [this]; decide)]
  split <;> rfl

theorem follows_php (table : Imports.Table) (text : Bytes) :
    FollowsPHP table text (table.getClassReferenceFQN (Analyser.tyOf text)).1 := by
  intro h0 h1 h2 h3 h4 h5 h6
  rw [tyOf_plain h0 h1 h2 h3]
  exact Imports.C26_php_partial table _ h4 h5 h6

end Verif.Decl
