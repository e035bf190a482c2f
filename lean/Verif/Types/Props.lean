import Verif.Types.Model
import Verif.Common.Tactics

/-! C24 (type texts), C25 (unions are sets), C54 (unions and arrays). -/

namespace Verif.Types

/-! ## Type texts -/

/-- Specification: `k` array suffixes. -/
def suffixes : Nat → Bytes
  | 0 => []
  | k + 1 => suffixes k ++ b!"[]"

theorem suffixes_length (k : Nat) : (suffixes k).length = 2 * k := by
  induction k with
  | zero => rfl
  | succ k ih => simp [suffixes, ih]; omega

theorem suffixes_flatten (k : Nat) : (List.replicate k b!"[]").flatten = suffixes k := by
  induction k with
  | zero => rfl
  | succ k ih => rw [List.replicate_succ', List.flatten_append, ih]; rfl

/-- The text does not end with an array suffix. -/
def NoSuffix (b : Bytes) : Prop := ¬ b!"[]" <:+ b

theorem decompose (s : Bytes) : ∃ b k, s = b ++ suffixes k ∧ NoSuffix b := by
  induction hn : s.length using Nat.strongRecOn generalizing s with
  | ind n ih =>
    by_cases h : b!"[]" <:+ s
    · obtain ⟨t, rfl⟩ := h
      obtain ⟨b, k, e, hb⟩ := ih t.length (by subst hn; simp) t rfl
      exact ⟨b, k + 1, by rw [e, List.append_assoc]; rfl, hb⟩
    · exact ⟨s, 0, by simp [suffixes], h⟩

theorem two_suffix (b : Bytes) (n : Nat) (h : b.length = n + 2) (h1 : b[n + 1]? = some 93)
    (h0 : b[n]? = some 91) : b!"[]" <:+ b := by
  refine ⟨b.take n, ?_⟩
  apply List.ext_getElem?
  intro i
  by_cases hi : i < n
  · rw [List.getElem?_append_left (by simp; omega), List.getElem?_take_of_lt hi]
  · rw [List.getElem?_append_right (by simp; omega)]
    have e : i - (b.take n).length = i - n := by simp; omega
    rw [e]
    rcases Nat.lt_or_ge i (n + 2) with h2 | h2
    · rcases Nat.eq_or_lt_of_le (Nat.le_of_not_lt hi) with h3 | h3
      · subst h3; rw [h0]; simp
      · have : i = n + 1 := by omega
        subst this
        rw [h1]; simp
    · rw [List.getElem?_eq_none (by simp; omega), List.getElem?_eq_none (by omega)]

/-- What the loop finds in a text with `k` array suffixes. -/
theorem rawLoop_spec (b : Bytes) (hb : NoSuffix b) (k : Nat) (o : Bytes) (l : Int)
    (ho : b ++ suffixes k <+: o) :
    rawLoop o l (b.length + 2 * k) =
      if b = [] then some (none, l + k) else if b = b!"]" then none else some (some b, l + k) := by
  induction k generalizing l with
  | zero =>
    simp only [suffixes, List.append_nil] at ho
    have hg : ∀ i, i < b.length → o[i]? = b[i]? := by
      obtain ⟨r, rfl⟩ := ho
      intro i hi
      rw [List.getElem?_append_left hi]
    have ht : o.take b.length = b := by
      obtain ⟨r, rfl⟩ := ho; simp
    match hl : b.length with
    | 0 =>
      have : b = [] := List.length_eq_zero_iff.mp hl
      simp [this, rawLoop]
    | 1 =>
      obtain ⟨x, rfl⟩ := List.length_eq_one_iff.mp hl
      have h0 : o[0]? = some x := by rw [hg 0 (by simp)]; rfl
      have t1 : o.take 1 = [x] := ht
      simp only [rawLoop, h0, t1]
      by_cases hx : x = 93
      · subst hx; simp
      · simp [hx]
    | n + 2 =>
      have hne : b ≠ [] := by rintro rfl; simp at hl
      have hn1 : b ≠ b!"]" := by rintro rfl; simp at hl
      have t1 : o.take (n + 2) = b := by
        have := ht; rw [hl] at this; exact this
      have hc : o[n + 1]? ≠ some 93 ∨ o[n]? ≠ some 91 := by
        rw [hg (n + 1) (by omega), hg n (by omega)]
        by_contra hh
        rw [not_or, not_not, not_not] at hh
        exact hb (two_suffix b n hl hh.1 hh.2)
      rw [if_neg hne, if_neg hn1]
      show (if o[n + 1]? ≠ some 93 ∨ o[n]? ≠ some 91 then some (some (o.take (n + 2)), l)
          else rawLoop o (l + 1) n) = _
      rw [if_pos hc, t1]
      simp
  | succ k ih =>
    have e : b.length + 2 * (k + 1) = (b.length + 2 * k) + 2 := by omega
    have hp : b ++ suffixes k <+: o := by
      obtain ⟨r, rfl⟩ := ho
      exact ⟨b!"[]" ++ r, by simp [suffixes]⟩
    have hlen : (b ++ suffixes k).length = b.length + 2 * k := by simp [suffixes_length]
    have hg : o[b.length + 2 * k]? = some 91 ∧ o[b.length + 2 * k + 1]? = some 93 := by
      obtain ⟨r, rfl⟩ := ho
      have e2 : b ++ suffixes (k + 1) ++ r = (b ++ suffixes k) ++ (91 :: 93 :: r) := by simp [suffixes]
      rw [e2, List.getElem?_append_right (by omega), List.getElem?_append_right (by omega), hlen]
      simp
    rw [e]
    show (if o[b.length + 2 * k + 1]? ≠ some 93 ∨ o[b.length + 2 * k]? ≠ some 91
        then some (some (o.take (b.length + 2 * k + 2)), l)
        else rawLoop o (l + 1) (b.length + 2 * k)) = _
    rw [if_neg (by rw [hg.1, hg.2]; simp), ih (l + 1) hp]
    have e3 : l + 1 + (k : Int) = l + ((k + 1 : Nat) : Int) := by push_cast; omega
    rw [e3]

theorem aliasOf_cases (b : Bytes) : aliasOf b = b ∨ aliasOf b = b!"bool" ∨ aliasOf b = b!"int" := by
  unfold aliasOf
  split
  · right; left; rfl
  · split
    · right; right; rfl
    · left; rfl

theorem newTypeString_spec (b : Bytes) (hb : NoSuffix b) (h0 : b ≠ []) (h1 : b ≠ b!"]") (k : Nat) :
    newTypeString (b ++ suffixes k) = some { fqn := aliasOf b, original := aliasOf b, arrayLevel := k } := by
  have := rawLoop_spec b hb k (b ++ suffixes k) 0 (List.prefix_refl _)
  rw [if_neg h0, if_neg h1] at this
  unfold newTypeString
  rw [List.length_append, suffixes_length, this]
  simp

theorem suffixes_no (k : Nat) (c : UInt8) (h : c ∈ suffixes k) : c = 91 ∨ c = 93 := by
  induction k with
  | zero => simp [suffixes] at h
  | succ k ih =>
    rw [suffixes, List.mem_append] at h
    rcases h with h | h
    · exact ih h
    · simpa using h

/-- C24, parsing (partial: without the texts on which it fails, see `C24_fails_exactly`, and without texts
made of suffixes only, see `C24_false_no_base`): a text is its base name followed by `k` array suffixes;
parsing finds the base name (`boolean` and `integer` being other names of `bool` and `int`) and `k`;
printing gives the base name and the suffixes again, and parsing that gives the same type. -/
theorem C24_round_trip_partial (b : Bytes) (k : Nat) (hb : ¬ b!"[]" <:+ b) (h0 : b ≠ []) (h1 : b ≠ b!"]") :
    ∃ t, newTypeString (b ++ suffixes k) = some t ∧ t.original = aliasOf b ∧ t.arrayLevel = k ∧
      t.toBytes = aliasOf b ++ suffixes k ∧ newTypeString t.toBytes = some t := by
  have e : ({ fqn := aliasOf b, original := aliasOf b, arrayLevel := (k : Int) } : Ty).toBytes =
      aliasOf b ++ suffixes k := by
    simp [Ty.toBytes, suffixes_flatten]
  refine ⟨_, newTypeString_spec b hb h0 h1 k, rfl, rfl, e, ?_⟩
  rw [e]
  rcases aliasOf_cases b with ha | ha | ha
  · rw [ha, newTypeString_spec b hb h0 h1 k, ha]
  · rw [ha]
    exact newTypeString_spec b!"bool" (by unfold NoSuffix; decide) (by decide) (by decide) k
  · rw [ha]
    exact newTypeString_spec b!"int" (by unfold NoSuffix; decide) (by decide) (by decide) k

theorem suffixes_unique (b b' : Bytes) (k k' : Nat) (hb : NoSuffix b) (hb' : NoSuffix b')
    (e : b ++ suffixes k = b' ++ suffixes k') : b = b' ∧ k = k' := by
  induction k generalizing k' with
  | zero =>
    cases k' with
    | zero => exact ⟨by simpa [suffixes] using e, rfl⟩
    | succ k' =>
      refine absurd ⟨b' ++ suffixes k', ?_⟩ hb
      simpa [suffixes] using e.symm
  | succ k ih =>
    cases k' with
    | zero =>
      refine absurd ⟨b ++ suffixes k, ?_⟩ hb'
      simpa [suffixes] using e
    | succ k' =>
      have : (b ++ suffixes k) ++ b!"[]" = (b' ++ suffixes k') ++ b!"[]" := by simpa [suffixes] using e
      obtain ⟨h1, h2⟩ := ih k' (List.append_cancel_right this)
      exact ⟨h1, by omega⟩

/-- Every text is a base name followed by array suffixes, in one way only. -/
theorem C24_texts (s : Bytes) : ∃ b k, (s = b ++ suffixes k ∧ ¬ b!"[]" <:+ b) ∧
    ∀ b' k', s = b' ++ suffixes k' → ¬ b!"[]" <:+ b' → b' = b ∧ k' = k := by
  obtain ⟨b, k, e, h⟩ := decompose s
  exact ⟨b, k, ⟨e, h⟩, fun b' k' e' h' => suffixes_unique b' b k' k h' h (e'.symm.trans e)⟩

/-- C24: the element type of an array type is the type without its last suffix. -/
theorem C24_element (s : Bytes) (t : Ty) (h : newTypeString s = some t) (hs : s ≠ suffixes t.arrayLevel.toNat) :
    ∃ t', newTypeString (s ++ b!"[]") = some t' ∧ t'.dearray = (t, true) := by
  obtain ⟨b, k, rfl, hb⟩ := decompose s
  have r := rawLoop_spec b hb k (b ++ suffixes k) 0 (List.prefix_refl _)
  by_cases h0 : b = []
  · subst h0
    rw [if_pos rfl] at r
    unfold newTypeString at h
    rw [List.length_append, suffixes_length, r] at h
    simp only [Option.some.injEq] at h
    subst h
    simp at hs
  · by_cases h1 : b = b!"]"
    · rw [if_neg h0, if_pos h1] at r
      unfold newTypeString at h
      rw [List.length_append, suffixes_length, r] at h
      simp at h
    · rw [newTypeString_spec b hb h0 h1 k] at h
      have e : b ++ suffixes k ++ b!"[]" = b ++ suffixes (k + 1) := by simp [suffixes]
      refine ⟨_, by rw [e, newTypeString_spec b hb h0 h1 (k + 1)], ?_⟩
      simp only [Option.some.injEq] at h
      subst h
      unfold Ty.dearray
      rw [if_neg (by push_cast; omega)]
      simp

/-- C24: parsing fails (the server panics) exactly on the texts `]`, `][]`, `][][]`, … -/
theorem C24_fails_exactly (s : Bytes) : newTypeString s = none ↔ ∃ k, s = b!"]" ++ suffixes k := by
  have hb1 : NoSuffix b!"]" := by unfold NoSuffix; decide
  constructor
  · intro h
    obtain ⟨b, k, rfl, hb⟩ := decompose s
    have r := rawLoop_spec b hb k (b ++ suffixes k) 0 (List.prefix_refl _)
    unfold newTypeString at h
    rw [List.length_append, suffixes_length, r] at h
    by_cases h0 : b = []
    · rw [if_pos h0] at h; simp at h
    · rw [if_neg h0] at h
      by_cases h1 : b = b!"]"
      · exact ⟨k, by rw [h1]⟩
      · rw [if_neg h1] at h; simp at h
  · rintro ⟨k, rfl⟩
    have r := rawLoop_spec b!"]" hb1 k (b!"]" ++ suffixes k) 0 (List.prefix_refl _)
    unfold newTypeString
    rw [List.length_append, suffixes_length, r]
    rfl

/-- C24 is false: a documentation comment with the type `]` makes the server panic. -/
theorem C24_false_panic : newTypeString b!"]" = none := by decide +kernel

/-- C24 is false for a text of suffixes only: each round of printing and parsing doubles the depth. -/
theorem C24_false_no_base : ∃ t t', newTypeString b!"[]" = some t ∧ newTypeString t.toBytes = some t' ∧
    t.arrayLevel = 1 ∧ t'.arrayLevel = 2 := by
  refine ⟨⟨b!"[]", b!"[]", 1⟩, ⟨b!"[][]", b!"[][]", 2⟩, by decide +kernel, by decide +kernel, rfl, rfl⟩

example : newTypeString b!"boolean[][]" = some ⟨b!"bool", b!"bool", 2⟩ ∧ ¬ b!"[]" <:+ b!"boolean" ∧
    (⟨b!"bool", b!"bool", 2⟩ : Ty).toBytes = b!"bool[][]" := by decide +kernel

/-! ## Unions -/

/-- Specification: the entries of a list whose name has not occurred before. -/
def firsts (seen : List Bytes) : List Ty → List Ty
  | [] => []
  | t :: ts => if t.fqn ∈ seen then firsts seen ts else t :: firsts (seen ++ [t.fqn]) ts

/-- What may be done to a union. -/
inductive Op where
  | add (t : Ty)
  | merge (ts : Union)
  | mergeArray (ts : Union) (level : Int)

/-- The effect of an operation. -/
def Op.run (u : Union) : Op → Union
  | .add t => Types.add u t
  | .merge ts => Types.merge u ts
  | .mergeArray ts l => mergeWithArrayLevel u ts l

/-- Specification: the types an operation offers to the union. -/
def Op.offers : Op → List Ty
  | .add t => [t]
  | .merge ts => ts
  | .mergeArray ts l => ts.map fun t => { t with arrayLevel := t.arrayLevel + l }

theorem hasFQN_iff (u : Union) (n : Bytes) : hasFQN u n = true ↔ n ∈ u.map Ty.fqn := by
  simp [hasFQN, List.any_eq_true]

theorem foldl_add (ts u : Union) : ts.foldl add u = u ++ firsts (u.map Ty.fqn) ts := by
  induction ts generalizing u with
  | nil => simp [firsts]
  | cons t ts ih =>
    rw [List.foldl_cons, ih, firsts, add]
    by_cases h : hasFQN u t.fqn = true
    · rw [if_pos h, if_pos ((hasFQN_iff u t.fqn).mp h)]
    · rw [if_neg h, if_neg (fun hh => h ((hasFQN_iff u t.fqn).mpr hh))]
      simp

theorem Op.run_eq (u : Union) (o : Op) : o.run u = u ++ firsts (u.map Ty.fqn) o.offers := by
  cases o with
  | add t => exact foldl_add [t] u
  | merge ts => exact foldl_add ts u
  | mergeArray ts l =>
    have : mergeWithArrayLevel u ts l =
        (ts.map fun t => { t with arrayLevel := t.arrayLevel + l }).foldl Types.add u := by
      rw [List.foldl_map]; rfl
    show mergeWithArrayLevel u ts l = _
    rw [this, foldl_add]; rfl

theorem firsts_congr (a b : List Bytes) (h : ∀ x, x ∈ a ↔ x ∈ b) (ts : List Ty) : firsts a ts = firsts b ts := by
  induction ts generalizing a b with
  | nil => rfl
  | cons t ts ih =>
    simp only [firsts, h t.fqn]
    split
    · exact ih a b h
    · rw [ih (a ++ [t.fqn]) (b ++ [t.fqn]) (by simp [h])]

theorem firsts_append (seen : List Bytes) (a b : List Ty) :
    firsts seen (a ++ b) = firsts seen a ++ firsts (seen ++ (firsts seen a).map Ty.fqn) b := by
  induction a generalizing seen with
  | nil => simp [firsts]
  | cons t a ih =>
    simp only [List.cons_append, firsts]
    split
    · exact ih seen
    · rw [ih]; simp

theorem firsts_mem (seen : List Bytes) (ts : List Ty) (n : Bytes) :
    n ∈ (firsts seen ts).map Ty.fqn ↔ n ∈ ts.map Ty.fqn ∧ n ∉ seen := by
  induction ts generalizing seen with
  | nil => simp [firsts]
  | cons t ts ih =>
    rw [firsts]
    split
    · rename_i h
      rw [ih, List.map_cons, List.mem_cons]
      constructor
      · rintro ⟨a, b⟩; exact ⟨.inr a, b⟩
      · rintro ⟨a | a, b⟩
        · exact absurd (a ▸ h) b
        · exact ⟨a, b⟩
    · rename_i h
      rw [List.map_cons, List.mem_cons, ih, List.map_cons, List.mem_cons, List.mem_append, not_or,
        List.mem_singleton]
      constructor
      · rintro (a | ⟨a, b, _⟩)
        · exact ⟨.inl a, a ▸ h⟩
        · exact ⟨.inr a, b⟩
      · rintro ⟨a, b⟩
        by_cases e : n = t.fqn
        · exact .inl e
        · exact .inr ⟨a.resolve_left e, b, e⟩

theorem firsts_nodup (seen : List Bytes) (ts : List Ty) : ((firsts seen ts).map Ty.fqn).Nodup := by
  induction ts generalizing seen with
  | nil => simp [firsts]
  | cons t ts ih =>
    rw [firsts]
    split
    · exact ih seen
    · rw [List.map_cons, List.nodup_cons]
      refine ⟨?_, ih _⟩
      rw [firsts_mem]
      simp

theorem firsts_sublist (seen : List Bytes) (ts : List Ty) : (firsts seen ts).Sublist ts := by
  induction ts generalizing seen with
  | nil => simp [firsts]
  | cons t ts ih =>
    rw [firsts]
    split
    · exact (ih seen).cons t
    · exact (ih _).cons_cons t

theorem run_all (u : Union) (ops : List Op) :
    ops.foldl Op.run u = u ++ firsts (u.map Ty.fqn) (ops.flatMap Op.offers) := by
  induction ops generalizing u with
  | nil => simp [firsts]
  | cons o ops ih =>
    rw [List.foldl_cons, ih, Op.run_eq, List.flatMap_cons, firsts_append]
    simp

/-- C25: after any sequence of additions and merges, the union consists of the types offered whose name
was not offered before, in that order. -/
theorem C25_first_of_each_name (ops : List Op) :
    ops.foldl Op.run [] = firsts [] (ops.flatMap Op.offers) := by
  rw [run_all]; simp

/-- C25: the union lists no name twice, its entries are in the order of appearance, and it has exactly the
names offered. -/
theorem C25_set (ops : List Op) :
    ((ops.foldl Op.run []).map Ty.fqn).Nodup ∧
    (ops.foldl Op.run []).Sublist (ops.flatMap Op.offers) ∧
    ∀ n, n ∈ (ops.foldl Op.run []).map Ty.fqn ↔ ∃ o ∈ ops, ∃ t ∈ o.offers, t.fqn = n := by
  rw [C25_first_of_each_name]
  refine ⟨firsts_nodup _ _, firsts_sublist _ _, fun n => ?_⟩
  rw [firsts_mem]
  simp only [List.mem_map, List.mem_flatMap, List.not_mem_nil, not_false_eq_true, and_true]
  constructor
  · rintro ⟨t, ⟨o, ho, ht⟩, e⟩; exact ⟨o, ho, t, ht, e⟩
  · rintro ⟨o, ho, t, ht, e⟩; exact ⟨t, ⟨o, ho, ht⟩, e⟩

/-- C25: the first type offered under a name is the one kept. -/
theorem C25_first_kept (u : Union) (ops : List Op) : u <+: ops.foldl Op.run u := by
  rw [run_all]; exact List.prefix_append _ _

/-- C25: merging a union keeps every name of both sides and nothing else. -/
theorem C25_merge (u v : Union) (n : Bytes) :
    n ∈ (merge u v).map Ty.fqn ↔ n ∈ u.map Ty.fqn ∨ n ∈ v.map Ty.fqn := by
  have := foldl_add v u
  unfold merge
  rw [this, List.map_append, List.mem_append, firsts_mem]
  tauto

/-- C25: merging the same union twice changes nothing, nor does merging a union with itself. -/
theorem C25_merge_idempotent (u v : Union) : merge (merge u v) v = merge u v ∧ merge u u = u := by
  have key : ∀ a b : Union, (∀ n ∈ b.map Ty.fqn, n ∈ a.map Ty.fqn) → merge a b = a := by
    intro a b h
    unfold merge
    rw [foldl_add]
    have : firsts (a.map Ty.fqn) b = [] := by
      rw [List.eq_nil_iff_forall_not_mem]
      intro t ht
      have := (firsts_mem (a.map Ty.fqn) b t.fqn).mp (List.mem_map_of_mem ht)
      exact this.2 (h _ this.1)
    rw [this, List.append_nil]
  exact ⟨key _ _ fun n hn => (C25_merge u v n).mpr (.inr hn), key _ _ fun n hn => hn⟩

example : (([.add ⟨b!"\\A", b!"A", 0⟩, .merge [⟨b!"int", b!"int", 0⟩, ⟨b!"\\A", b!"A", 1⟩],
      .mergeArray [⟨b!"\\B", b!"B", 0⟩, ⟨b!"int", b!"int", 0⟩] 1] : List Op).foldl Op.run []) =
    [⟨b!"\\A", b!"A", 0⟩, ⟨b!"int", b!"int", 0⟩, ⟨b!"\\B", b!"B", 1⟩] := by decide +kernel

/-- C54 is false: a union of `A` and `A[]` is printed as `A` only. -/
theorem C54_false_array_lost : unionToBytes (merge [⟨b!"\\A", b!"A", 0⟩] [⟨b!"\\A", b!"A", 1⟩]) = b!"\\A" := by
  decide +kernel

theorem splitB_sep (sep : UInt8) (a r : Bytes) (h : sep ∉ a) : splitB sep (a ++ sep :: r) = a :: splitB sep r :=
  splitB_append sep a r h

theorem splitB_joinB (sep : UInt8) (l : List Bytes) (hl : l ≠ []) (h : ∀ x ∈ l, sep ∉ x) :
    splitB sep (joinB sep l) = l := by
  induction l with
  | nil => exact absurd rfl hl
  | cons a l ih =>
    match l, ih with
    | [], _ => simpa [joinB] using splitB_of_no_sep sep a (h a (by simp))
    | b :: l, ih =>
      show splitB sep (a ++ sep :: joinB sep (b :: l)) = _
      rw [splitB_append sep a _ (h a (by simp)), ih (by simp) (fun x hx => h x (by simp [hx]))]

/-- C54 (partial: names that are different; see `C54_false_array_lost`): the printed union, cut at `|`,
lists exactly the printed forms of the types offered first under each name, in order, leaving out empty
names. -/
theorem C54_printed_partial (ops : List Op)
    (hbar : ∀ o ∈ ops, ∀ t ∈ o.offers, (124 : UInt8) ∉ t.fqn)
    (hne : ∃ o ∈ ops, ∃ t ∈ o.offers, t.isEmpty = false) :
    splitB 124 (unionToBytes (ops.foldl Op.run [])) =
      ((firsts [] (ops.flatMap Op.offers)).filter fun t => !t.isEmpty).map Ty.toBytes := by
  rw [unionToBytes, C25_first_of_each_name]
  apply splitB_joinB
  · obtain ⟨o, ho, t, ht, he⟩ := hne
    have : t.fqn ∈ (firsts [] (ops.flatMap Op.offers)).map Ty.fqn := by
      rw [firsts_mem]
      exact ⟨List.mem_map_of_mem (List.mem_flatMap.mpr ⟨o, ho, ht⟩), by simp⟩
    obtain ⟨t', ht', e⟩ := List.mem_map.mp this
    intro hn
    rw [List.map_eq_nil_iff, List.filter_eq_nil_iff] at hn
    have := hn t' ht'
    rw [Ty.isEmpty, e] at this
    rw [Ty.isEmpty] at he
    rw [he] at this
    simp at this
  · intro x hx
    obtain ⟨t, ht, rfl⟩ := List.mem_map.mp hx
    have hm := (firsts_sublist _ _).mem (List.mem_filter.mp ht).1
    obtain ⟨o, ho, hto⟩ := List.mem_flatMap.mp hm
    intro hc
    rw [Ty.toBytes, suffixes_flatten, List.mem_append] at hc
    rcases hc with hc | hc
    · exact hbar o ho t hto hc
    · rcases suffixes_no _ _ hc with h | h <;> simp at h

/-- `Foo[]`, then `int|Bar`. -/
example : unionToBytes ([.add ⟨b!"\\Foo", b!"Foo", 1⟩,
      .merge [⟨b!"int", b!"int", 0⟩, ⟨b!"\\Bar", b!"Bar", 0⟩]].foldl Op.run []) = b!"\\Foo[]|int|\\Bar" := by
  decide +kernel

/-- The element type of `Foo[][]` is `Foo[]`. -/
example : ∃ t', newTypeString b!"Foo[][]" = some t' ∧ t'.dearray = (⟨b!"Foo", b!"Foo", 1⟩, true) :=
  C24_element b!"Foo[]" ⟨b!"Foo", b!"Foo", 1⟩ (by decide +kernel) (by decide +kernel)

end Verif.Types
