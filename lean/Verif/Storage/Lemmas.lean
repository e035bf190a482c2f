import Verif.Storage.Spec

namespace Verif.Storage

theorem toNat_eq {a b : UInt8} (h1 : ¬ a.toNat < b.toNat) (h2 : ¬ b.toNat < a.toNat) : a = b :=
  UInt8.toNat_inj.mp (by omega)

theorem bLt_irrefl (a : Bytes) : bLt a a = false := by
  induction a with
  | nil => rfl
  | cons x xs ih => simp [bLt, ih]

theorem bLt_trans {a b c : Bytes} (h1 : bLt a b = true) (h2 : bLt b c = true) : bLt a c = true := by
  induction a generalizing b c with
  | nil => cases b <;> cases c <;> simp_all [bLt]
  | cons x xs ih =>
    cases b with
    | nil => simp [bLt] at h1
    | cons y ys =>
      cases c with
      | nil => simp [bLt] at h2
      | cons z zs =>
        simp only [bLt] at *
        split at h1
        · split at h2
          · rw [if_pos (by omega)]
          · split at h2
            · cases h2
            · rw [if_pos (by omega)]
        · split at h1
          · cases h1
          · split at h2
            · rw [if_pos (by omega)]
            · split at h2
              · cases h2
              · rw [if_neg (by omega), if_neg (by omega)]
                exact ih h1 h2

theorem bLt_asymm {a b : Bytes} (h : bLt a b = true) : bLt b a = false := by
  cases hb : bLt b a with
  | false => rfl
  | true => have := bLt_trans h hb; rw [bLt_irrefl] at this; cases this

theorem bLt_total {a b : Bytes} (h : bLt a b = false) (hne : a ≠ b) : bLt b a = true := by
  induction a generalizing b with
  | nil => cases b <;> simp_all [bLt]
  | cons x xs ih =>
    cases b with
    | nil => simp [bLt]
    | cons y ys =>
      simp only [bLt] at *
      split at h
      · cases h
      · split at h
        · simp [*]
        · rename_i h1 h2
          rw [if_neg h2, if_neg h1]
          have : x = y := toNat_eq h1 h2
          subst this
          exact ih h (fun e => hne (by rw [e]))

theorem hasPrefix_iff {p k : Bytes} : hasPrefix p k = true ↔ p <+: k := by
  induction p generalizing k with
  | nil => simp [hasPrefix]
  | cons x xs ih =>
    cases k with
    | nil => simp [hasPrefix]
    | cons y ys => simp [hasPrefix, ih, List.cons_prefix_cons]

/-! ### get / put / del -/

theorem get_put (k v : Bytes) (m : Entries) (x : Bytes) :
    get x (put k v m) = if x = k then some v else get x m := by
  induction m with
  | nil => simp only [put, get]; split <;> split <;> simp_all
  | cons e t ih =>
    obtain ⟨k', v'⟩ := e
    simp only [put]
    split
    · subst k'
      simp only [get]; grind
    · split
      · simp only [get]; grind
      · simp only [get, ih]; grind

theorem get_del (k : Bytes) (m : Entries) (x : Bytes) :
    get x (del k m) = if x = k then none else get x m := by
  induction m with
  | nil => simp [del, get]
  | cons e t ih =>
    obtain ⟨k', v'⟩ := e
    simp only [del] at *
    by_cases h : k' = k
    · subst h
      simp only [List.filter_cons, bne_self_eq_false, Bool.false_eq_true, if_false, ih, get]
      grind
    · have : (k' != k) = true := by simp [h]
      simp only [List.filter_cons, this, if_true, get, ih]
      grind

theorem put_sorted {k v : Bytes} {m : Entries} (h : Sorted m) : Sorted (put k v m) := by
  have mem_put : ∀ (m : Entries) e, e ∈ put k v m → e = (k, v) ∨ e ∈ m := by
    intro m
    induction m with
    | nil => intro e he; simp [put] at he; simp [he]
    | cons a t ih =>
      obtain ⟨k', v'⟩ := a
      intro e he
      simp only [put] at he
      split at he
      · simp at he; rcases he with he | he <;> simp [he]
      · split at he
        · simpa using he
        · simp only [List.mem_cons] at he
          rcases he with he | he
          · simp [he]
          · rcases ih e he with h | h <;> simp [h]
  induction m with
  | nil => simp [put, Sorted]
  | cons e t ih =>
    obtain ⟨k', v'⟩ := e
    unfold Sorted at h
    rw [List.pairwise_cons] at h
    simp only [put]
    split
    · subst k'
      unfold Sorted
      rw [List.pairwise_cons]; exact h
    · split
      · rename_i hlt
        unfold Sorted
        rw [List.pairwise_cons, List.pairwise_cons]
        refine ⟨?_, h⟩
        intro e he
        simp only [List.mem_cons] at he
        rcases he with rfl | he
        · exact hlt
        · exact bLt_trans hlt (h.1 e he)
      · rename_i hne hnlt
        unfold Sorted
        rw [List.pairwise_cons]
        refine ⟨?_, ih h.2⟩
        intro e he
        rcases mem_put t e he with rfl | he
        · exact bLt_total (by simpa using hnlt) hne
        · exact h.1 e he

theorem filter_sorted {m : Entries} {p : Bytes × Bytes → Bool} (h : Sorted m) : Sorted (m.filter p) :=
  List.Pairwise.filter _ h

theorem del_sorted {k : Bytes} {m : Entries} (h : Sorted m) : Sorted (del k m) := filter_sorted h

theorem applyOps_sorted {m : Entries} {ops : List BOp} (h : Sorted m) : Sorted (applyOps m ops) := by
  induction ops generalizing m with
  | nil => exact h
  | cons o os ih =>
    simp only [applyOps, List.foldl_cons]
    refine ih ?_
    cases o
    · exact put_sorted h
    · exact del_sorted h

theorem get_applyOps (m : Entries) (ops : List BOp) (x : Bytes) :
    get x (applyOps m ops) = ops.foldl specB (fun y => get y m) x := by
  induction ops generalizing m with
  | nil => rfl
  | cons o os ih =>
    simp only [applyOps, List.foldl_cons] at *
    rw [ih]
    have : (fun y => get y (o.apply m)) = specB (fun y => get y m) o := by
      funext y
      cases o with
      | put k v => exact get_put k v m y
      | del k => exact get_del k m y
    rw [this]

theorem mem_iff_get {m : Entries} (h : Sorted m) (k v : Bytes) :
    (k, v) ∈ m ↔ get k m = some v := by
  induction m with
  | nil => simp [get]
  | cons e t ih =>
    obtain ⟨k', v'⟩ := e
    unfold Sorted at h
    rw [List.pairwise_cons] at h
    simp only [get, List.mem_cons, Prod.mk.injEq]
    split
    · rename_i hk
      subst hk
      constructor
      · rintro (⟨_, rfl⟩ | hm)
        · rfl
        · have := h.1 _ hm; rw [bLt_irrefl] at this; cases this
      · intro he; left; exact ⟨rfl, (Option.some.inj he).symm⟩
    · rename_i hk
      rw [ih h.2]
      constructor
      · rintro (⟨rfl, _⟩ | hm)
        · exact absurd rfl hk
        · exact hm
      · exact Or.inr

/-! ### iteration -/

theorem MemIt.loop_deliver {σ} (f : Consumer σ) (es : Entries) (cur : Bytes × Bytes) (n : Nat) (s : σ)
    (hn : es.length + 1 < n) :
    MemIt.loop f n ⟨es, cur, false, false⟩ s = deliver f (cur :: es) s := by
  induction es generalizing n cur s with
  | nil =>
    match n, hn with
    | n + 2, _ =>
      simp only [MemIt.loop, MemIt.valid, deliver, Bool.false_eq_true, if_false, if_true, Bool.false_or]
      cases hs : (f s cur).2
      · simp [MemIt.next]
      · simp [MemIt.next]
  | cons e es ih =>
    match n, hn with
    | n + 1, hn =>
      simp only [MemIt.loop, MemIt.valid, Bool.false_eq_true, if_false, if_true, Bool.false_or]
      rw [deliver]
      cases hs : (f s cur).2
      · simp only [MemIt.next, Bool.false_eq_true, if_false]
        exact ih _ _ _ (by simp at hn; omega)
      · simp only [MemIt.next, if_true]
        match n, hn with
        | n + 1, _ => simp [MemIt.loop, MemIt.valid]

theorem Memory.stream_deliver {σ} (m : Memory) (p : Bytes) (f : Consumer σ) (s : σ) (n : Nat)
    (hn : m.radix.length < n) :
    MemIt.loop f n (MemIt.new m p) s
      = deliver f (m.radix.filter (fun e => hasPrefix p e.1)) s := by
  have hl : (m.radix.filter (fun e => hasPrefix p e.1)).length ≤ m.radix.length :=
    List.length_filter_le _ _
  unfold MemIt.new
  generalize m.radix.filter (fun e => hasPrefix p e.1) = es at hl
  cases es with
  | nil =>
    match n, hn with
    | n + 1, _ => simp [MemIt.next, MemIt.loop, MemIt.valid, deliver]
  | cons e es =>
    simp only [MemIt.next, Bool.false_eq_true, if_false]
    by_cases hc : es.length + 1 < n
    · exact MemIt.loop_deliver f es e n s hc
    · simp at hl; omega

theorem LvlIt.loop_deliver {σ} (f : Consumer σ) (es : Entries) (n : Nat) (s : σ)
    (hn : es.length < n) : LvlIt.loop f n ⟨es, false⟩ s = deliver f es s := by
  induction es generalizing n s with
  | nil =>
    match n, hn with
    | n + 1, _ => simp [LvlIt.loop, LvlIt.valid, deliver]
  | cons e es ih =>
    match n, hn with
    | n + 1, hn =>
      simp only [LvlIt.loop, LvlIt.valid, List.headD_cons, deliver, LvlIt.next]
      by_cases hs : (f s e).2 = true
      · simp only [hs]
        match n, hn with
        | n + 1, _ => simp [LvlIt.loop, LvlIt.valid]
      · simp only [hs]
        simp
        exact ih _ _ (by simp at hn; omega)

/-- The key range of `BytesPrefix` contains exactly the keys with the prefix. -/
theorem inRange_iff {p k : Bytes} : inRange p (bytesPrefixLimit p) k = true ↔ p <+: k := by
  induction p generalizing k with
  | nil => cases k <;> simp [inRange, bytesPrefixLimit, bLt]
  | cons c cs ih =>
    cases k with
    | nil => simp [inRange, bLt]
    | cons x xs =>
      rw [List.cons_prefix_cons, ← ih]
      simp only [inRange, bytesPrefixLimit, bLt]
      by_cases hlt : c.toNat < x.toNat
      · have hne : c ≠ x := by intro h; subst h; omega
        simp only [hne, false_and, iff_false]
        cases hl : bytesPrefixLimit cs with
        | some l =>
          simp [bLt, show ¬ x.toNat < c.toNat by omega, hlt]
        | none =>
          by_cases hc : c.toNat < 255
          · have h1 : (c + 1).toNat = c.toNat + 1 := by
              rw [UInt8.toNat_add]; simp; omega
            have hle : c.toNat ≤ x.toNat := by omega
            simp only [hc, if_true, bLt, h1]
            by_cases h2 : c.toNat + 1 < x.toNat
            · simp [h2, show ¬ x.toNat < c.toNat by omega]; omega
            · have : x.toNat = c.toNat + 1 := by omega
              simp [this]
              cases xs <;> simp [bLt]
          · have := x.toNat_lt; omega
      · by_cases hgt : x.toNat < c.toNat
        · have hne : c ≠ x := by intro h; subst h; omega
          simp [hne, hgt]
        · have : c = x := toNat_eq hlt hgt
          subst this
          simp only [true_and]
          cases hl : bytesPrefixLimit cs with
          | some l => simp [bLt]
          | none =>
            by_cases hc : c.toNat < 255
            · have h1 : (c + 1).toNat = c.toNat + 1 := by
                rw [UInt8.toNat_add]; simp; omega
              simp [hc, bLt, h1]
            · simp [hc]

theorem LvlIt.new_it (m : LevelDB) (p : Bytes) :
    LvlIt.new m p = ⟨m.db.filter (fun e => hasPrefix p e.1), false⟩ := by
  unfold LvlIt.new
  split
  · congr 1
    apply List.filter_congr
    intro e _
    rw [Bool.eq_iff_iff, inRange_iff, hasPrefix_iff]
  · have : p = [] := by cases p <;> simp_all
    subst this
    congr 1
    exact (List.filter_eq_self.mpr (fun _ _ => by simp [hasPrefix])).symm

theorem LevelDB.stream_deliver {σ} (m : LevelDB) (p : Bytes) (f : Consumer σ) (s : σ) (n : Nat)
    (hn : m.db.length < n) :
    LvlIt.loop f n (LvlIt.new m p) s = deliver f (m.db.filter (fun e => hasPrefix p e.1)) s := by
  rw [LvlIt.new_it]
  exact LvlIt.loop_deliver f _ n s (Nat.lt_of_le_of_lt (List.length_filter_le _ _) hn)

theorem deliver_all {σ} (g : σ → Bytes × Bytes → σ) (es : Entries) (s : σ) :
    deliver (fun s e => (g s e, false)) es s = es.foldl g s := by
  induction es generalizing s with
  | nil => rfl
  | cons e es ih => simp [deliver, ih]

theorem LevelDB.clear_eq (m : LevelDB) : m.clear.db = [] := by
  have h1 : m.prefixStream [] (fun (acc : List BOp) e => (acc ++ [BOp.del e.1], false)) []
      = m.db.map (fun e => BOp.del e.1) := by
    unfold LevelDB.prefixStream
    rw [LevelDB.stream_deliver _ _ _ _ _ (by omega)]
    rw [deliver_all (fun (acc : List BOp) e => acc ++ [BOp.del e.1])]
    have : ∀ (es : Entries) (acc : List BOp),
        es.foldl (fun acc e => acc ++ [BOp.del e.1]) acc = acc ++ es.map (fun e => BOp.del e.1) := by
      intro es
      induction es with
      | nil => simp
      | cons e es ih => intro acc; simp [ih]
    rw [this, List.filter_eq_self.mpr (fun _ _ => by simp [hasPrefix])]
    rfl
  unfold LevelDB.clear
  rw [h1]
  simp only [LevelDB.writeBatch, if_true, applyOps, List.foldl_nil, List.foldl_map]
  have : ∀ (ks : Entries) (es : Entries), (∀ e ∈ es, ∃ k ∈ ks, k.1 = e.1) →
      ks.foldl (fun (x : Entries) y => BOp.apply x (BOp.del y.1)) es = [] := by
    intro ks
    induction ks with
    | nil => intro es h; cases es with
      | nil => rfl
      | cons e _ => obtain ⟨k, hk, _⟩ := h e (by simp); cases hk
    | cons k ks ih =>
      intro es h
      rw [List.foldl_cons]
      apply ih
      intro e he
      simp only [BOp.apply, del, List.mem_filter, bne_iff_ne, ne_eq] at he
      obtain ⟨k', hk', e'⟩ := h e he.1
      simp only [List.mem_cons] at hk'
      rcases hk' with rfl | hk'
      · exact absurd e'.symm he.2
      · exact ⟨k', hk', e'⟩
  exact this m.db m.db (fun e he => ⟨e, he, rfl⟩)

end Verif.Storage
