import Verif.Storage.Lemmas

/-!
Properties C04 (the store is a map), C05 (batches), C06 (prefix scans).
-/

namespace Verif.Storage

/-! ## C04 -/

theorem Memory.step_sorted (m : Memory) (op : Op) (h : Sorted m.radix) : Sorted (m.step op).radix := by
  cases op with
  | put k v => exact put_sorted h
  | delete k => exact del_sorted h
  | clear => exact List.Pairwise.nil
  | batch ops ok => cases ok <;> exact applyOps_sorted h

theorem LevelDB.step_sorted (m : LevelDB) (op : Op) (h : Sorted m.db) : Sorted (m.step op).db := by
  cases op with
  | put k v => exact put_sorted h
  | delete k => exact del_sorted h
  | clear => show Sorted m.clear.db; rw [LevelDB.clear_eq]; exact List.Pairwise.nil
  | batch ops ok => cases ok <;> exact applyOps_sorted h

/-- every reachable store is in key order -/
theorem Memory.run_sorted (h : List Op) : Sorted (Memory.run h).radix := by
  suffices ∀ m : Memory, Sorted m.radix → Sorted (h.foldl Memory.step m).radix from
    this _ List.Pairwise.nil
  induction h with
  | nil => intro m hm; exact hm
  | cons o os ih => intro m hm; exact ih _ (m.step_sorted o hm)

theorem LevelDB.run_sorted (h : List Op) : Sorted (LevelDB.run h).db := by
  suffices ∀ m : LevelDB, Sorted m.db → Sorted (h.foldl LevelDB.step m).db from
    this _ List.Pairwise.nil
  induction h with
  | nil => intro m hm; exact hm
  | cons o os ih => intro m hm; exact ih _ (m.step_sorted o hm)

/-- C04, memory store: after any history every key reads as the abstract map says. -/
theorem C04_memory_is_map (h : List Op) (k : Bytes) : (Memory.run h).get k = specRun h k := by
  suffices ∀ (m : Memory) (s : SMap), (∀ x, m.get x = s x) →
      ∀ x, (h.foldl Memory.step m).get x = h.foldl specOp s x from
    this Memory.new (fun _ => none) (fun _ => rfl) k
  induction h with
  | nil => intro m s hm; exact hm
  | cons o os ih =>
    intro m s hm
    apply ih
    have hm' : (fun y => get y m.radix) = s := funext hm
    intro x
    cases o with
    | put k v => exact (get_put k v m.radix x).trans (by simp [specOp, SMap.set, ← hm'])
    | delete k => exact (get_del k m.radix x).trans (by simp [specOp, SMap.set, ← hm'])
    | clear => rfl
    | batch ops ok =>
      cases ok with
      | true => exact (get_applyOps m.radix ops x).trans (by simp [specOp, hm'])
      | false => exact hm x

/-- C04, disk store. -/
theorem C04_leveldb_is_map (h : List Op) (k : Bytes) : (LevelDB.run h).get k = specRun h k := by
  suffices ∀ (m : LevelDB) (s : SMap), (∀ x, m.get x = s x) →
      ∀ x, (h.foldl LevelDB.step m).get x = h.foldl specOp s x from
    this LevelDB.new (fun _ => none) (fun _ => rfl) k
  induction h with
  | nil => intro m s hm; exact hm
  | cons o os ih =>
    intro m s hm
    apply ih
    have hm' : (fun y => get y m.db) = s := funext hm
    intro x
    cases o with
    | put k v => exact (get_put k v m.db x).trans (by simp [specOp, SMap.set, ← hm'])
    | delete k => exact (get_del k m.db x).trans (by simp [specOp, SMap.set, ← hm'])
    | clear => show get x m.clear.db = none; rw [LevelDB.clear_eq]; rfl
    | batch ops ok =>
      cases ok with
      | true => exact (get_applyOps m.db ops x).trans (by simp [specOp, hm'])
      | false => exact hm x

/-- the two back ends are indistinguishable by reads -/
theorem C04_backends_agree (h : List Op) (k : Bytes) : (Memory.run h).get k = (LevelDB.run h).get k := by
  rw [C04_memory_is_map, C04_leveldb_is_map]

/-- Operations that can change what key `k` reads as. -/
def Op.touches (k : Bytes) : Op → Bool
  | .put k' _ => k' == k
  | .delete k' => k' == k
  | .clear => true
  | .batch ops ok => ok && ops.any (fun o => match o with | .put k' _ => k' == k | .del k' => k' == k)

theorem spec_untouched (h : List Op) (s : SMap) (k : Bytes) (hu : ∀ o ∈ h, o.touches k = false) :
    h.foldl specOp s k = s k := by
  induction h generalizing s with
  | nil => rfl
  | cons o os ih =>
    rw [List.foldl_cons, ih _ (fun o ho => hu o (by simp [ho]))]
    have := hu o (by simp)
    cases o with
    | put k' v => simp [Op.touches] at this; simp [specOp, SMap.set]; intro h; exact absurd h.symm this
    | delete k' => simp [Op.touches] at this; simp [specOp, SMap.set]; intro h; exact absurd h.symm this
    | clear => simp [Op.touches] at this
    | batch ops ok =>
      cases ok with
      | false => rfl
      | true =>
        simp only [Op.touches, Bool.true_and] at this
        simp only [specOp, if_true]
        clear hu ih
        induction ops generalizing s with
        | nil => rfl
        | cons b bs ihb =>
          simp only [List.any_cons, Bool.or_eq_false_iff] at this
          rw [List.foldl_cons, ihb _ this.2]
          have hb := this.1
          cases b with
          | put k' v => simp at hb; simp [specB, SMap.set]; intro h; exact absurd h.symm hb
          | del k' => simp at hb; simp [specB, SMap.set]; intro h; exact absurd h.symm hb

/-- C04 in the words of the property: the latest write wins, whatever happened before it and
whatever happens to other keys after it; both for the memory and the disk store. -/
theorem C04_latest_put_wins (before after : List Op) (k v : Bytes)
    (hu : ∀ o ∈ after, o.touches k = false) :
    (Memory.run (before ++ .put k v :: after)).get k = some v ∧
    (LevelDB.run (before ++ .put k v :: after)).get k = some v := by
  rw [C04_memory_is_map, C04_leveldb_is_map]
  have : specRun (before ++ .put k v :: after) k = some v := by
    unfold specRun
    rw [List.foldl_append, List.foldl_cons, spec_untouched _ _ _ hu]
    simp [specOp, SMap.set]
  exact ⟨this, this⟩

theorem C04_deleted_is_gone (before after : List Op) (k : Bytes) (o : Op)
    (ho : o = .delete k ∨ o = .clear) (hu : ∀ o ∈ after, o.touches k = false) :
    (Memory.run (before ++ o :: after)).get k = none ∧
    (LevelDB.run (before ++ o :: after)).get k = none := by
  rw [C04_memory_is_map, C04_leveldb_is_map]
  have : specRun (before ++ o :: after) k = none := by
    unfold specRun
    rw [List.foldl_append, List.foldl_cons, spec_untouched _ _ _ hu]
    rcases ho with rfl | rfl <;> simp [specOp, SMap.set]
  exact ⟨this, this⟩

example : ∀ o ∈ [Op.put b!"b" b!"1", .delete b!"aa", .batch [.put b!"a" b!"2"] false],
    o.touches b!"a" = false := by decide

/-- The combined store: reads prefer memory, then disk; with only a memory store both modes are it. -/
theorem C04_combined_get (hm hd : List Op) (k : Bytes) :
    (Combined.mk (Memory.run hm) (LevelDB.run hd) false).getFromAll k
      = (specRun hm k).or (specRun hd k) ∧
    (Combined.mk (Memory.run hm) (LevelDB.run hd) false).get .memory k = specRun hm k ∧
    (Combined.mk (Memory.run hm) (LevelDB.run hd) false).get .disk k = specRun hd k ∧
    (Combined.mk (Memory.run hm) (LevelDB.run hd) true).getFromAll k = specRun hm k := by
  simp only [Combined.getFromAll, Combined.get, C04_memory_is_map, C04_leveldb_is_map]
  cases specRun hm k <;> simp

/-- A combined store driven by a history of operations, each aimed at one of the two modes. -/
def Combined.run (memOnly : Bool) (h : List (Mode × Op)) : Combined :=
  h.foldl (fun c e => c.step e.1 e.2) ⟨Memory.new, LevelDB.new, memOnly⟩

/-- The operations of a history aimed at mode `m`. -/
def aimedAt (m : Mode) (h : List (Mode × Op)) : List Op := (h.filter fun e => e.1 = m).map (·.2)

theorem Combined.run_parts (h : List (Mode × Op)) :
    (Combined.run false h).mem = Memory.run (aimedAt .memory h) ∧
    (Combined.run false h).disk = LevelDB.run (aimedAt .disk h) ∧
    (Combined.run false h).memOnly = false ∧
    (Combined.run true h).mem = Memory.run (h.map (·.2)) ∧
    (Combined.run true h).memOnly = true := by
  have h1 : ∀ (l : List (Mode × Op)) (m : Memory) (d : LevelDB),
      l.foldl (fun c e => Combined.step c e.1 e.2) ⟨m, d, false⟩ =
        ⟨(aimedAt .memory l).foldl Memory.step m, (aimedAt .disk l).foldl LevelDB.step d, false⟩ := by
    intro l
    induction l with
    | nil => intro m d; rfl
    | cons e es ih =>
      intro m d
      obtain ⟨mo, op⟩ := e
      rw [List.foldl_cons]
      cases mo
      · exact (ih (m.step op) d).trans (by simp [aimedAt])
      · exact (ih m (d.step op)).trans (by simp [aimedAt])
  have h2 : ∀ (l : List (Mode × Op)) (m : Memory) (d : LevelDB),
      l.foldl (fun c e => Combined.step c e.1 e.2) ⟨m, d, true⟩ =
        ⟨(l.map (·.2)).foldl Memory.step m, d, true⟩ := by
    intro l
    induction l with
    | nil => intro m d; rfl
    | cons e es ih =>
      intro m d
      rw [List.foldl_cons]
      exact ih (m.step e.2) d
  refine ⟨?_, ?_, ?_, ?_, ?_⟩
  · exact congrArg Combined.mem (h1 h Memory.new LevelDB.new)
  · exact congrArg Combined.disk (h1 h Memory.new LevelDB.new)
  · exact congrArg Combined.memOnly (h1 h Memory.new LevelDB.new)
  · exact congrArg Combined.mem (h2 h Memory.new LevelDB.new)
  · exact congrArg Combined.memOnly (h2 h Memory.new LevelDB.new)

/-- C04, the combined store over any history of writes in both modes: each mode reads back what was
written in that mode and nothing else, a read over both prefers memory, and with only a memory store
both modes are the same map. -/
theorem C04_combined_history (h : List (Mode × Op)) (k : Bytes) (m : Mode) :
    (Combined.run false h).get m k = specRun (aimedAt m h) k ∧
    (Combined.run false h).getFromAll k
      = (specRun (aimedAt .memory h) k).or (specRun (aimedAt .disk h) k) ∧
    (Combined.run true h).get m k = specRun (h.map (·.2)) k ∧
    (Combined.run true h).getFromAll k = specRun (h.map (·.2)) k := by
  obtain ⟨a, b, c, d, e⟩ := Combined.run_parts h
  simp only [Combined.get, Combined.getFromAll, a, b, c, d, e, C04_memory_is_map, C04_leveldb_is_map]
  refine ⟨by cases m <;> rfl, ?_, by simp, ?_⟩
  · cases specRun (aimedAt .memory h) k <;> simp
  · cases specRun (h.map (·.2)) k <;> simp

example : (Combined.run false [(.memory, .put b!"a" b!"1"), (.disk, .put b!"a" b!"2"),
    (.disk, .put b!"b" b!"3")]).getFromAll b!"a" = some b!"1" ∧
    (Combined.run false [(.memory, .put b!"a" b!"1"), (.disk, .put b!"a" b!"2"),
    (.disk, .put b!"b" b!"3")]).get .disk b!"a" = some b!"2" := by decide

/-! ## C05 -/

/-- C05: a failing batch changes nothing, a successful one acts as its operations in order. -/
theorem C05_memory_batch (m : Memory) (ops : List BOp) :
    m.writeBatch [] ops false = m ∧
    (∀ k, (m.writeBatch [] ops true).get k = ops.foldl specB m.get k) ∧
    (m.writeBatch [] ops true).radix = applyOps m.radix ops := by
  refine ⟨rfl, fun k => get_applyOps m.radix ops k, rfl⟩

theorem C05_leveldb_batch (m : LevelDB) (ops : List BOp) :
    m.writeBatch [] ops false = m ∧
    (∀ k, (m.writeBatch [] ops true).get k = ops.foldl specB m.get k) ∧
    (m.writeBatch [] ops true).db = applyOps m.db ops := by
  refine ⟨rfl, fun k => get_applyOps m.db ops k, rfl⟩

/-- A batch is the same as performing its operations one by one. -/
theorem C05_batch_is_sequence (before : List Op) (ops : List BOp) (k : Bytes) :
    (LevelDB.run (before ++ [.batch ops true])).get k =
    (LevelDB.run (before ++ ops.map (fun o => match o with | .put k v => Op.put k v | .del k => .delete k))).get k ∧
    (LevelDB.run (before ++ [.batch ops false])).get k = (LevelDB.run before).get k := by
  simp only [C04_leveldb_is_map, specRun, List.foldl_append, List.foldl_cons, List.foldl_nil, specOp,
    Bool.false_eq_true, if_false, if_true, List.foldl_map, and_true]
  generalize List.foldl specOp (fun _ => none) before = s
  induction ops generalizing s with
  | nil => rfl
  | cons o os ih =>
    rw [List.foldl_cons, List.foldl_cons]
    cases o <;> exact ih _

/-- Operations collected in a batch win over direct writes made while it was being collected, and
the direct writes to other keys survive: true of the disk store ... -/
theorem C05_leveldb_direct_writes_survive (m : LevelDB) (during ops : List BOp) (k : Bytes) :
    (m.writeBatch during ops true).get k = ops.foldl specB (during.foldl specB m.get) k := by
  have := get_applyOps (applyOps m.db during) ops k
  rw [show (fun y => get y (applyOps m.db during)) = during.foldl specB m.get from
    funext fun y => get_applyOps m.db during y] at this
  exact this

/-- ... but false of the memory store: a direct write made while a batch is collected is lost. -/
theorem C05_false_memory_direct_write_lost :
    ¬ ∀ (m : Memory) (during ops : List BOp) (k : Bytes),
      (m.writeBatch during ops true).get k = ops.foldl specB (during.foldl specB m.get) k := by
  intro h
  have := h Memory.new [.put b!"a" b!"1"] [.put b!"b" b!"2"] b!"a"
  revert this; decide

/-! ## C06 -/

/-- C06, memory store: for every reachable store and prefix there is one list, the entries with that
prefix in strictly ascending order, and every consumer sees exactly that list up to the entry at
which it calls `Stop`. The loop needs no more rounds than there are entries (it terminates). -/
theorem C06_memory_prefix_scan (h : List Op) (p : Bytes) :
    ∃ L : Entries, Sorted L ∧
      (∀ k v, (k, v) ∈ L ↔ specRun h k = some v ∧ p <+: k) ∧
      (∀ {σ : Type} (f : Consumer σ) (s : σ), (Memory.run h).prefixStream p f s = deliver f L s) ∧
      (∀ {σ : Type} (f : Consumer σ) (s : σ) (n : Nat), (Memory.run h).radix.length < n →
        MemIt.loop f n (MemIt.new (Memory.run h) p) s = deliver f L s) := by
  refine ⟨(Memory.run h).radix.filter (fun e => hasPrefix p e.1), filter_sorted (Memory.run_sorted h),
    ?_, ?_, ?_⟩
  · intro k v
    rw [List.mem_filter, mem_iff_get (Memory.run_sorted h), hasPrefix_iff, ← C04_memory_is_map]
    rfl
  · intro σ f s
    exact Memory.stream_deliver _ _ _ _ _ (by omega)
  · intro σ f s n hn
    exact Memory.stream_deliver _ _ _ _ _ hn

/-- C06, disk store (including the 0xff corner cases of the iterator's key range). -/
theorem C06_leveldb_prefix_scan (h : List Op) (p : Bytes) :
    ∃ L : Entries, Sorted L ∧
      (∀ k v, (k, v) ∈ L ↔ specRun h k = some v ∧ p <+: k) ∧
      (∀ {σ : Type} (f : Consumer σ) (s : σ), (LevelDB.run h).prefixStream p f s = deliver f L s) ∧
      (∀ {σ : Type} (f : Consumer σ) (s : σ) (n : Nat), (LevelDB.run h).db.length < n →
        LvlIt.loop f n (LvlIt.new (LevelDB.run h) p) s = deliver f L s) := by
  refine ⟨(LevelDB.run h).db.filter (fun e => hasPrefix p e.1), filter_sorted (LevelDB.run_sorted h),
    ?_, ?_, ?_⟩
  · intro k v
    rw [List.mem_filter, mem_iff_get (LevelDB.run_sorted h), hasPrefix_iff, ← C04_leveldb_is_map]
    rfl
  · intro σ f s
    exact LevelDB.stream_deliver _ _ _ _ _ (by omega)
  · intro σ f s n hn
    exact LevelDB.stream_deliver _ _ _ _ _ hn

/-- A consumer that records entries and stops at its `n`-th one. -/
def recorder (n : Nat) : Consumer Entries := fun acc e => (acc ++ [e], (acc ++ [e]).length ≥ n)

theorem deliver_recorder (n : Nat) (L acc : Entries) (ha : acc.length < n) :
    deliver (recorder n) L acc = acc ++ L.take (n - acc.length) := by
  induction L generalizing acc with
  | nil => simp [deliver]
  | cons e L ih =>
    simp only [deliver, recorder]
    by_cases hn : (acc ++ [e]).length ≥ n
    · have : n - acc.length = 1 := by simp at hn; omega
      simp only [hn, decide_true, if_true, this]
      simp
    · simp only [hn, decide_false, Bool.false_eq_true, if_false]
      have hl : (acc ++ [e]).length < n := by omega
      rw [ih _ hl]
      have : n - acc.length = (n - (acc ++ [e]).length) + 1 := by simp at hl ⊢; omega
      rw [this, List.take_succ_cons]
      simp

/-- C06: stopping at the `n`-th entry delivers exactly the first `n` (both stores agree), and never
stopping delivers all of them. -/
theorem C06_stop_after_n (h : List Op) (p : Bytes) :
    ∃ L : Entries, Sorted L ∧ (∀ k v, (k, v) ∈ L ↔ specRun h k = some v ∧ p <+: k) ∧
      (∀ n, 0 < n → (LevelDB.run h).prefixStream p (recorder n) [] = L.take n ∧
                     (Memory.run h).prefixStream p (recorder n) [] = L.take n) ∧
      (LevelDB.run h).prefixStream p (fun acc e => (acc ++ [e], false)) [] = L := by
  obtain ⟨L, hs, hm, hd, _⟩ := C06_leveldb_prefix_scan h p
  obtain ⟨L', hs', hm', hd', _⟩ := C06_memory_prefix_scan h p
  have hLL : L = L' := by
    -- two sorted lists with the same members are equal
    have ext : ∀ (A B : Entries), Sorted A → Sorted B → (∀ e, e ∈ A ↔ e ∈ B) → A = B := by
      intro A
      induction A with
      | nil => intro B _ _ h; cases B with
        | nil => rfl
        | cons b B => have := (h b).2 (by simp); cases this
      | cons a A ih =>
        intro B hA hB hAB
        cases B with
        | nil => have := (hAB a).1 (by simp); cases this
        | cons b B =>
          unfold Sorted at hA hB
          rw [List.pairwise_cons] at hA hB
          have hab : a = b := by
            rcases List.mem_cons.mp ((hAB a).1 (by simp)) with h1 | h1
            · exact h1
            · rcases List.mem_cons.mp ((hAB b).2 (by simp)) with h2 | h2
              · exact h2.symm
              · have := bLt_asymm (hB.1 a h1); rw [hA.1 b h2] at this; cases this
          subst hab
          congr 1
          apply ih _ hA.2 hB.2
          intro e
          constructor
          · intro he
            rcases List.mem_cons.mp ((hAB e).1 (by simp [he])) with h1 | h1
            · subst h1; have := hA.1 e he; rw [bLt_irrefl] at this; cases this
            · exact h1
          · intro he
            rcases List.mem_cons.mp ((hAB e).2 (by simp [he])) with h1 | h1
            · subst h1; have := hB.1 e he; rw [bLt_irrefl] at this; cases this
            · exact h1
    exact ext _ _ hs hs' (fun e => (hm e.1 e.2).trans (hm' e.1 e.2).symm)
  subst hLL
  refine ⟨L, hs, hm, ?_, ?_⟩
  · intro n hn
    rw [hd, hd', deliver_recorder n L [] (by simpa using hn)]
    simp
  · rw [hd, deliver_all (fun (acc : Entries) e => acc ++ [e])]
    have : ∀ (es acc : Entries), es.foldl (fun acc e => acc ++ [e]) acc = acc ++ es := by
      intro es
      induction es with
      | nil => simp
      | cons e es ih => intro acc; simp [ih]
    simp [this]

/-- Non-vacuity: a history with keys around the prefix boundary, scanned with a prefix ending in
0xff. -/
example : (LevelDB.run [.put [97, 255] b!"1", .put [97, 255, 0] b!"2", .put [98] b!"3", .put [97] b!"4",
      .put [97, 254, 255] b!"5"]).prefixStream [97, 255] (fun acc e => (acc ++ [e.2], false)) []
    = [b!"1", b!"2"] := by decide

/-- A scan of both stores of a combined store visits memory first, then disk; a key present in both
is delivered twice, and `Stop` only ends the part it was called in. -/
theorem C06_false_combined_exactly_once :
    ¬ ∀ (c : Combined) (p : Bytes),
      ((c.prefixStreamFromAll p (fun (acc : List Bytes) e => (acc ++ [e.1], false)) []).Nodup) := by
  intro h
  have := h ⟨Memory.run [.put b!"a" b!"1"], LevelDB.run [.put b!"a" b!"2"], false⟩ b!"a"
  revert this; decide

end Verif.Storage
