import Verif.Store.Inv

/-! The reference index: invariant over every history, including restarts. -/

namespace Verif.Store

open Verif.Encoding Verif.Storage

/-! ### maps and filters -/

theorem RefMap.find_nil (k : Bytes) : RefMap.find [] k = none := rfl

theorem RefMap.find_cons (e : Bytes × Filter) (m : RefMap) (k : Bytes) :
    RefMap.find (e :: m) k = if e.1 = k then some e.2 else RefMap.find m k := by
  unfold RefMap.find
  by_cases h : e.1 = k <;> simp [List.find?_cons, h]

theorem RefMap.find_none {m : RefMap} {k : Bytes} : m.find k = none ↔ ∀ e ∈ m, e.1 ≠ k := by
  induction m with
  | nil => simp [RefMap.find_nil]
  | cons e m ih => rw [RefMap.find_cons]; by_cases h : e.1 = k <;> simp [h, ih]

theorem RefMap.find_mem {m : RefMap} {k : Bytes} {f : Filter} (h : m.find k = some f) : (k, f) ∈ m := by
  induction m with
  | nil => simp [RefMap.find_nil] at h
  | cons e m ih =>
    rw [RefMap.find_cons] at h
    by_cases he : e.1 = k
    · rw [if_pos he] at h; cases h; subst he; simp
    · rw [if_neg he] at h; simp [ih h]

theorem RefMap.find_of_mem {m : RefMap} {k : Bytes} {f : Filter} (hn : (m.map (·.1)).Nodup)
    (h : (k, f) ∈ m) : m.find k = some f := by
  induction m with
  | nil => simp at h
  | cons e m ih =>
    simp only [List.map_cons, List.nodup_cons] at hn
    rw [RefMap.find_cons]
    simp only [List.mem_cons] at h
    rcases h with rfl | h
    · simp
    · rw [if_neg, ih hn.2 h]
      intro e'
      exact hn.1 (List.mem_map.mpr ⟨(k, f), h, e'.symm⟩)

theorem RefMap.any_iff {m : RefMap} {k : Bytes} : (m.any fun e => e.1 == k) = true ↔ k ∈ m.map (·.1) := by
  simp [List.any_eq_true]

theorem RefMap.set_keys (m : RefMap) (k : Bytes) (f : Filter) :
    (m.set k f).map (·.1) = if k ∈ m.map (·.1) then m.map (·.1) else m.map (·.1) ++ [k] := by
  unfold RefMap.set
  by_cases h : k ∈ m.map (·.1)
  · rw [if_pos (RefMap.any_iff.mpr h), if_pos h, List.map_map]
    apply List.map_congr_left
    intro e _
    by_cases he : e.1 = k <;> simp [he]
  · rw [if_neg (fun h' => h (RefMap.any_iff.mp h')), if_neg h]; simp

theorem RefMap.set_nodup {m : RefMap} {k : Bytes} {f : Filter} (h : (m.map (·.1)).Nodup) :
    ((m.set k f).map (·.1)).Nodup := by
  rw [RefMap.set_keys]
  split
  · exact h
  · rename_i hk
    rw [List.nodup_append]
    refine ⟨h, by simp, ?_⟩
    intro a ha b hb
    simp only [List.mem_singleton] at hb
    subst hb
    rintro rfl
    exact hk ha

theorem RefMap.find_set (m : RefMap) (k : Bytes) (f : Filter) (k' : Bytes) :
    (m.set k f).find k' = if k' = k then some f else m.find k' := by
  have aux : ∀ m : RefMap, RefMap.find (m.map fun e => if e.1 == k then (k, f) else e) k' =
      if k' = k then (if k ∈ m.map (·.1) then some f else none) else m.find k' := by
    intro m
    induction m with
    | nil => simp [RefMap.find_nil]
    | cons e m ih =>
      rw [List.map_cons, RefMap.find_cons, ih, RefMap.find_cons]
      by_cases h1 : e.1 = k <;> by_cases h2 : k' = k
      · subst h2; simp [h1]
      · simp [h1, h2, Ne.symm h2]
      · subst h2
        have : (k' ∈ (e :: m).map (·.1)) ↔ (k' ∈ m.map (·.1)) := by
          rw [List.map_cons, List.mem_cons]; exact ⟨fun h => h.resolve_left (Ne.symm h1), .inr⟩
        simp only [this]; simp [h1]
      · simp [h1, h2]
  unfold RefMap.set
  by_cases h : k ∈ m.map (·.1)
  · rw [if_pos (RefMap.any_iff.mpr h), aux, if_pos h]
  · rw [if_neg (fun h' => h (RefMap.any_iff.mp h'))]
    have hk : ∀ e ∈ m, e.1 ≠ k := fun e he e' => h (List.mem_map.mpr ⟨e, he, e'⟩)
    clear h aux
    induction m with
    | nil => simp [RefMap.find_cons, RefMap.find_nil, eq_comm]
    | cons e m ih =>
      rw [List.cons_append, RefMap.find_cons, RefMap.find_cons, ih fun e he => hk e (by simp [he])]
      have := hk e (by simp)
      by_cases h2 : k' = k
      · subst h2; simp [this]
      · simp [h2]

theorem RefMap.mem_set {m : RefMap} {k : Bytes} {f : Filter} {e : Bytes × Filter} (h : e ∈ m.set k f) :
    e = (k, f) ∨ (e ∈ m ∧ e.1 ≠ k) := by
  unfold RefMap.set at h
  split at h
  · obtain ⟨e', he', rfl⟩ := List.mem_map.mp h
    by_cases hk : e'.1 = k
    · simp [hk]
    · simp [hk, he']
  · rename_i hn
    simp only [List.mem_append, List.mem_singleton] at h
    rcases h with h | h
    · right
      refine ⟨h, ?_⟩
      intro e'
      exact hn (RefMap.any_iff.mpr (List.mem_map.mpr ⟨e, h, e'⟩))
    · exact .inl h

/-- A filter as it is between operations. -/
def FOK (f : Filter) : Prop :=
  f.isCommited = true ∧ f.buffer = [] ∧ ∀ h, f.head = some h → Str h.fingerprints

theorem filterDecode_encode {f : Filter} (h : FOK f) : filterDecode f.encode = some f := by
  obtain ⟨c, hd, b⟩ := f
  obtain ⟨h1, h2, h3⟩ := h
  simp only at h1 h2 h3
  subst h1 h2
  cases hd with
  | none => rfl
  | some x =>
    show filterDecode (writeUInt64 x.seed ++ writeUInt32 x.blockLength ++ writeString x.fingerprints) = _
    unfold filterDecode
    have hl : (writeUInt64 x.seed ++ writeUInt32 x.blockLength ++ writeString x.fingerprints).length ≠ 0 := by
      simp [writeUInt64, leBytes_length]
    rw [if_neg hl, List.append_assoc, readUInt64_reads x.seed]
    simp only [Option.bind_eq_bind, Option.bind_some]
    rw [readUInt32_reads x.blockLength]
    have hs := readString_reads x.fingerprints (h3 x rfl) []
    rw [List.append_nil] at hs
    rw [Option.bind_some]
    simp only [hs]
    rfl

theorem insert_buffer (f : Filter) (is : List (Bytes × Range)) :
    is.foldl (fun f i => f.insert i.1) f = { f with buffer := f.buffer ++ is.map (·.1) } := by
  induction is generalizing f with
  | nil => simp
  | cons i is ih => rw [List.foldl_cons, ih]; simp [Filter.insert]

theorem eraseDups_ne_nil {l : List Bytes} (h : l ≠ []) : l.eraseDups ≠ [] := by
  cases l with
  | nil => exact absurd rfl h
  | cons a l => simp [List.eraseDups_cons]

/-- The filter written when a file is indexed. -/
def newFilter (env : Env) (root : Bytes) (m : RefMap) (uri : Bytes) (infos : List (Bytes × Range)) : Filter :=
  (infos.foldl (fun f i => f.insert i.1) ((m.find (canonicaliseURI root uri)).getD Filter.new)).commit env

theorem newFilter_ok {env : Env} {root : Bytes} {m : RefMap} {uri : Bytes} {infos : List (Bytes × Range)}
    (hm : ∀ e ∈ m, FOK e.2) (hs : ∀ ks h, env.populate ks = some h → Str h.fingerprints) :
    FOK (newFilter env root m uri infos) := by
  unfold newFilter
  rw [insert_buffer]
  unfold Filter.commit
  have hb : ((m.find (canonicaliseURI root uri)).getD Filter.new).buffer = [] ∧
      ∀ h, ((m.find (canonicaliseURI root uri)).getD Filter.new).head = some h → Str h.fingerprints := by
    cases hf : m.find (canonicaliseURI root uri) with
    | none => exact ⟨rfl, fun h hh => by simp [Filter.new] at hh⟩
    | some f => exact (hm _ (RefMap.find_mem hf)).2
  split
  · rename_i hl
    exact ⟨rfl, List.length_eq_zero_iff.mp hl, hb.2⟩
  · exact ⟨rfl, rfl, fun h hh => hs _ h hh⟩

theorem newFilter_lookup {env : Env} {root : Bytes} {m : RefMap} {uri : Bytes}
    {infos : List (Bytes × Range)} (hf : env.FilterOK) (hm : ∀ e ∈ m, FOK e.2) :
    ∀ r ∈ infos, (newFilter env root m uri infos).lookup env r.1 = true := by
  intro r hr
  unfold newFilter
  rw [insert_buffer]
  unfold Filter.commit
  have hb : ((m.find (canonicaliseURI root uri)).getD Filter.new).buffer = [] := by
    cases hf : m.find (canonicaliseURI root uri) with
    | none => rfl
    | some f => exact (hm _ (RefMap.find_mem hf)).2.1
  simp only [hb, List.nil_append, List.length_map]
  have hne : infos ≠ [] := by rintro rfl; simp at hr
  rw [if_neg (by simpa using hne)]
  obtain ⟨h, h1, h2⟩ := hf.populate (infos.map (·.1)).eraseDups (eraseDups_ne_nil (by simpa using hne))
  simp only [Filter.lookup, h1, Bool.true_and]
  exact h2 r.1 (List.mem_eraseDups.mpr (List.mem_map.mpr ⟨r, hr, rfl⟩))

theorem canon_nosep {root u : Bytes} (h : sep ∉ u) : sep ∉ canonicaliseURI root u := by
  unfold canonicaliseURI trimPrefix
  split
  · exact fun hm => h (List.mem_of_mem_drop hm)
  · exact h

/-! ### effects on the reference collection -/

theorem refIndexOps_have {env : Env} {root : Bytes} {m : RefMap} {u : Bytes} {is : List (Bytes × Range)}
    (h : haveReferences u = true) :
    refIndexOps env root m u is =
      (m.set (canonicaliseURI root u) (newFilter env root m u is),
       [BOp.put (refKey (canonicaliseURI root u)) (writeMany writeEntryInfo is),
        BOp.put (refFilterKey (canonicaliseURI root u)) (newFilter env root m u is).encode]) := by
  unfold refIndexOps newFilter
  simp [h]

theorem refIndexOps_not {env : Env} {root : Bytes} {m : RefMap} {u : Bytes} {is : List (Bytes × Range)}
    (h : haveReferences u = false) : refIndexOps env root m u is = (m, []) := by
  unfold refIndexOps
  simp [h]

theorem effect_refDelete (root : Bytes) (m : RefMap) (u r : Bytes) :
    effect (refDeleteOps root m u) (entryKey cRefInd r) =
      if haveReferences u = true ∧ (m.find (canonicaliseURI root u)).isSome = true ∧
        (r = canonicaliseURI root u ∨ r = cFilter ++ sep :: canonicaliseURI root u)
      then some none else none := by
  unfold refDeleteOps
  by_cases h1 : haveReferences u = true
  · simp only [h1, Bool.not_true, Bool.false_eq_true, if_false, true_and]
    by_cases h2 : (m.find (canonicaliseURI root u)).isSome = true
    · simp only [h2, if_true, true_and, effect, refKey, refFilterKey,
        entryKey_inj refInd_nosep refInd_nosep]
      by_cases h3 : r = cFilter ++ sep :: canonicaliseURI root u
      · simp [h3]
      · simp [h3]
    · simp [h2, effect]
  · simp only [Bool.not_eq_true] at h1
    simp [h1, effect]

theorem effect_refIndex {env : Env} {root : Bytes} {m : RefMap} {u : Bytes} {is : List (Bytes × Range)}
    (h : haveReferences u = true) (r : Bytes) :
    effect (refIndexOps env root m u is).2 (entryKey cRefInd r) =
      if r = cFilter ++ sep :: canonicaliseURI root u then some (some (newFilter env root m u is).encode)
      else if r = canonicaliseURI root u then some (some (writeMany writeEntryInfo is)) else none := by
  rw [refIndexOps_have h]
  simp only [effect, refKey, refFilterKey, entryKey_inj refInd_nosep refInd_nosep, true_and]
  by_cases h3 : r = cFilter ++ sep :: canonicaliseURI root u <;> simp [h3]

theorem effect_sync_ref (env : Env) (s : Store) (d : Doc) (old : List Bytes) (r : Bytes)
    (hold : ∀ k ∈ old, ∃ c ∈ symColls, ∃ r, k = entryKey c r) :
    effect (syncOps env s d old) (entryKey cRefInd r) =
      if haveReferences d.uri = true then
        if r = cFilter ++ sep :: canonicaliseURI s.uri d.uri
        then some (some (newFilter env s.uri s.refs d.uri d.refs).encode)
        else if r = canonicaliseURI s.uri d.uri then some (some (writeMany writeEntryInfo d.refs)) else none
      else none := by
  have e2 : effect ((d.keyed env).map (fun x => BOp.put (x.dbKey env) x.serialise)) (entryKey cRefInd r)
      = none := by
    refine effect_none fun o ho => ?_
    obtain ⟨x, hx, rfl⟩ := List.mem_map.mp ho
    refine key_ne (coll_nosep x) refInd_nosep ?_
    intro e; exact refInd_notsym (e ▸ coll_mem x)
  have e3 : effect ((remaining env old (d.keyed env)).map BOp.del) (entryKey cRefInd r) = none := by
    rw [effect_dels, if_neg]
    intro h
    obtain ⟨c, hc, r, e⟩ := hold _ (mem_remaining.mp h).1
    exact key_ne refInd_nosep (symColls_nosep c hc) (by rintro rfl; exact refInd_notsym hc) e
  have e1 : effect [BOp.put (entryKey cDoc d.uri) d.hash] (entryKey cRefInd r) = none := by
    refine effect_none fun o ho => ?_
    simp only [List.mem_singleton] at ho
    subst ho
    exact key_ne doc_nosep refInd_nosep (by decide)
  unfold syncOps
  simp only [effect_append, e1, e2, e3, Option.none_or]
  by_cases hh : haveReferences d.uri = true
  · rw [effect_refIndex hh, effect_refDelete, if_pos hh]
    by_cases h1 : r = cFilter ++ sep :: canonicaliseURI s.uri d.uri
    · simp [h1]
    · by_cases h2 : r = canonicaliseURI s.uri d.uri
      · rw [if_neg h1, if_pos h2]; rfl
      · simp [h1, h2]
  · simp only [Bool.not_eq_true] at hh
    rw [refIndexOps_not hh, effect_refDelete]
    simp [hh, effect]

/-- What syncing does to the reference entries. -/
theorem sync_ref_get {env : Env} {D L} {s s' : Store} {d : Doc} (inv : Inv env D L s)
    (h : s.sync env d = some s') (r : Bytes) :
    s'.db.get (entryKey cRefInd r) =
      if haveReferences d.uri = true then
        if r = cFilter ++ sep :: canonicaliseURI s.uri d.uri
        then some (newFilter env s.uri s.refs d.uri d.refs).encode
        else if r = canonicaliseURI s.uri d.uri then some (writeMany writeEntryInfo d.refs)
        else s.db.get (entryKey cRefInd r)
      else s.db.get (entryKey cRefInd r) := by
  obtain ⟨old, hE3, hE2, hE1⟩ := inv.greb d.uri
  simp only [Store.sync, hE3, Option.bind_eq_bind, Option.bind_some, Option.pure_def,
    Option.some.injEq] at h
  subst h
  show (s.db.writeBatch [] _ true).get _ = _
  rw [LevelDB.get_batch, effect_sync_ref env s d _ r (old_keys hE1)]
  by_cases hh : haveReferences d.uri = true
  · rw [if_pos hh, if_pos hh]
    by_cases h1 : r = cFilter ++ sep :: canonicaliseURI s.uri d.uri
    · rw [if_pos h1, if_pos h1]; rfl
    · rw [if_neg h1, if_neg h1]
      by_cases h2 : r = canonicaliseURI s.uri d.uri
      · rw [if_pos h2, if_pos h2]; rfl
      · rw [if_neg h2, if_neg h2]; rfl
  · rw [if_neg hh, if_neg hh]; rfl

/-! ### base invariant: in-memory filters agree with the stored ones -/

structure RBase (s : Store) : Prop where
  ok : ∀ e ∈ s.refs, FOK e.2
  nodup : (s.refs.map (·.1)).Nodup
  agree : ∀ r v, s.db.get (entryKey cRefInd (cFilter ++ sep :: r)) = some v →
    sep ∉ r ∧ ∃ f, s.refs.find r = some f ∧ v = f.encode

theorem filter_key_inj {r c : Bytes} : cFilter ++ sep :: r = cFilter ++ sep :: c ↔ r = c := by
  simp

theorem filter_key_ne {r c : Bytes} (h : sep ∉ c) : cFilter ++ sep :: r ≠ c := by
  rintro rfl; simp at h

theorem rbase_sync {env : Env} {D L} {s s' : Store} {d : Doc} (inv : Inv env D L s) (rb : RBase s)
    (hs : ∀ ks h, env.populate ks = some h → Str h.fingerprints) (hu : sep ∉ d.uri)
    (h : s.sync env d = some s') (hr : s'.refs = (refIndexOps env s.uri s.refs d.uri d.refs).1) :
    RBase s' := by
  have hg := sync_ref_get inv h
  by_cases hh : haveReferences d.uri = true
  · rw [refIndexOps_have hh] at hr
    simp only at hr
    have fok := newFilter_ok (env := env) (root := s.uri) (uri := d.uri) (infos := d.refs) rb.ok hs
    refine ⟨?_, ?_, ?_⟩
    · intro e he
      rw [hr] at he
      rcases RefMap.mem_set he with rfl | ⟨he, -⟩
      · exact fok
      · exact rb.ok e he
    · rw [hr]; exact RefMap.set_nodup rb.nodup
    · intro r v hv
      rw [hg, if_pos hh] at hv
      simp only [filter_key_inj] at hv
      rw [hr]
      by_cases h1 : r = canonicaliseURI s.uri d.uri
      · rw [if_pos h1] at hv
        cases hv
        subst h1
        exact ⟨canon_nosep hu, _, by rw [RefMap.find_set, if_pos rfl], rfl⟩
      · rw [if_neg h1, if_neg (filter_key_ne (canon_nosep hu))] at hv
        obtain ⟨a, f, b, c⟩ := rb.agree r v hv
        exact ⟨a, f, by rw [RefMap.find_set, if_neg h1, b], c⟩
  · have hh' : haveReferences d.uri = false := by simpa using hh
    rw [refIndexOps_not hh'] at hr
    simp only at hr
    refine ⟨?_, ?_, ?_⟩
    · rw [hr]; exact rb.ok
    · rw [hr]; exact rb.nodup
    · intro r v hv
      rw [hg, if_neg hh] at hv
      rw [hr]
      exact rb.agree r v hv

theorem rbase_delete {s s' : Store} {u : Bytes} (rb : RBase s) (hr : s'.refs = s.refs)
    (hg : ∀ r, s'.db.get (entryKey cRefInd r) =
      (effect (refDeleteOps s.uri s.refs u) (entryKey cRefInd r)).getD (s.db.get (entryKey cRefInd r))) :
    RBase s' := by
  refine ⟨by rw [hr]; exact rb.ok, by rw [hr]; exact rb.nodup, ?_⟩
  intro r v hv
  rw [hg, effect_refDelete] at hv
  split at hv
  · cases hv
  · rw [hr]; exact rb.agree r v hv

/-! ### restart -/

theorem split_filterKey {r : Bytes} (h : sep ∉ r) : (splitB sep (refFilterKey r)).getD 2 [] = r := by
  unfold refFilterKey entryKey
  rw [splitB_append _ _ _ refInd_nosep, splitB_append _ _ _ (by decide), splitB_of_no_sep _ _ h]
  rfl

theorem loadRefs_ok {s : Store} (hsort : Sorted s.db.db) (rb : RBase s) :
    ∃ l : RefMap, loadRefs s.db = some l ∧ (l.map (·.1)).Nodup ∧ (∀ e ∈ l, FOK e.2) ∧
      ∀ r f, (r, f) ∈ l ↔ s.refs.find r = some f ∧ s.db.get (refFilterKey r) = some f.encode := by
  have hes : ∀ e ∈ s.db.db.filter (fun e => hasPrefix (refFilterKey []) e.1),
      ∃ r f, e = (refFilterKey r, f.encode) ∧ sep ∉ r ∧ s.refs.find r = some f ∧ FOK f ∧
        s.db.get (refFilterKey r) = some f.encode := by
    rintro ⟨k, v⟩ he
    obtain ⟨hm, hp⟩ := List.mem_filter.mp he
    rw [hasPrefix_iff] at hp
    obtain ⟨r, hr⟩ := hp
    have hk : k = refFilterKey r := by
      simp only at hr; rw [← hr]; simp [refFilterKey, entryKey]
    subst hk
    have hg := (mem_iff_get hsort _ _).mp hm
    obtain ⟨h1, f, h2, h3⟩ := rb.agree r v hg
    subst h3
    exact ⟨r, f, rfl, h1, h2, rb.ok _ (RefMap.find_mem h2), hg⟩
  have hall : ∀ r f, s.refs.find r = some f ∧ s.db.get (refFilterKey r) = some f.encode →
      (refFilterKey r, f.encode) ∈ s.db.db.filter (fun e => hasPrefix (refFilterKey []) e.1) := by
    rintro r f ⟨-, hg⟩
    refine List.mem_filter.mpr ⟨(mem_iff_get hsort _ _).mpr hg, ?_⟩
    rw [hasPrefix_iff]
    exact ⟨r, by simp [refFilterKey, entryKey]⟩
  have hsrt : Sorted (s.db.db.filter (fun e => hasPrefix (refFilterKey []) e.1)) := filter_sorted hsort
  -- the fold
  have fold : ∀ (es : Entries) (m : RefMap), Sorted es →
      (∀ e ∈ es, ∃ r f, e = (refFilterKey r, f.encode) ∧ sep ∉ r ∧ s.refs.find r = some f ∧ FOK f ∧
        s.db.get (refFilterKey r) = some f.encode) →
      (∀ e ∈ es, ∀ x ∈ m, refFilterKey x.1 ≠ e.1) → (m.map (·.1)).Nodup →
      ∃ l : RefMap, es.foldl loadStep (some m) = some (m ++ l) ∧ ((m ++ l).map (·.1)).Nodup ∧ (∀ e ∈ l, FOK e.2) ∧
        ∀ r f, (r, f) ∈ l ↔ (s.refs.find r = some f ∧ (refFilterKey r, f.encode) ∈ es) := by
    intro es
    induction es with
    | nil => intro m _ _ _ hn; exact ⟨[], by simp, by simpa using hn, by simp, by simp⟩
    | cons e es ih =>
      intro m hs he hx hn
      obtain ⟨r, f, rfl, hr, hfind, hf, hget⟩ := he e (by simp)
      have hset : m.set r f = m ++ [(r, f)] := by
        unfold RefMap.set
        rw [if_neg]
        intro h
        obtain ⟨x, hxm, hxr⟩ := List.mem_map.mp (RefMap.any_iff.mp h)
        exact hx (refFilterKey r, f.encode) List.mem_cons_self x hxm (by simp [hxr])
      have hs2 := List.pairwise_cons.mp hs
      obtain ⟨l, h1, h2, h3, h4⟩ := ih (m ++ [(r, f)]) hs2.2 (fun e' he' => he e' (by simp [he'])) (by
          intro e' he' x hxm
          simp only [List.mem_append, List.mem_singleton] at hxm
          rcases hxm with hxm | rfl
          · exact hx e' (by simp [he']) x hxm
          · intro heq
            have := hs2.1 e' he'
            simp only at this heq
            rw [← heq, bLt_irrefl] at this
            cases this) (by
          have := RefMap.set_nodup (k := r) (f := f) hn
          rwa [hset] at this)
      refine ⟨(r, f) :: l, ?_, ?_, ?_, ?_⟩
      · rw [List.foldl_cons]
        simp only [loadStep, filterDecode_encode hf, split_filterKey hr, hset]
        rw [h1]; simp
      · simpa using h2
      · intro e' he'
        simp only [List.mem_cons] at he'
        rcases he' with rfl | he'
        · exact hf
        · exact h3 e' he'
      · intro r' f'
        simp only [List.mem_cons, Prod.mk.injEq, h4]
        constructor
        · rintro (⟨rfl, rfl⟩ | ⟨h5, h6⟩)
          · exact ⟨hfind, .inl ⟨rfl, rfl⟩⟩
          · exact ⟨h5, .inr h6⟩
        · rintro ⟨h5, ⟨h6, h7⟩ | h6⟩
          · left
            have : r' = r := by
              have := ((entryKey_inj refInd_nosep refInd_nosep).mp h6).2
              simpa using this
            subst this
            rw [hfind] at h5
            cases h5
            exact ⟨rfl, rfl⟩
          · exact .inr ⟨h5, h6⟩
  obtain ⟨l, h1, h2, h3, h4⟩ := fold _ [] hsrt hes (by simp) (by simp)
  refine ⟨l, ?_, by simpa using h2, h3, ?_⟩
  · unfold loadRefs LevelDB.prefixStream
    rw [LevelDB.stream_deliver _ _ _ _ _ (Nat.lt_succ_self _), deliver_all]
    simpa using h1
  · intro r f
    rw [h4]
    constructor
    · rintro ⟨a, b⟩
      exact ⟨a, (mem_iff_get hsort _ _).mp (List.mem_filter.mp b).1⟩
    · intro h
      exact ⟨h.1, hall r f h⟩

theorem restart_ok {env : Env} {D L} {s : Store} (inv : Inv env D L s) (rb : RBase s) :
    ∃ s', s.restart = some s' ∧ Inv env D L s' ∧ RBase s' ∧ s'.uri = s.uri ∧ s'.db = s.db ∧
      s'.comDB = s.comDB ∧ s'.greb = s.greb ∧
      ∀ r f, s'.refs.find r = some f ↔ s.refs.find r = some f ∧ s.db.get (refFilterKey r) = some f.encode := by
  obtain ⟨l, h1, h2, h3, h4⟩ := loadRefs_ok inv.sorted rb
  have hfind : ∀ r f, RefMap.find l r = some f ↔
      s.refs.find r = some f ∧ s.db.get (refFilterKey r) = some f.encode := by
    intro r f
    rw [← h4]
    exact ⟨RefMap.find_mem, RefMap.find_of_mem h2⟩
  refine ⟨{ s with refs := l, synced := [] }, ?_, ?_, ?_, rfl, rfl, rfl, rfl, hfind⟩
  · simp [Store.restart, h1]
  · exact ⟨inv.sorted, inv.live, inv.syms, inv.doc, inv.keys, inv.greb⟩
  · refine ⟨h3, h2, ?_⟩
    intro r v hv
    obtain ⟨a, f, b, c⟩ := rb.agree r v hv
    exact ⟨a, f, (hfind r f).mpr ⟨b, by rw [← c]; exact hv⟩, c⟩

/-! ### the invariant along a history -/

theorem rbase_new (root : Bytes) : RBase (Store.new root) :=
  ⟨by simp [Store.new], by simp [Store.new], by
    intro r v h; simp [Store.new, LevelDB.new, LevelDB.get, Storage.get] at h⟩

/-- Assumptions on the external functions used in every theorem about histories. -/
structure EnvOK (env : Env) : Prop where
  lower : env.LowerOK
  size : ∀ ks h, env.populate ks = some h → Str h.fingerprints

theorem docs_cons (o : HOp) (h : List HOp) : docs (o :: h) = docs [o] ++ docs h := by
  cases o <;> simp [docs]

theorem docs_append (h1 h2 : List HOp) : docs (h1 ++ h2) = docs h1 ++ docs h2 := by simp [docs]

/-- The invariant does not mind a symbol list that was written ahead, if nothing was removed. -/
theorem inv_ahead {env : Env} {D L} {s : Store} {d : Doc} (hl : env.LowerOK) (inv : Inv env D L s)
    (hD : ∀ d ∈ D, DocOK env d) (hd : DocOK env d)
    (hk : ∀ d0, L d.uri = some d0 → ∀ x ∈ d0.symbols, x.Indexed →
      ∃ y ∈ d.symbols, y.Indexed ∧ SameDecl env x y) (g : Entries) (com : LevelDB)
    (hg : ∀ u, readDocSyms g u = if u = d.uri then some ((d.keyed env).map (Sym.dbKey env))
      else readDocSyms s.greb u) :
    Inv env (D ++ [d]) L { s with greb := g, comDB := com } := by
  refine ⟨inv.sorted, fun u d' h => ?_, inv.syms, inv.doc, inv.keys, fun u => ?_⟩
  · obtain ⟨a, b⟩ := inv.live u d' h
    exact ⟨by simp [a], b⟩
  · simp only [hg u]
    by_cases hu : u = d.uri
    · subst hu
      refine ⟨_, if_pos rfl, ?_, ?_⟩
      · intro d0 h0 x hx
        obtain ⟨m0, e0⟩ := inv.live _ d0 h0
        obtain ⟨hx, ix⟩ := mem_keyed.mp hx
        obtain ⟨y, hy, iy, hs⟩ := hk d0 h0 x hx ix
        have := (dbKey_inj env hl ((hD d0 m0).syms x hx) (hd.syms y hy) (hD d0 m0).uri hd.uri ix iy).mpr
          ⟨hs, fun _ => e0⟩
        rw [this]
        exact List.mem_map_of_mem (mem_keyed.mpr ⟨hy, iy⟩)
      · intro k hk
        obtain ⟨x, hx, rfl⟩ := List.mem_map.mp hk
        exact ⟨d, by simp, rfl, x, hx, rfl⟩
    · rw [if_neg hu]
      obtain ⟨old, h1, h2, h3⟩ := inv.greb u
      refine ⟨old, h1, h2, ?_⟩
      intro k hk
      obtain ⟨d', a, b⟩ := h3 k hk
      exact ⟨d', by simp [a], b⟩

theorem inv_more {env : Env} {D L} {s : Store} (inv : Inv env D L s) (d : Doc) (com : LevelDB) :
    Inv env (D ++ [d]) L { s with comDB := com } := by
  refine ⟨inv.sorted, fun u d' h => ?_, inv.syms, inv.doc, inv.keys, fun u => ?_⟩
  · obtain ⟨a, b⟩ := inv.live u d' h
    exact ⟨by simp [a], b⟩
  · obtain ⟨old, h1, h2, h3⟩ := inv.greb u
    refine ⟨old, h1, h2, ?_⟩
    intro k hk
    obtain ⟨d', a, b⟩ := h3 k hk
    exact ⟨d', by simp [a], b⟩

theorem sync_greb {env : Env} {s s' : Store} {d : Doc} (h : s.sync env d = some s') :
    s'.greb = Storage.put (entryKey cDocNs d.uri) (writeInt 0)
      (Storage.put (entryKey cDocSym d.uri) (docSymBytes env (d.keyed env)) s.greb) ∧
    s'.comDB = s.comDB.writeBatch [] (completionOps env d) true ∧ s'.synced = s.synced ∧ s'.uri = s.uri := by
  unfold Store.sync at h
  cases hr : readDocSyms s.greb d.uri with
  | none => rw [hr] at h; cases h
  | some old =>
    rw [hr] at h
    cases h
    exact ⟨rfl, rfl, rfl, rfl⟩

theorem docSym_ne {u v : Bytes} (h : u ≠ v) : entryKey cDocSym v ≠ entryKey cDocSym u := by
  intro e
  exact h ((entryKey_inj (by decide) (by decide)).mp e).2.symm

/-- A crash is either a restart of a state with the same main store, or a completed indexing followed
by a restart. -/
theorem crash_cases {env : Env} {D L} {s : Store} {d : Doc} {k : Nat} (hl : env.LowerOK)
    (inv : Inv env D L s) (rb : RBase s) (hs : ∀ ks h, env.populate ks = some h → Str h.fingerprints)
    (hdD : ∀ d ∈ D, DocOK env d) (hd : DocOK env d) (hD : Disjoint env (D ++ [d]))
    (hk : 0 < k → k < 4 → ∀ d0, L d.uri = some d0 → ∀ x ∈ d0.symbols, x.Indexed →
      ∃ y ∈ d.symbols, y.Indexed ∧ SameDecl env x y) :
    (k < 4 ∧ ∃ t : Store, s.crashDuring env d k = t.restart ∧ Inv env (D ++ [d]) L t ∧ RBase t ∧
      t.db = s.db ∧ t.refs = s.refs ∧ t.uri = s.uri ∧
      (t.comDB = s.comDB ∨ t.comDB = s.comDB.writeBatch [] (completionOps env d) true)) ∨
    (4 ≤ k ∧ ∃ t : Store, s.sync env d = some t ∧ s.crashDuring env d k = t.restart) := by
  obtain ⟨t, h1, h2, h3, h4⟩ := inv_sync inv hd hD
  obtain ⟨g1, g2, g3, -⟩ := sync_greb h1
  by_cases h : k < 4
  · refine .inl ⟨h, { s with
      greb := if k = 0 then s.greb
        else if k = 1 then Storage.put (entryKey cDocSym d.uri) (docSymBytes env (d.keyed env)) s.greb
        else t.greb
      comDB := if k < 3 then s.comDB else t.comDB }, ?_, ?_, ⟨rb.ok, rb.nodup, rb.agree⟩, rfl, rfl, rfl, ?_⟩
    · simp [Store.crashDuring, h1, h]
    · by_cases h0 : k = 0
      · simp only [h0, if_true]
        exact inv_more inv d _
      · refine inv_ahead hl inv hdD hd (hk (by omega) h) _ _ ?_
        intro u
        rw [if_neg h0]
        have n1 : entryKey cDocNs d.uri ≠ entryKey cDocSym u := key_ne (by decide) (by decide) (by decide)
        have aux : readDocSyms (Storage.put (entryKey cDocSym d.uri) (docSymBytes env (d.keyed env)) s.greb) u =
            if u = d.uri then some ((d.keyed env).map (Sym.dbKey env)) else readDocSyms s.greb u := by
          by_cases hu : u = d.uri
          · subst hu; rw [if_pos rfl]; exact readDocSyms_put_self hd s.greb
          · rw [if_neg hu, readDocSyms_put_other (docSym_ne hu)]
        split
        · exact aux
        · rw [g1, readDocSyms_put_other n1]
          exact aux
    · split
      · exact .inl rfl
      · exact .inr g2
  · refine .inr ⟨by omega, t, h1, ?_⟩
    have h0 : k ≠ 0 := by omega
    have h1' : k ≠ 1 := by omega
    have h3' : ¬ k < 3 := by omega
    simp only [Store.crashDuring, h1, Option.bind_eq_bind, Option.bind_some, if_neg h0, if_neg h1', if_neg h3',
      if_neg h]
    unfold Store.restart
    simp only [h3]

theorem upgrade_get {s : Store} (v k : Bytes) :
    (s.clear.putVersion v).db.get k = if k = versionKey then some v else none := by
  show Storage.get k (Storage.put versionKey v s.db.clear.db) = _
  rw [get_put, LevelDB.clear_eq]
  rfl

theorem versionKey_ne (c r : Bytes) : entryKey c r ≠ versionKey := by
  intro h
  have : sep ∈ versionKey := by rw [← h]; simp [entryKey]
  revert this
  decide

theorem upgrade_get_entry {s : Store} (v c r : Bytes) : (s.clear.putVersion v).db.get (entryKey c r) = none := by
  rw [upgrade_get, if_neg (versionKey_ne c r)]

theorem upgrade_inv {env : Env} {D L} {s : Store} (v : Bytes) (inv : Inv env D L s) (rb : RBase s) :
    Inv env D (latestStep L (.upgrade v)) (s.clear.putVersion v) ∧ RBase (s.clear.putVersion v) := by
  refine ⟨⟨?_, ?_, ?_, ?_, ?_, ?_⟩, ⟨rb.ok, rb.nodup, ?_⟩⟩
  · show Sorted (Storage.put versionKey v s.db.clear.db)
    rw [LevelDB.clear_eq]
    exact put_sorted List.Pairwise.nil
  · intro u d h; cases h
  · intro c _ r w
    rw [upgrade_get_entry]
    simp [latestStep]
  · intro u; rw [upgrade_get_entry]; rfl
  · intro k w h
    rw [upgrade_get] at h
    split at h
    · left; assumption
    · cases h
  · intro u
    obtain ⟨old, h1, -, h3⟩ := inv.greb u
    exact ⟨old, h1, fun d h => (by cases h), h3⟩
  · intro r w h
    rw [upgrade_get_entry] at h
    cases h

theorem step_inv {env : Env} {D L} {s : Store} {o : HOp} (he : EnvOK env) (inv : Inv env D L s)
    (rb : RBase s) (hd : ∀ d ∈ D ++ docs [o], DocOK env d) (hD : Disjoint env (D ++ docs [o]))
    (hk : Keeps env L [o]) :
    ∃ s', step env s o = some s' ∧ Inv env (D ++ docs [o]) (latestStep L o) s' ∧ RBase s' ∧
      s'.uri = s.uri := by
  cases o with
  | index d =>
    have hd := hd d (by simp [docs])
    obtain ⟨s', h1, h2, h3, h4⟩ := inv_sync inv hd (by simpa [docs] using hD)
    exact ⟨s', h1, by simpa [docs] using h2, rbase_sync inv rb he.size hd.uri.1 h1 h4, h3⟩
  | delete u =>
    obtain ⟨s', h1, h2, h3, h4, -, -, h5⟩ := inv_delete (u := u) inv (by simpa [docs] using hD)
    exact ⟨s', h1, by simpa [docs] using h2, rbase_delete rb h4 h5, h3⟩
  | restart =>
    obtain ⟨s', h1, h2, h3, h4, -⟩ := restart_ok inv rb
    exact ⟨s', h1, by simpa [docs, latestStep] using h2, h3, h4⟩
  | upgrade v =>
    obtain ⟨h1, h2⟩ := upgrade_inv v inv rb
    exact ⟨_, rfl, by simpa [docs] using h1, h2, rfl⟩
  | crash d k =>
    have hdocs : docs [HOp.crash d k] = [d] := rfl
    rw [hdocs] at hd hD ⊢
    have hdd := hd d (by simp)
    rcases crash_cases he.lower inv rb he.size (fun d hx => hd d (by simp [hx])) hdd hD hk.1 with
      ⟨hlt, t, h1, h2, h3, h4, h5, h6, h7⟩ | ⟨hge, t, h1, h2⟩
    · obtain ⟨s', g1, g2, g3, g4, -⟩ := restart_ok h2 h3
      have hL : latestStep L (.crash d k) = L := by
        funext u; simp only [latestStep]; rw [if_neg]; omega
      exact ⟨s', h1.trans g1, by rw [hL]; exact g2, g3, g4.trans h6⟩
    · obtain ⟨t', k1, k2, k3, k4⟩ := inv_sync inv hdd hD
      rw [h1] at k1
      cases k1
      obtain ⟨s', g1, g2, g3, g4, -⟩ := restart_ok k2 (rbase_sync inv rb he.size hdd.uri.1 h1 k4)
      have hL : latestStep L (.crash d k) = latestStep L (.index d) := by
        funext u; simp [latestStep, hge]
      exact ⟨s', h2.trans g1, by rw [hL]; exact g2, g3, g4.trans k3⟩

theorem Keeps.head {env : Env} {L} {o : HOp} {h : List HOp} (hk : Keeps env L (o :: h)) : Keeps env L [o] :=
  ⟨hk.1, trivial⟩

theorem Keeps.append {env : Env} {L} {h1 h2 : List HOp} :
    Keeps env L (h1 ++ h2) ↔ Keeps env L h1 ∧ Keeps env (h1.foldl latestStep L) h2 := by
  induction h1 generalizing L with
  | nil => simp [Keeps]
  | cons o h1 ih => simp only [List.cons_append, Keeps, ih, List.foldl_cons, and_assoc]

theorem runFrom_inv {env : Env} {D L} {s : Store} {h : List HOp} (he : EnvOK env) (inv : Inv env D L s)
    (rb : RBase s) (ho : ∀ d ∈ D ++ docs h, DocOK env d) (hD : Disjoint env (D ++ docs h))
    (hk : Keeps env L h) :
    ∃ s', runFrom env (some s) h = some s' ∧ Inv env (D ++ docs h) (h.foldl latestStep L) s' ∧ RBase s' ∧
      s'.uri = s.uri := by
  induction h generalizing D L s with
  | nil => exact ⟨s, rfl, by simpa [docs] using inv, rb, rfl⟩
  | cons o h ih =>
    rw [docs_cons, ← List.append_assoc] at ho hD
    obtain ⟨s1, h1, h2, h3, h4⟩ := step_inv he inv rb (fun d hd => ho d (List.mem_append_left _ hd)) (by
      intro d1 m1 d2 m2
      exact hD d1 (List.mem_append_left _ m1) d2 (List.mem_append_left _ m2)) hk.head
    obtain ⟨s2, h5, h6, h7, h8⟩ := ih h2 h3 ho hD hk.2
    refine ⟨s2, ?_, ?_, h7, h8.trans h4⟩
    · show runFrom env ((some s).bind fun s => step env s o) h = _
      rw [Option.bind_some, h1]; exact h5
    · rw [docs_cons o h, ← List.append_assoc]
      exact h6

/-- Every history runs without a panic and ends in a state that satisfies the invariant. -/
theorem run_inv {env : Env} {root : Bytes} {h : List HOp} (he : EnvOK env) (hok : HistOK env h) :
    ∃ s, run env root h = some s ∧ Inv env (docs h) (latest h) s ∧ RBase s ∧ s.uri = root := by
  have := runFrom_inv (h := h) he (inv_new env root) (rbase_new root) (by simpa using hok.docs)
    (by simpa using disjoint_of_ok he.lower hok.docs hok.consts) hok.crashes
  rwa [List.nil_append] at this

end Verif.Store
