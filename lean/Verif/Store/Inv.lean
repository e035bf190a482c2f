import Verif.Store.Lemmas

/-! The main invariant of the store over every history. -/

namespace Verif.Store

open Verif.Encoding Verif.Storage

theorem writeInt_length (v : GoInt) : (writeInt v).length = 8 := leBytes_length 8 _

theorem writeMany_ne_nil {α} (w : α → Bytes) (xs : List α) : (writeMany w xs).length ≠ 0 := by
  simp [writeMany, writeInt_length]

theorem readMany_reads' {α} (r : Dec α) (w : α → Bytes) (xs : List α) (hl : xs.length < 2 ^ 63)
    (h : ∀ x ∈ xs, Reads r (w x) x) : Reads (readMany r) (writeMany w xs) xs := by
  unfold readMany writeMany
  refine Reads.bind (readInt_reads _) ?_
  rw [ofNat64_toInt _ hl]
  have := readLoop_reads r w id xs (by simpa using h)
  simpa using this

theorem readDocSym_reads (c k : Bytes) (hc : Str c) (hk : Str k) :
    Reads readDocSym (writeString c ++ writeString k ++ writeString []) (c, k) := by
  rw [List.append_assoc]
  exact Reads.bind (readString_reads _ hc) (Reads.bind (readString_reads _ hk)
    (Reads.map (readString_reads [] (by simp [Str])) rfl))

theorem docSym_read (env : Env) (d : Doc) (h : DocOK env d) :
    readMany readDocSym (docSymBytes env (d.keyed env))
      = some ((d.keyed env).map fun x => (x.coll, x.key env), []) := by
  have e : docSymBytes env (d.keyed env) = writeMany
      (fun p : Bytes × Bytes => writeString p.1 ++ writeString p.2 ++ writeString [])
      ((d.keyed env).map fun x => (x.coll, x.key env)) := by
    simp [docSymBytes, writeMany, List.flatMap_map]
  have hr := readMany_reads' readDocSym
    (fun p : Bytes × Bytes => writeString p.1 ++ writeString p.2 ++ writeString [])
    ((d.keyed env).map fun x => (x.coll, x.key env)) ?_ ?_
  · have := hr []
    rw [List.append_nil, ← e] at this
    exact this
  · rw [List.length_map]
    exact Nat.lt_of_le_of_lt (List.length_filter_le _ _) h.len
  · intro p hp
    obtain ⟨x, hx, rfl⟩ := List.mem_map.mp hp
    refine readDocSym_reads _ _ ?_ (h.syms x (mem_keyed.mp hx).1).key
    have := coll_mem x
    revert this
    generalize x.coll = c
    intro hc
    unfold Str
    have : ∀ c ∈ symColls, c.length < 100 := by decide
    exact Nat.lt_trans (this c hc) (by decide)

/-- Everything but the reference index. -/
structure Inv (env : Env) (D : List Doc) (L : Bytes → Option Doc) (s : Store) : Prop where
  sorted : Sorted s.db.db
  live : ∀ u d, L u = some d → d ∈ D ∧ d.uri = u
  syms : ∀ c ∈ symColls, ∀ r v, s.db.get (entryKey c r) = some v ↔
    ∃ u d x, L u = some d ∧ lastBy (Sym.dbKey env) (entryKey c r) (d.keyed env) = some x ∧ v = x.serialise
  doc : ∀ u, s.db.get (entryKey cDoc u) = (L u).map Doc.hash
  keys : ∀ k v, s.db.get k = some v → k = versionKey ∨ ∃ c ∈ cDoc :: cRefInd :: symColls, ∃ r, k = entryKey c r
  greb : ∀ u, ∃ old : List Bytes, readDocSyms s.greb u = some old ∧
    (∀ d, L u = some d → ∀ x ∈ d.keyed env, x.dbKey env ∈ old) ∧
    ∀ k ∈ old, ∃ d ∈ D, d.uri = u ∧ ∃ x ∈ d.keyed env, x.dbKey env = k

/-- Documents of different files have different keys. -/
def Disjoint (env : Env) (D : List Doc) : Prop :=
  ∀ d1 ∈ D, ∀ d2 ∈ D, ∀ x ∈ d1.keyed env, ∀ y ∈ d2.keyed env,
    x.dbKey env = y.dbKey env → d1.uri = d2.uri

theorem disjoint_of_ok {env : Env} {D : List Doc} (hl : env.LowerOK) (h : ∀ d ∈ D, DocOK env d)
    (hc : ConstsOK D) : Disjoint env D := by
  intro d1 h1 d2 h2 x hx y hy e
  obtain ⟨hx, ix⟩ := mem_keyed.mp hx
  obtain ⟨hy, iy⟩ := mem_keyed.mp hy
  obtain ⟨hs, hu⟩ := (dbKey_inj env hl ((h d1 h1).syms x hx) ((h d2 h2).syms y hy) (h d1 h1).uri
    (h d2 h2).uri ix iy).mp e
  by_cases hk : x.kind = 7
  · obtain ⟨hk2, hp, -⟩ := hs
    cases x <;> simp only [Sym.kind, Nat.reduceEqDiff] at hk
    cases y <;> simp only [Sym.kind, Nat.reduceEqDiff] at hk2
    simp only [Sym.path, List.cons.injEq, and_true] at hp
    exact hc d1 h1 d2 h2 _ _ hx hy hp.1 hp.2
  · exact hu hk

theorem refDeleteOps_keys {root : Bytes} {m : RefMap} {u : Bytes} :
    ∀ o ∈ refDeleteOps root m u, ∃ r, opKey o = entryKey cRefInd r := by
  intro o ho
  unfold refDeleteOps at ho
  split at ho
  · simp at ho
  · simp only at ho
    split at ho
    · simp only [List.mem_cons, List.not_mem_nil, or_false] at ho
      rcases ho with rfl | rfl
      · exact ⟨_, rfl⟩
      · exact ⟨_, rfl⟩
    · simp at ho

theorem refIndexOps_keys {env : Env} {root : Bytes} {m : RefMap} {u : Bytes} {i : List (Bytes × Range)} :
    ∀ o ∈ (refIndexOps env root m u i).2, ∃ r, opKey o = entryKey cRefInd r := by
  intro o ho
  unfold refIndexOps at ho
  split at ho
  · simp at ho
  · simp only [List.mem_cons, List.not_mem_nil, or_false] at ho
    rcases ho with rfl | rfl
    · exact ⟨_, rfl⟩
    · exact ⟨_, rfl⟩

theorem refInd_nosep : sep ∉ cRefInd := by decide
theorem doc_nosep : sep ∉ cDoc := by decide
theorem refInd_notsym : cRefInd ∉ symColls := by decide
theorem doc_notsym : cDoc ∉ symColls := by decide

theorem key_ne {c c' r r' : Bytes} (h : sep ∉ c) (h' : sep ∉ c') (hne : c ≠ c') :
    entryKey c r ≠ entryKey c' r' := fun e => hne ((entryKey_inj h h').mp e).1

theorem effect_ref_none {ops : List BOp} (h : ∀ o ∈ ops, ∃ r, opKey o = entryKey cRefInd r)
    {c r : Bytes} (hc : sep ∉ c) (hne : c ≠ cRefInd) : effect ops (entryKey c r) = none := by
  refine effect_none fun o ho e => ?_
  obtain ⟨r', hr⟩ := h o ho
  rw [hr] at e
  exact key_ne refInd_nosep hc (Ne.symm hne) e

theorem mem_remaining {env : Env} {old : List Bytes} {w : List Sym} {k : Bytes} :
    k ∈ remaining env old w ↔ k ∈ old ∧ ∀ x ∈ w, x.dbKey env ≠ k := by
  simp [remaining]

/-- What syncing does to the key of a symbol. -/
theorem effect_sync_sym (env : Env) (s : Store) (d : Doc) (old : List Bytes) {c r : Bytes}
    (hc : c ∈ symColls) :
    effect (syncOps env s d old) (entryKey c r) =
      match lastBy (Sym.dbKey env) (entryKey c r) (d.keyed env) with
      | some x => some (some x.serialise)
      | none => if entryKey c r ∈ old then some none else none := by
  have hn := symColls_nosep c hc
  have hnr : c ≠ cRefInd := by rintro rfl; exact refInd_notsym hc
  have hnd : c ≠ cDoc := by rintro rfl; exact doc_notsym hc
  have e1 : effect [BOp.put (entryKey cDoc d.uri) d.hash] (entryKey c r) = none := by
    refine effect_none fun o ho => ?_
    simp only [List.mem_singleton] at ho
    subst ho
    exact key_ne doc_nosep hn (Ne.symm hnd)
  unfold syncOps
  simp only [effect_append, e1, effect_ref_none refDeleteOps_keys hn hnr,
    effect_ref_none refIndexOps_keys hn hnr, effect_puts, effect_dels, mem_remaining,
    Option.none_or, Option.or_none]
  cases hl : lastBy (Sym.dbKey env) (entryKey c r) (d.keyed env) with
  | some x =>
    obtain ⟨h1, h2⟩ := lastBy_mem hl
    have : ¬ (entryKey c r ∈ old ∧ ∀ x ∈ d.keyed env, x.dbKey env ≠ entryKey c r) :=
      fun h => h.2 x h1 h2
    simp [this]
  | none =>
    have := lastBy_none.mp hl
    simp only [Option.map_none, Option.or_none]
    by_cases ho : entryKey c r ∈ old
    · simp only [ho, true_and, if_true]; rw [if_pos this]
    · simp [ho]

theorem effect_sync_doc (env : Env) (s : Store) (d : Doc) (old : List Bytes) (u : Bytes)
    (hold : ∀ k ∈ old, ∃ c ∈ symColls, ∃ r, k = entryKey c r) :
    effect (syncOps env s d old) (entryKey cDoc u) = if u = d.uri then some (some d.hash) else none := by
  have hne : cDoc ≠ cRefInd := by decide
  have e2 : effect ((d.keyed env).map (fun x => BOp.put (x.dbKey env) x.serialise)) (entryKey cDoc u)
      = none := by
    refine effect_none fun o ho => ?_
    obtain ⟨x, hx, rfl⟩ := List.mem_map.mp ho
    refine key_ne (coll_nosep x) doc_nosep ?_
    intro e; exact doc_notsym (e ▸ coll_mem x)
  have e3 : effect ((remaining env old (d.keyed env)).map BOp.del) (entryKey cDoc u) = none := by
    rw [effect_dels, if_neg]
    intro h
    obtain ⟨c, hc, r, e⟩ := hold _ (mem_remaining.mp h).1
    exact key_ne doc_nosep (symColls_nosep c hc) (by rintro rfl; exact doc_notsym hc) e
  unfold syncOps
  simp only [effect_append, e2, e3, effect_ref_none refDeleteOps_keys doc_nosep hne,
    effect_ref_none refIndexOps_keys doc_nosep hne, Option.or_none]
  simp only [effect, entryKey_inj doc_nosep doc_nosep, true_and]

theorem old_keys {env : Env} {D : List Doc} {u : Bytes} {old : List Bytes}
    (h : ∀ k ∈ old, ∃ d ∈ D, d.uri = u ∧ ∃ x ∈ d.keyed env, x.dbKey env = k) :
    ∀ k ∈ old, ∃ c ∈ symColls, ∃ r, k = entryKey c r := by
  intro k hk
  obtain ⟨-, -, -, x, -, rfl⟩ := h k hk
  exact ⟨x.coll, coll_mem x, x.key env, rfl⟩

theorem LevelDB.get_batch (m : LevelDB) (ops : List BOp) (k : Bytes) :
    (m.writeBatch [] ops true).get k = (effect ops k).getD (m.get k) :=
  get_applyOps_effect m.db ops k

theorem inv_new (env : Env) (root : Bytes) : Inv env [] (fun _ => none) (Store.new root) where
  sorted := List.Pairwise.nil
  live := by simp
  syms := by intro c _ r v; simp [Store.new, LevelDB.new, LevelDB.get, Storage.get]
  doc := fun _ => rfl
  keys := by intro k v h; simp [Store.new, LevelDB.new, LevelDB.get, Storage.get] at h
  greb := fun u => ⟨[], rfl, by simp, by simp⟩

theorem effect_some {ops : List BOp} {k : Bytes} {r : Option Bytes} (h : effect ops k = some r) :
    ∃ o ∈ ops, opKey o = k := by
  by_contra hn
  simp only [not_exists, not_and] at hn
  rw [effect_none hn] at h
  cases h

theorem readDocSyms_put_other {greb : Entries} {k v : Bytes} {u : Bytes} (h : k ≠ entryKey cDocSym u) :
    readDocSyms (Storage.put k v greb) u = readDocSyms greb u := by
  unfold readDocSyms
  rw [get_put, if_neg (Ne.symm h)]

theorem readDocSyms_put_self {env : Env} {d : Doc} (hd : DocOK env d) (greb : Entries) :
    readDocSyms (Storage.put (entryKey cDocSym d.uri) (docSymBytes env (d.keyed env)) greb) d.uri
      = some ((d.keyed env).map (Sym.dbKey env)) := by
  unfold readDocSyms
  rw [get_put, if_pos rfl]
  simp only [docSym_read env d hd]
  rw [if_neg (by unfold docSymBytes; exact writeMany_ne_nil _ _)]
  simp [Sym.dbKey]

theorem inv_sync {env : Env} {D : List Doc} {L : Bytes → Option Doc} {s : Store} {d : Doc}
    (inv : Inv env D L s) (hd : DocOK env d) (hD : Disjoint env (D ++ [d])) :
    ∃ s', s.sync env d = some s' ∧ Inv env (D ++ [d]) (latestStep L (.index d)) s' ∧
      s'.uri = s.uri ∧ s'.refs = (refIndexOps env s.uri s.refs d.uri d.refs).1 := by
  obtain ⟨old, hE3, hE2, hE1⟩ := inv.greb d.uri
  refine ⟨{ s with
    greb := Storage.put (entryKey cDocNs d.uri) (writeInt 0)
      (Storage.put (entryKey cDocSym d.uri) (docSymBytes env (d.keyed env)) s.greb)
    comDB := s.comDB.writeBatch [] (completionOps env d) true
    db := s.db.writeBatch [] (syncOps env s d old) true
    refs := (refIndexOps env s.uri s.refs d.uri d.refs).1 }, ?_, ?_, rfl, rfl⟩
  · simp only [Store.sync, hE3]
    rfl
  · have hold : ∀ k ∈ old, ∃ c ∈ symColls, ∃ r, k = entryKey c r := old_keys hE1
    refine ⟨applyOps_sorted inv.sorted, ?_, ?_, ?_, ?_, ?_⟩
    · intro u d' h
      simp only [latestStep] at h
      split at h
      · cases h; subst_vars; simp
      · obtain ⟨h1, h2⟩ := inv.live u d' h
        exact ⟨by simp [h1], h2⟩
    · intro c hc r v
      show (s.db.writeBatch [] _ true).get _ = _ ↔ _
      rw [LevelDB.get_batch, effect_sync_sym env s d old hc]
      cases hl : lastBy (Sym.dbKey env) (entryKey c r) (d.keyed env) with
      | some x =>
        simp only [Option.getD_some, Option.some.injEq]
        constructor
        · rintro rfl
          exact ⟨d.uri, d, x, by simp [latestStep], hl, rfl⟩
        · rintro ⟨u, d', x', h1, h2, h3⟩
          simp only [latestStep] at h1
          split at h1
          · cases h1
            rw [hl] at h2; cases h2; exact h3.symm
          · rename_i hne
            obtain ⟨hm, hu⟩ := inv.live u d' h1
            obtain ⟨m1, k1⟩ := lastBy_mem hl
            obtain ⟨m2, k2⟩ := lastBy_mem h2
            have := hD d (by simp) d' (by simp [hm]) x m1 x' m2 (k1.trans k2.symm)
            exact absurd (hu ▸ this.symm) hne
      | none =>
        by_cases hin : entryKey c r ∈ old
        · simp only [hin, if_true, Option.getD_some, reduceCtorEq, false_iff]
          rintro ⟨u, d', x', h1, h2, -⟩
          simp only [latestStep] at h1
          split at h1
          · cases h1; rw [hl] at h2; cases h2
          · rename_i hne
            obtain ⟨hm, hu⟩ := inv.live u d' h1
            obtain ⟨m2, k2⟩ := lastBy_mem h2
            · obtain ⟨e, he1, he2, y, hy, hyk⟩ := hE1 _ hin
              have := hD e (by simp [he1]) d' (by simp [hm]) y hy x' m2 (hyk.trans k2.symm)
              exact hne (by rw [← hu, ← this, he2])
        · simp only [hin, if_false, Option.getD_none]
          rw [inv.syms c hc r v]
          constructor
          · rintro ⟨u, d', x', h1, h2, h3⟩
            refine ⟨u, d', x', ?_, h2, h3⟩
            simp only [latestStep]
            rw [if_neg]
            · exact h1
            · rintro rfl
              obtain ⟨m2, k2⟩ := lastBy_mem h2
              exact hin (k2 ▸ hE2 _ h1 x' m2)
          · rintro ⟨u, d', x', h1, h2, h3⟩
            simp only [latestStep] at h1
            split at h1
            · cases h1; rw [hl] at h2; cases h2
            · exact ⟨u, d', x', h1, h2, h3⟩
    · intro u
      show (s.db.writeBatch [] _ true).get _ = _
      rw [LevelDB.get_batch, effect_sync_doc env s d old u hold]
      simp only [latestStep]
      split
      · simp
      · simp [inv.doc u]
    · intro k v h
      change (s.db.writeBatch [] _ true).get _ = _ at h
      rw [LevelDB.get_batch] at h
      cases he : effect (syncOps env s d old) k with
      | none => rw [he] at h; exact inv.keys k v h
      | some r =>
        obtain ⟨o, hm, hk⟩ := effect_some he
        subst hk
        right
        simp only [syncOps, List.mem_append, List.mem_map, List.mem_singleton] at hm
        rcases hm with (((hm | ⟨x, -, rfl⟩) | hm) | ⟨x, hm, rfl⟩) | rfl
        · obtain ⟨r, hr⟩ := refDeleteOps_keys o hm
          exact ⟨cRefInd, by simp, r, hr⟩
        · exact ⟨x.coll, by simp [coll_mem], x.key env, rfl⟩
        · obtain ⟨r, hr⟩ := refIndexOps_keys o hm
          exact ⟨cRefInd, by simp, r, hr⟩
        · obtain ⟨c, hc, r, e⟩ := hold x (mem_remaining.mp hm).1
          exact ⟨c, by simp [hc], r, e⟩
        · exact ⟨cDoc, by simp, d.uri, rfl⟩
    · intro u
      have n1 : entryKey cDocNs d.uri ≠ entryKey cDocSym u := key_ne (by decide) (by decide) (by decide)
      simp only
      rw [readDocSyms_put_other n1]
      by_cases hu : u = d.uri
      · subst hu
        refine ⟨_, readDocSyms_put_self hd s.greb, ?_, ?_⟩
        · intro d' h x hx
          simp only [latestStep, if_true, Option.some.injEq] at h
          subst h
          exact List.mem_map_of_mem hx
        · intro k hk
          obtain ⟨x, hx, rfl⟩ := List.mem_map.mp hk
          exact ⟨d, by simp, rfl, x, hx, rfl⟩
      · have n2 : entryKey cDocSym d.uri ≠ entryKey cDocSym u := by
          intro e
          exact hu ((entryKey_inj (by decide) (by decide)).mp e).2.symm
        rw [readDocSyms_put_other n2]
        obtain ⟨old', h3, h2, h1⟩ := inv.greb u
        refine ⟨old', h3, ?_, ?_⟩
        · intro d' h
          simp only [latestStep, if_neg hu] at h
          exact h2 d' h
        · intro k hk
          obtain ⟨d', a, b⟩ := h1 k hk
          exact ⟨d', by simp [a], b⟩

/-- There are no completion registrations in the main store, so the deletor finds nothing. -/
theorem completionDeletor_nil {env : Env} {D L s} (inv : Inv env D L s) (u : Bytes) :
    completionDeletorOps s.db u = some [] := by
  unfold completionDeletorOps LevelDB.prefixStream
  rw [LevelDB.stream_deliver _ _ _ _ _ (Nat.lt_succ_self _)]
  have : s.db.db.filter (fun e => hasPrefix (entryKey cDocCom u) e.1) = [] := by
    rw [List.filter_eq_nil_iff]
    rintro ⟨k, v⟩ he hp
    rw [hasPrefix_iff] at hp
    rcases inv.keys k v ((mem_iff_get inv.sorted k v).mp he) with rfl | ⟨c, hc, r, rfl⟩
    · obtain ⟨t, ht⟩ := hp
      have hm : sep ∈ versionKey := by
        have ht : entryKey cDocCom u ++ t = versionKey := ht
        rw [← ht]; simp [entryKey]
      revert hm
      decide
    have hn : sep ∉ c := by
      have : ∀ c ∈ cDoc :: cRefInd :: symColls, sep ∉ c := by decide
      exact this c hc
    have := (entryKey_prefix (by decide) hn).mp hp
    have hne : ∀ c ∈ cDoc :: cRefInd :: symColls, cDocCom ≠ c := by decide
    exact hne c hc this.1
  rw [this]
  rfl

theorem inv_delete {env : Env} {D : List Doc} {L : Bytes → Option Doc} {s : Store} {u : Bytes}
    (inv : Inv env D L s) (hD : Disjoint env D) :
    ∃ s', s.deleteDocument u = some s' ∧ Inv env D (latestStep L (.delete u)) s' ∧
      s'.uri = s.uri ∧ s'.refs = s.refs ∧ s'.comDB = s.comDB ∧ s'.synced = s.synced ∧
      (∀ r, s'.db.get (entryKey cRefInd r) = (effect (refDeleteOps s.uri s.refs u) (entryKey cRefInd r)).getD
        (s.db.get (entryKey cRefInd r))) := by
  obtain ⟨old, hE3, hE2, hE1⟩ := inv.greb u
  have hold : ∀ k ∈ old, ∃ c ∈ symColls, ∃ r, k = entryKey c r := old_keys hE1
  refine ⟨{ s with db := s.db.writeBatch [] (old.map BOp.del ++ refDeleteOps s.uri s.refs u ++
      [BOp.del (entryKey cDoc u)]) true }, ?_, ?_, rfl, rfl, rfl, rfl, ?_⟩
  · simp only [Store.deleteDocument, hE3, completionDeletor_nil inv]
    rfl
  · refine ⟨applyOps_sorted inv.sorted, ?_, ?_, ?_, ?_, ?_⟩
    · intro u' d h
      simp only [latestStep] at h
      split at h
      · cases h
      · exact inv.live u' d h
    · intro c hc r v
      have hn := symColls_nosep c hc
      have hnr : c ≠ cRefInd := by rintro rfl; exact refInd_notsym hc
      have hnd : c ≠ cDoc := by rintro rfl; exact doc_notsym hc
      have e1 : effect [BOp.del (entryKey cDoc u)] (entryKey c r) = none := by
        refine effect_none fun o ho => ?_
        simp only [List.mem_singleton] at ho
        subst ho
        exact key_ne doc_nosep hn (Ne.symm hnd)
      show (s.db.writeBatch [] _ true).get _ = _ ↔ _
      rw [LevelDB.get_batch]
      simp only [effect_append, e1, effect_ref_none refDeleteOps_keys hn hnr, effect_dels, Option.none_or]
      by_cases hin : entryKey c r ∈ old
      · simp only [hin, if_true, Option.getD_some, reduceCtorEq, false_iff]
        rintro ⟨u', d', x', h1, h2, -⟩
        simp only [latestStep] at h1
        split at h1
        · cases h1
        · rename_i hne
          obtain ⟨hm, hu⟩ := inv.live u' d' h1
          obtain ⟨m2, k2⟩ := lastBy_mem h2
          · obtain ⟨e, he1, he2, y, hy, hyk⟩ := hE1 _ hin
            have := hD e he1 d' hm y hy x' m2 (hyk.trans k2.symm)
            exact hne (by rw [← hu, ← this, he2])
      · simp only [hin, if_false, Option.getD_none]
        rw [inv.syms c hc r v]
        constructor
        · rintro ⟨u', d', x', h1, h2, h3⟩
          refine ⟨u', d', x', ?_, h2, h3⟩
          simp only [latestStep]
          rw [if_neg]
          · exact h1
          · rintro rfl
            obtain ⟨m2, k2⟩ := lastBy_mem h2
            exact hin (k2 ▸ hE2 _ h1 x' m2)
        · rintro ⟨u', d', x', h1, h2, h3⟩
          simp only [latestStep] at h1
          split at h1
          · cases h1
          · exact ⟨u', d', x', h1, h2, h3⟩
    · intro u'
      have hne : cDoc ≠ cRefInd := by decide
      have e3 : effect (old.map BOp.del) (entryKey cDoc u') = none := by
        rw [effect_dels, if_neg]
        intro h
        obtain ⟨c, hc, r, e⟩ := hold _ h
        exact key_ne doc_nosep (symColls_nosep c hc) (by rintro rfl; exact doc_notsym hc) e
      show (s.db.writeBatch [] _ true).get _ = _
      rw [LevelDB.get_batch]
      simp only [effect_append, e3, effect_ref_none refDeleteOps_keys doc_nosep hne, Option.or_none,
        effect, entryKey_inj doc_nosep doc_nosep, true_and, latestStep]
      split
      · simp
      · simp [inv.doc u']
    · intro k v h
      change (s.db.writeBatch [] _ true).get _ = _ at h
      rw [LevelDB.get_batch] at h
      cases he : effect (old.map BOp.del ++ refDeleteOps s.uri s.refs u ++
          [BOp.del (entryKey cDoc u)]) k with
      | none => rw [he] at h; exact inv.keys k v h
      | some r =>
        obtain ⟨o, hm, hk⟩ := effect_some he
        subst hk
        right
        simp only [List.mem_append, List.mem_map, List.mem_singleton] at hm
        rcases hm with (⟨x, hm, rfl⟩ | hm) | rfl
        · obtain ⟨c, hc, r, e⟩ := hold x hm
          exact ⟨c, by simp [hc], r, e⟩
        · obtain ⟨r, hr⟩ := refDeleteOps_keys o hm
          exact ⟨cRefInd, by simp, r, hr⟩
        · exact ⟨cDoc, by simp, u, rfl⟩
    · intro u'
      obtain ⟨old', h3, h2, h1⟩ := inv.greb u'
      refine ⟨old', h3, ?_, h1⟩
      intro d' h
      simp only [latestStep] at h
      split at h
      · cases h
      · exact h2 d' h
  · intro r
    have e1 : effect [BOp.del (entryKey cDoc u)] (entryKey cRefInd r) = none := by
      refine effect_none fun o ho => ?_
      simp only [List.mem_singleton] at ho
      subst ho
      exact key_ne doc_nosep refInd_nosep (by decide)
    have e3 : effect (old.map BOp.del) (entryKey cRefInd r) = none := by
      rw [effect_dels, if_neg]
      intro h
      obtain ⟨c, hc, r, e⟩ := hold _ h
      exact key_ne refInd_nosep (symColls_nosep c hc) (by rintro rfl; exact refInd_notsym hc) e
    show (s.db.writeBatch [] _ true).get _ = _
    rw [LevelDB.get_batch]
    simp only [effect_append, e1, e3, Option.none_or, Option.or_none]

end Verif.Store
