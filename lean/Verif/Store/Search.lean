import Verif.Store.Lookup

/-! Keyword searches: the completion store over every history, and what a search computes. -/

namespace Verif.Store

open Verif.Encoding Verif.Storage

/-! ### the completion store -/

/-- Nothing is ever removed from the completion store. -/
structure CInv (env : Env) (D : List Doc) (L : Bytes → Option Doc) (c : LevelDB) : Prop where
  sorted : Sorted c.db
  sound : ∀ k v, c.get k = some v → ∃ d ∈ D, BOp.put k v ∈ completionOps env d
  complete : ∀ u d, L u = some d → ∀ k v, BOp.put k v ∈ completionOps env d → ∃ v', c.get k = some v'

theorem completionOps_put {env : Env} {d : Doc} {o : BOp} (h : o ∈ completionOps env d) : ∃ k v, o = .put k v := by
  have aux : ∀ u c n k, o ∈ indexNameOps env u c n k → ∃ k v, o = .put k v := by
    intro u c n k h
    simp only [indexNameOps, List.mem_append, List.mem_map, List.mem_singleton] at h
    rcases h with ⟨_, _, rfl⟩ | rfl <;> exact ⟨_, _, rfl⟩
  simp only [completionOps, List.mem_append, List.mem_flatMap] at h
  rcases h with ⟨n, -, h⟩ | ⟨x, -, h⟩
  · simp only [namespaceOps, List.mem_flatMap] at h
    obtain ⟨p, -, h⟩ := h
    exact aux _ _ _ _ h
  · cases hi : x.indexable env with
    | none => rw [hi] at h; simp at h
    | some p => rw [hi] at h; exact aux _ _ _ _ h

theorem effect_puts_only {ops : List BOp} (hp : ∀ o ∈ ops, ∃ k v, o = BOp.put k v) (k : Bytes) :
    (effect ops k = none ∧ ∀ v, BOp.put k v ∉ ops) ∨ ∃ v, effect ops k = some (some v) ∧ BOp.put k v ∈ ops := by
  induction ops with
  | nil => exact .inl ⟨rfl, by simp⟩
  | cons o ops ih =>
    rcases ih fun o ho => hp o (by simp [ho]) with ⟨h1, h2⟩ | ⟨v, h1, h2⟩
    · obtain ⟨k', v', rfl⟩ := hp o (by simp)
      simp only [effect, h1]
      by_cases e : k = k'
      · exact .inr ⟨v', by simp [e], by simp [e]⟩
      · refine .inl ⟨by simp [e], fun v hv => ?_⟩
        rcases List.mem_cons.mp hv with hv | hv
        · cases hv; exact e rfl
        · exact h2 v hv
    · exact .inr ⟨v, by simp only [effect, h1], by simp [h2]⟩

theorem cinv_commit {env : Env} {D L L'} {c : LevelDB} {d : Doc} (ci : CInv env D L c)
    (hL : ∀ u d', L' u = some d' → L u = some d' ∨ d' = d) :
    CInv env (D ++ [d]) L' (c.writeBatch [] (completionOps env d) true) where
  sorted := applyOps_sorted ci.sorted
  sound := by
    intro k v hg
    rw [LevelDB.get_batch] at hg
    rcases effect_puts_only (fun o ho => completionOps_put ho) k (ops := completionOps env d) with ⟨h1, -⟩ | ⟨w, h1, h2⟩
    · rw [h1] at hg
      obtain ⟨d', m, hm⟩ := ci.sound k v hg
      exact ⟨d', by simp [m], hm⟩
    · rw [h1] at hg
      simp only [Option.getD_some, Option.some.injEq] at hg
      subst hg
      exact ⟨d, by simp, h2⟩
  complete := by
    intro u d' hu k v hm
    rw [LevelDB.get_batch]
    rcases effect_puts_only (fun o ho => completionOps_put ho) k (ops := completionOps env d) with ⟨h1, h2⟩ | ⟨w, h1, -⟩
    · rw [h1]
      rcases hL u d' hu with h | rfl
      · exact ci.complete u d' h k v hm
      · exact absurd hm (h2 v)
    · exact ⟨w, by rw [h1]; rfl⟩

theorem cinv_keep {env : Env} {D L L'} {c : LevelDB} (D' : List Doc) (ci : CInv env D L c)
    (hL : ∀ u d', L' u = some d' → L u = some d') : CInv env (D ++ D') L' c where
  sorted := ci.sorted
  sound k v hg := by
    obtain ⟨d', m, hm⟩ := ci.sound k v hg
    exact ⟨d', by simp [m], hm⟩
  complete u d' hu := ci.complete u d' (hL u d' hu)

theorem restart_comDB {s s' : Store} (h : s.restart = some s') : s'.comDB = s.comDB := by
  unfold Store.restart at h
  cases hl : loadRefs s.db with
  | none => rw [hl] at h; cases h
  | some r => rw [hl] at h; cases h; rfl

theorem delete_comDB {s s' : Store} {u : Bytes} (h : s.deleteDocument u = some s') : s'.comDB = s.comDB := by
  unfold Store.deleteDocument at h
  cases h1 : completionDeletorOps s.db u with
  | none => rw [h1] at h; cases h
  | some a =>
    cases h2 : readDocSyms s.greb u with
    | none => rw [h1, h2] at h; cases h
    | some b => rw [h1, h2] at h; cases h; rfl

theorem step_cinv {env : Env} {D L} {s s' : Store} {o : HOp} (ci : CInv env D L s.comDB)
    (h : step env s o = some s') : CInv env (D ++ docs [o]) (latestStep L o) s'.comDB := by
  cases o with
  | index d =>
    rw [(sync_greb h).2.1]
    refine cinv_commit ci fun u d' hu => ?_
    simp only [latestStep] at hu
    split at hu
    · exact .inr (Option.some.inj hu).symm
    · exact .inl hu
  | delete v =>
    rw [delete_comDB h]
    refine cinv_keep _ ci fun u d' hu => ?_
    simp only [latestStep] at hu
    split at hu
    · cases hu
    · exact hu
  | restart =>
    rw [restart_comDB h]
    exact cinv_keep _ ci fun u d' hu => hu
  | upgrade v =>
    cases h
    exact cinv_keep _ ci fun u d' hu => by cases hu
  | crash d k =>
    simp only [step, Store.crashDuring] at h
    cases h1 : s.sync env d with
    | none => rw [h1] at h; cases h
    | some t =>
      rw [h1] at h
      have := restart_comDB h
      simp only at this
      rw [this]
      by_cases hk : k < 3
      · rw [if_pos hk]
        refine cinv_keep _ ci fun u d' hu => ?_
        simp only [latestStep] at hu
        rw [if_neg (by omega)] at hu
        exact hu
      · rw [if_neg hk, (sync_greb h1).2.1]
        refine cinv_commit ci fun u d' hu => ?_
        simp only [latestStep] at hu
        split at hu
        · exact .inr (Option.some.inj hu).symm
        · exact .inl hu

theorem run_cinv {env : Env} {root : Bytes} {h : List HOp} {s : Store} (hs : run env root h = some s) :
    CInv env (docs h) (latest h) s.comDB := by
  have key : ∀ (h : List HOp) (D L) (t : Store), CInv env D L t.comDB → ∀ s, runFrom env (some t) h = some s →
      CInv env (D ++ docs h) (h.foldl latestStep L) s.comDB := by
    intro h
    induction h with
    | nil => intro D L t ci s hs; cases hs; simpa [docs] using ci
    | cons o h ih =>
      intro D L t ci s hs
      have : runFrom env (some t) (o :: h) = runFrom env (step env t o) h := rfl
      rw [this] at hs
      cases h1 : step env t o with
      | none =>
        rw [h1] at hs
        have : ∀ h : List HOp, runFrom env none h = none := by
          intro h
          induction h with
          | nil => rfl
          | cons o h ih => exact ih
        rw [this] at hs; cases hs
      | some t' =>
        rw [h1] at hs
        rw [docs_cons, ← List.append_assoc]
        exact ih _ _ t' (step_cinv ci h1) s hs
  have := key h [] (fun _ => none) (Store.new root) ⟨List.Pairwise.nil, by
    intro k v h; simp [Store.new, LevelDB.new, LevelDB.get, Storage.get] at h, by simp⟩ s hs
  rw [List.nil_append] at this
  exact this

/-! ### what a search computes -/

/-- Keep the first occurrence of every value that is not in `seen`. -/
def dedupFrom (seen : List Bytes) : List Bytes → List Bytes
  | [] => []
  | v :: vs => if v ∈ seen then dedupFrom seen vs else v :: dedupFrom (v :: seen) vs

theorem mem_dedupFrom {seen vs : List Bytes} {v : Bytes} : v ∈ dedupFrom seen vs ↔ v ∈ vs ∧ v ∉ seen := by
  induction vs generalizing seen with
  | nil => simp [dedupFrom]
  | cons a vs ih =>
    unfold dedupFrom
    split
    · rename_i h
      rw [ih]
      constructor
      · rintro ⟨h1, h2⟩; exact ⟨by simp [h1], h2⟩
      · rintro ⟨h1, h2⟩
        rcases List.mem_cons.mp h1 with rfl | h1
        · exact absurd h h2
        · exact ⟨h1, h2⟩
    · rename_i h
      rw [List.mem_cons, ih]
      constructor
      · rintro (rfl | ⟨h1, h2⟩)
        · exact ⟨by simp, h⟩
        · exact ⟨by simp [h1], fun h' => h2 (by simp [h'])⟩
      · rintro ⟨h1, h2⟩
        by_cases e : v = a
        · exact .inl e
        · refine .inr ⟨(List.mem_cons.mp h1).resolve_left e, fun h' => ?_⟩
          rcases List.mem_cons.mp h' with h' | h'
          · exact e h'
          · exact h2 h'

theorem dedupFrom_nodup (seen vs : List Bytes) : (dedupFrom seen vs).Nodup := by
  induction vs generalizing seen with
  | nil => exact List.nodup_nil
  | cons a vs ih =>
    unfold dedupFrom
    split
    · exact ih _
    · refine List.nodup_cons.mpr ⟨?_, ih _⟩
      rw [mem_dedupFrom]
      simp

theorem dedupFrom_append (seen a b : List Bytes) :
    dedupFrom seen (a ++ b) = dedupFrom seen a ++ dedupFrom ((dedupFrom seen a).reverse ++ seen) b := by
  induction a generalizing seen with
  | nil => simp [dedupFrom]
  | cons v a ih =>
    simp only [List.cons_append, dedupFrom]
    split
    · exact ih _
    · rw [ih]
      simp

/-- Feed values to a consumer until it stops; the flag says whether it never stopped. -/
def runStop {σ} (onData : σ → Bytes → Option (σ × Bool)) : σ → List Bytes → Option (σ × Bool)
  | u, [] => some (u, true)
  | u, v :: vs =>
    match onData u v with
    | none => none
    | some (u, true) => some (u, false)
    | some (u, false) => runStop onData u vs

theorem runStop_append {σ} (onData : σ → Bytes → Option (σ × Bool)) (u : σ) (a b : List Bytes) :
    runStop onData u (a ++ b) = match runStop onData u a with
      | none => none
      | some (u, true) => runStop onData u b
      | some (u, false) => some (u, false) := by
  induction a generalizing u with
  | nil => simp [runStop]
  | cons v a ih =>
    simp only [List.cons_append, runStop]
    cases onData u v with
    | none => rfl
    | some p =>
      obtain ⟨u', b'⟩ := p
      cases b'
      · exact ih u'
      · rfl

/-- The value of a completion entry. -/
def entryVal (e : Bytes × Bytes) : Bytes := ((readString e.2).map (·.1)).getD []

theorem deliver_search {σ} (onData : σ → Bytes → Option (σ × Bool)) (es : Entries)
    (hd : ∀ e ∈ es, ∃ v r, readString e.2 = some (v, r)) (u : σ) (seen : List Bytes) :
    match runStop onData u (dedupFrom seen (es.map entryVal)) with
    | none => deliver (searchStep onData) es (some ⟨u, seen, true, false⟩) = none
    | some (u', true) => deliver (searchStep onData) es (some ⟨u, seen, true, false⟩) =
        some ⟨u', (dedupFrom seen (es.map entryVal)).reverse ++ seen, true, false⟩
    | some (u', false) => ∃ seen', deliver (searchStep onData) es (some ⟨u, seen, true, false⟩) =
        some ⟨u', seen', false, true⟩ := by
  induction es generalizing u seen with
  | nil => simp [dedupFrom, runStop, deliver]
  | cons e es ih =>
    obtain ⟨v, r, hv⟩ := hd e (by simp)
    have hval : entryVal e = v := by simp [entryVal, hv]
    have ih := ih fun e he => hd e (by simp [he])
    rw [List.map_cons, hval]
    by_cases hs : v ∈ seen
    · have hstep : searchStep onData (some ⟨u, seen, true, false⟩) e = (some ⟨u, seen, true, false⟩, false) := by
        simp [searchStep, hv, hs]
      simp only [dedupFrom, if_pos hs, deliver, hstep]
      exact ih u seen
    · simp only [dedupFrom, if_neg hs, deliver, runStop]
      cases ho : onData u v with
      | none =>
        have hstep : searchStep onData (some ⟨u, seen, true, false⟩) e = (none, true) := by
          simp [searchStep, hv, hs, ho]
        simp [hstep]
      | some p =>
        obtain ⟨u', b⟩ := p
        cases b with
        | true =>
          have hstep : searchStep onData (some ⟨u, seen, true, false⟩) e =
              (some ⟨u', v :: seen, false, true⟩, true) := by
            simp [searchStep, hv, hs, ho]
          simp [hstep]
        | false =>
          have hstep : searchStep onData (some ⟨u, seen, true, false⟩) e =
              (some ⟨u', v :: seen, true, false⟩, false) := by
            simp [searchStep, hv, hs, ho]
          simp only [hstep]
          have := ih u' (v :: seen)
          simpa using this

/-- All values under the words of a keyword, in the order they are met. -/
def hits (env : Env) (db : LevelDB) (collection : Bytes) (words : List Bytes) : List Bytes :=
  words.flatMap fun w => (db.db.filter fun e => hasPrefix (entryKey collection (env.lower w)) e.1).map entryVal

theorem search_eq {σ} (env : Env) (db : LevelDB) (c kw : Bytes) (onData : σ → Bytes → Option (σ × Bool)) (init : σ)
    (hd : ∀ e ∈ db.db, entryKey c [] <+: e.1 → ∃ v r, readString e.2 = some (v, r)) :
    searchCompletions env db c kw onData init = runStop onData init (dedupFrom [] (hits env db c (env.tokenise kw))) := by
  unfold searchCompletions
  have hstopped : ∀ (ws : List Bytes) (st : SearchSt σ), st.shouldStop = true →
      ws.foldl (searchWord env db c onData) (some st) = some st := by
    intro ws
    induction ws with
    | nil => intros; rfl
    | cons w ws ih => intro st h; rw [List.foldl_cons]; simp only [searchWord, h, if_true]; exact ih st h
  have hnone : ∀ (ws : List Bytes), ws.foldl (searchWord env db c onData) none = none := by
    intro ws
    induction ws with
    | nil => rfl
    | cons w ws ih => exact ih
  have key : ∀ (ws : List Bytes) (u : σ) (seen : List Bytes),
      (ws.foldl (searchWord env db c onData) (some ⟨u, seen, true, false⟩)).map (fun st => (st.user, st.isComplete)) =
        runStop onData u (dedupFrom seen (hits env db c ws)) := by
    intro ws
    induction ws with
    | nil => intros; rfl
    | cons w ws ih =>
      intro u seen
      have hh : hits env db c (w :: ws) =
          (db.db.filter fun e => hasPrefix (entryKey c (env.lower w)) e.1).map entryVal ++ hits env db c ws := rfl
      rw [hh, dedupFrom_append, runStop_append, List.foldl_cons]
      have hw : searchWord env db c onData (some ⟨u, seen, true, false⟩) w =
          deliver (searchStep onData) (db.db.filter fun e => hasPrefix (entryKey c (env.lower w)) e.1)
            (some ⟨u, seen, true, false⟩) := by
        simp only [searchWord, Bool.false_eq_true, if_false]
        unfold LevelDB.prefixStream
        rw [LevelDB.stream_deliver _ _ _ _ _ (Nat.lt_succ_self _)]
      have hdel := deliver_search onData (db.db.filter fun e => hasPrefix (entryKey c (env.lower w)) e.1) (by
        intro e he
        obtain ⟨h1, h2⟩ := List.mem_filter.mp he
        rw [hasPrefix_iff] at h2
        refine hd e h1 (List.IsPrefix.trans ?_ h2)
        exact ⟨env.lower w, by simp [entryKey]⟩) u seen
      rw [hw]
      revert hdel
      cases runStop onData u (dedupFrom seen
          ((db.db.filter fun e => hasPrefix (entryKey c (env.lower w)) e.1).map entryVal)) with
      | none =>
        intro hdel
        simp only at hdel ⊢
        rw [hdel, hnone]; rfl
      | some p =>
        obtain ⟨u', b⟩ := p
        cases b with
        | true =>
          intro hdel
          simp only at hdel ⊢
          rw [hdel]
          exact ih u' _
        | false =>
          intro hdel
          obtain ⟨seen', hdel⟩ := hdel
          simp only
          rw [hdel, hstopped _ _ rfl]
          rfl
  exact key _ init []

end Verif.Store
