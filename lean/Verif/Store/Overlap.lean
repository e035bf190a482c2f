import Verif.Store.Interleave
import Verif.Store.Lookup

/-!
Any schedule of indexings and deletions, also when several work on the same file: what can still be said.
-/

namespace Verif.Store

open Verif.Encoding Verif.Storage

variable {env : Env}

/-- The batch of an indexing, with whatever it found to do in the reference index. -/
def looseOps (env : Env) (d : Doc) (old : List Bytes) (a b : List BOp) : List BOp :=
  a ++ (d.keyed env).map (fun x => BOp.put (x.dbKey env) x.serialise) ++ b
    ++ (remaining env old (d.keyed env)).map BOp.del ++ [BOp.put (entryKey cDoc d.uri) d.hash]

def RefOps (ops : List BOp) : Prop := ∀ o ∈ ops, ∃ r, opKey o = entryKey cRefInd r

theorem effect_loose_sym {d : Doc} {old : List Bytes} {a b : List BOp} (ha : RefOps a) (hb : RefOps b) {c r : Bytes}
    (hc : c ∈ symColls) :
    effect (looseOps env d old a b) (entryKey c r) =
      match lastBy (Sym.dbKey env) (entryKey c r) (d.keyed env) with
      | some x => some (some x.serialise)
      | none => if entryKey c r ∈ old then some none else none := by
  have hn := symColls_nosep c hc
  have hnr : c ≠ cRefInd := by rintro rfl; exact refInd_notsym hc
  have hnd : c ≠ cDoc := by rintro rfl; exact doc_notsym hc
  have e1 : effect [BOp.put (entryKey cDoc d.uri) d.hash] (entryKey c r) = none := by
    refine effect_none fun o ho => ?_
    simp only [List.mem_singleton] at ho
    subst ho
    exact key_ne doc_nosep hn (Ne.symm hnd)
  unfold looseOps
  simp only [effect_append, e1, effect_ref_none ha hn hnr,
    effect_ref_none hb hn hnr, effect_puts, effect_dels, mem_remaining,
    Option.none_or, Option.or_none]
  cases hl : lastBy (Sym.dbKey env) (entryKey c r) (d.keyed env) with
  | some x =>
    obtain ⟨h1, h2⟩ := lastBy_mem hl
    have : ¬ (entryKey c r ∈ old ∧ ∀ x ∈ d.keyed env, x.dbKey env ≠ entryKey c r) :=
      fun h => h.2 x h1 h2
    simp [this]
  | none =>
    have := lastBy_none.mp hl
    simp only [Option.map_none, Option.or_none]
    by_cases ho : entryKey c r ∈ old
    · simp only [ho, true_and, if_true]; rw [if_pos this]
    · simp [ho]

theorem effect_loose_doc {d : Doc} {old : List Bytes} {a b : List BOp} (ha : RefOps a) (hb : RefOps b) (u : Bytes)
    (hold : ∀ k ∈ old, ∃ c ∈ symColls, ∃ r, k = entryKey c r) :
    effect (looseOps env d old a b) (entryKey cDoc u) = if u = d.uri then some (some d.hash) else none := by
  have hne : cDoc ≠ cRefInd := by decide
  have e2 : effect ((d.keyed env).map (fun x => BOp.put (x.dbKey env) x.serialise)) (entryKey cDoc u)
      = none := by
    refine effect_none fun o ho => ?_
    obtain ⟨x, hx, rfl⟩ := List.mem_map.mp ho
    refine key_ne (coll_nosep x) doc_nosep ?_
    intro e; exact doc_notsym (e ▸ coll_mem x)
  have e3 : effect ((remaining env old (d.keyed env)).map BOp.del) (entryKey cDoc u) = none := by
    rw [effect_dels, if_neg]
    intro h
    obtain ⟨c, hc, r, e⟩ := hold _ (mem_remaining.mp h).1
    exact key_ne doc_nosep (symColls_nosep c hc) (by rintro rfl; exact doc_notsym hc) e
  unfold looseOps
  simp only [effect_append, e2, e3, effect_ref_none ha doc_nosep hne,
    effect_ref_none hb doc_nosep hne, Option.or_none]
  simp only [effect, entryKey_inj doc_nosep doc_nosep, true_and]

/-- A list of keys of symbols of versions of the file. -/
def OldOK (env : Env) (D : List Doc) (u : Bytes) (old : List Bytes) : Prop :=
  ∀ k ∈ old, ∃ d ∈ D, d.uri = u ∧ ∃ x ∈ d.keyed env, x.dbKey env = k

/-- What a call under way holds. -/
def Task.Loose (env : Env) (D : List Doc) : Task → Prop
  | .sync0 d => d ∈ D
  | .sync1 d old => d ∈ D ∧ OldOK env D d.uri old
  | .sync2 d old ops | .sync3 d old ops | .sync4 d old ops => d ∈ D ∧ OldOK env D d.uri old ∧ RefOps ops
  | .sync5 d b | .sync6 d b =>
    d ∈ D ∧ ∃ old x y, OldOK env D d.uri old ∧ RefOps x ∧ RefOps y ∧ b = looseOps env d old x y
  | .del0 _ => True
  | .del1 _ com => com = []
  | .del2 u ops => ∃ old, OldOK env D u old ∧ ops = old.map BOp.del
  | .del3 u b => ∃ old x, OldOK env D u old ∧ RefOps x ∧ b = old.map BOp.del ++ x ++ [BOp.del (entryKey cDoc u)]

/-- What holds of the store at every moment: every symbol of the recorded versions is there, and everything that is
there comes from some version. -/
structure Loose (env : Env) (D : List Doc) (L : Bytes → Option Doc) (s : Store) : Prop where
  sorted : Sorted s.db.db
  live : ∀ u d, L u = some d → d ∈ D ∧ d.uri = u
  present : ∀ u d, L u = some d → ∀ c ∈ symColls, ∀ r x,
    lastBy (Sym.dbKey env) (entryKey c r) (d.keyed env) = some x → s.db.get (entryKey c r) = some x.serialise
  only : ∀ c ∈ symColls, ∀ r v, s.db.get (entryKey c r) = some v →
    ∃ d ∈ D, ∃ x ∈ d.keyed env, x.dbKey env = entryKey c r ∧ v = x.serialise
  doc : ∀ u, s.db.get (entryKey cDoc u) = (L u).map Doc.hash
  keys : ∀ k v, s.db.get k = some v → k = versionKey ∨ ∃ c ∈ cDoc :: cRefInd :: symColls, ∃ r, k = entryKey c r
  greb : ∀ u, ∃ old : List Bytes, readDocSyms s.greb u = some old ∧ OldOK env D u old

theorem loose_of_inv {D D' L} {s : Store} (inv : Inv env D L s) (hs : ∀ d ∈ D, d ∈ D') : Loose env D' L s where
  sorted := inv.sorted
  live u d h := ⟨hs d (inv.live u d h).1, (inv.live u d h).2⟩
  present u d hL c hc r x hx := (inv.syms c hc r _).mpr ⟨u, d, x, hL, hx, rfl⟩
  only c hc r v hv := by
    obtain ⟨u, d, x, h1, h2, h3⟩ := (inv.syms c hc r v).mp hv
    exact ⟨d, hs d (inv.live u d h1).1, x, (lastBy_mem h2).1, (lastBy_mem h2).2, h3⟩
  doc := inv.doc
  keys := inv.keys
  greb u := by
    obtain ⟨old, h1, -, h3⟩ := inv.greb u
    refine ⟨old, h1, fun k hk => ?_⟩
    obtain ⟨d, hd, h⟩ := h3 k hk
    exact ⟨d, hs d hd, h⟩

theorem loose_completionDeletor {D L} {s : Store} (inv : Loose env D L s) (u : Bytes) :
    completionDeletorOps s.db u = some [] := by
  unfold completionDeletorOps LevelDB.prefixStream
  rw [LevelDB.stream_deliver _ _ _ _ _ (Nat.lt_succ_self _)]
  have : s.db.db.filter (fun e => hasPrefix (entryKey cDocCom u) e.1) = [] := by
    rw [List.filter_eq_nil_iff]
    rintro ⟨k, v⟩ he hp
    rw [hasPrefix_iff] at hp
    rcases inv.keys k v ((mem_iff_get inv.sorted k v).mp he) with rfl | ⟨c, hc, r, rfl⟩
    · obtain ⟨t, ht⟩ := hp
      have hm : sep ∈ versionKey := by
        have ht : entryKey cDocCom u ++ t = versionKey := ht
        rw [← ht]; simp [entryKey]
      revert hm
      decide
    have hn : sep ∉ c := by
      have : ∀ c ∈ cDoc :: cRefInd :: symColls, sep ∉ c := by decide
      exact this c hc
    have := (entryKey_prefix (by decide) hn).mp hp
    have hne : ∀ c ∈ cDoc :: cRefInd :: symColls, cDocCom ≠ c := by decide
    exact hne c hc this.1
  rw [this]
  rfl

theorem Loose.other {D L} {s s' : Store} (h : Loose env D L s) (hd : s'.db = s.db)
    (hg : ∀ u, ∃ old, readDocSyms s'.greb u = some old ∧ OldOK env D u old) : Loose env D L s' where
  sorted := by rw [hd]; exact h.sorted
  live := h.live
  present := by rw [hd]; exact h.present
  only := by rw [hd]; exact h.only
  doc := by rw [hd]; exact h.doc
  keys := by rw [hd]; exact h.keys
  greb := hg

theorem Loose.index {D L} {s : Store} (h : Loose env D L s) (hD : Disjoint env D) {d : Doc} (hd : d ∈ D)
    {old : List Bytes} {a b : List BOp} (ho : OldOK env D d.uri old) (ha : RefOps a) (hb : RefOps b) :
    Loose env D (latestStep L (.index d)) { s with db := s.db.writeBatch [] (looseOps env d old a b) true } where
  sorted := applyOps_sorted h.sorted
  live u d' hL := by
    simp only [latestStep] at hL
    split at hL
    · cases hL; subst_vars; exact ⟨hd, rfl⟩
    · exact h.live u d' hL
  present u d' hL c hc r x hx := by
    show (s.db.writeBatch [] _ true).get _ = _
    rw [LevelDB.get_batch, effect_loose_sym ha hb hc]
    simp only [latestStep] at hL
    split at hL
    · cases hL
      rw [hx]
      rfl
    · rename_i hne
      obtain ⟨hm, hu⟩ := h.live u d' hL
      obtain ⟨m1, k1⟩ := lastBy_mem hx
      cases hl : lastBy (Sym.dbKey env) (entryKey c r) (d.keyed env) with
      | some y =>
        obtain ⟨m2, k2⟩ := lastBy_mem hl
        exact absurd (hu.symm.trans (hD d' hm d hd x m1 y m2 (k1.trans k2.symm))) hne
      | none =>
        simp only
        rw [if_neg]
        · exact h.present u d' hL c hc r x hx
        · intro hin
          obtain ⟨e, he1, he2, y, hy, hyk⟩ := ho _ hin
          exact hne (hu.symm.trans ((hD d' hm e he1 x m1 y hy (k1.trans hyk.symm)).trans he2))
  only c hc r v hv := by
    change (s.db.writeBatch [] _ true).get _ = _ at hv
    rw [LevelDB.get_batch, effect_loose_sym ha hb hc] at hv
    cases hl : lastBy (Sym.dbKey env) (entryKey c r) (d.keyed env) with
    | some y =>
      rw [hl] at hv
      simp only [Option.getD_some, Option.some.injEq] at hv
      exact ⟨d, hd, y, (lastBy_mem hl).1, (lastBy_mem hl).2, hv.symm⟩
    | none =>
      rw [hl] at hv
      simp only at hv
      split at hv
      · cases hv
      · exact h.only c hc r v hv
  doc u := by
    show (s.db.writeBatch [] _ true).get _ = _
    rw [LevelDB.get_batch, effect_loose_doc ha hb u (old_keys ho)]
    simp only [latestStep]
    split
    · simp
    · simp [h.doc u]
  keys k v hv := by
    change (s.db.writeBatch [] _ true).get _ = _ at hv
    rw [LevelDB.get_batch] at hv
    cases he : effect (looseOps env d old a b) k with
    | none => rw [he] at hv; exact h.keys k v hv
    | some r =>
      obtain ⟨o, hm, hk⟩ := effect_some he
      subst hk
      right
      simp only [looseOps, List.mem_append, List.mem_map, List.mem_singleton] at hm
      rcases hm with (((hm | ⟨x, -, rfl⟩) | hm) | ⟨x, hm, rfl⟩) | rfl
      · obtain ⟨r, hr⟩ := ha o hm
        exact ⟨cRefInd, by simp, r, hr⟩
      · exact ⟨x.coll, by simp [coll_mem], x.key env, rfl⟩
      · obtain ⟨r, hr⟩ := hb o hm
        exact ⟨cRefInd, by simp, r, hr⟩
      · obtain ⟨c, hc, r, e⟩ := old_keys ho x (mem_remaining.mp hm).1
        exact ⟨c, by simp [hc], r, e⟩
      · exact ⟨cDoc, by simp, d.uri, rfl⟩
  greb := h.greb

theorem Loose.delete {D L} {s : Store} (h : Loose env D L s) (hD : Disjoint env D) {u : Bytes}
    {old : List Bytes} {a : List BOp} (ho : OldOK env D u old) (ha : RefOps a) :
    Loose env D (latestStep L (.delete u))
      { s with db := s.db.writeBatch [] (old.map BOp.del ++ a ++ [BOp.del (entryKey cDoc u)]) true } := by
  have hsym : ∀ c ∈ symColls, ∀ r, effect (old.map BOp.del ++ a ++ [BOp.del (entryKey cDoc u)]) (entryKey c r) =
      if entryKey c r ∈ old then some none else none := by
    intro c hc r
    have hn := symColls_nosep c hc
    have hnr : c ≠ cRefInd := by rintro rfl; exact refInd_notsym hc
    have hnd : c ≠ cDoc := by rintro rfl; exact doc_notsym hc
    have e1 : effect [BOp.del (entryKey cDoc u)] (entryKey c r) = none := by
      refine effect_none fun o ho => ?_
      simp only [List.mem_singleton] at ho
      subst ho
      exact key_ne doc_nosep hn (Ne.symm hnd)
    simp only [effect_append, e1, effect_ref_none ha hn hnr, effect_dels, Option.none_or]
  refine ⟨applyOps_sorted h.sorted, ?_, ?_, ?_, ?_, ?_, h.greb⟩
  · intro u' d hL
    simp only [latestStep] at hL
    split at hL
    · cases hL
    · exact h.live u' d hL
  · intro u' d' hL c hc r x hx
    simp only [latestStep] at hL
    split at hL
    · cases hL
    · rename_i hne
      show (s.db.writeBatch [] _ true).get _ = _
      rw [LevelDB.get_batch, hsym c hc, if_neg]
      · exact h.present u' d' hL c hc r x hx
      · intro hin
        obtain ⟨hm, hu⟩ := h.live u' d' hL
        obtain ⟨m1, k1⟩ := lastBy_mem hx
        obtain ⟨e, he1, he2, y, hy, hyk⟩ := ho _ hin
        exact hne (hu.symm.trans ((hD d' hm e he1 x m1 y hy (k1.trans hyk.symm)).trans he2))
  · intro c hc r v hv
    change (s.db.writeBatch [] _ true).get _ = _ at hv
    rw [LevelDB.get_batch, hsym c hc] at hv
    split at hv
    · cases hv
    · exact h.only c hc r v hv
  · intro v
    show (s.db.writeBatch [] _ true).get _ = _
    rw [LevelDB.get_batch]
    have e1 : effect (old.map BOp.del) (entryKey cDoc v) = none := by
      rw [effect_dels, if_neg]
      intro hin
      obtain ⟨c, hc, r, e⟩ := old_keys ho _ hin
      exact key_ne doc_nosep (symColls_nosep c hc) (by rintro rfl; exact doc_notsym hc) e
    simp only [effect_append, e1, effect_ref_none ha doc_nosep (by decide : cDoc ≠ cRefInd), Option.or_none]
    simp only [effect, entryKey_inj doc_nosep doc_nosep, true_and, latestStep]
    split
    · simp
    · simp [h.doc v]
  · intro k v hv
    change (s.db.writeBatch [] _ true).get _ = _ at hv
    rw [LevelDB.get_batch] at hv
    cases he : effect (old.map BOp.del ++ a ++ [BOp.del (entryKey cDoc u)]) k with
    | none => rw [he] at hv; exact h.keys k v hv
    | some r =>
      obtain ⟨o, hm, hk⟩ := effect_some he
      subst hk
      right
      simp only [List.mem_append, List.mem_map, List.mem_singleton] at hm
      rcases hm with (⟨x, hm, rfl⟩ | hm) | rfl
      · obtain ⟨c, hc, r, e⟩ := old_keys ho x hm
        exact ⟨c, by simp [hc], r, e⟩
      · obtain ⟨r, hr⟩ := ha o hm
        exact ⟨cRefInd, by simp, r, hr⟩
      · exact ⟨cDoc, by simp, u, rfl⟩

/-- One step of any call. -/
theorem loose_next {D L} {s : Store} {t : Task} (hdocs : ∀ d ∈ D, DocOK env d) (hD : Disjoint env D)
    (h : Loose env D L s) (ht : t.Loose env D) :
    (∃ s' t', t.next env s = some (s', some t') ∧ t'.work = t.work ∧ t'.Loose env D ∧ Loose env D L s') ∨
    (∃ s', t.next env s = some (s', none) ∧ Loose env D (latestStep L t.work.op) s') := by
  cases t with
  | sync0 d =>
    obtain ⟨old, h1, h2⟩ := h.greb d.uri
    exact .inl ⟨s, .sync1 d old, by simp [Task.next, h1], rfl, ⟨ht, h2⟩, h⟩
  | sync1 d old =>
    exact .inl ⟨s, _, rfl, rfl, ⟨ht.1, ht.2, refDeleteOps_keys⟩, h⟩
  | sync2 d old ops =>
    refine .inl ⟨_, _, rfl, rfl, ht, h.other rfl fun u => ?_⟩
    simp only
    by_cases hu : u = d.uri
    · subst hu
      refine ⟨_, readDocSyms_put_self (hdocs d ht.1) s.greb, ?_⟩
      intro k hk
      obtain ⟨x, hx, rfl⟩ := List.mem_map.mp hk
      exact ⟨d, ht.1, rfl, x, hx, rfl⟩
    · rw [readDocSyms_put_other (docSym_ne hu)]
      exact h.greb u
  | sync3 d old ops =>
    refine .inl ⟨_, _, rfl, rfl, ht, h.other rfl fun u => ?_⟩
    simp only
    rw [readDocSyms_put_other (key_ne (by decide) (by decide) (by decide))]
    exact h.greb u
  | sync4 d old ops =>
    exact .inl ⟨_, _, rfl, rfl, ⟨ht.1, old, ops, _, ht.2.1, ht.2.2, refIndexOps_keys, rfl⟩, h.other rfl h.greb⟩
  | sync5 d b =>
    exact .inl ⟨_, _, rfl, rfl, ht, h.other rfl h.greb⟩
  | sync6 d b =>
    obtain ⟨hd, old, x, y, h1, h2, h3, rfl⟩ := ht
    exact .inr ⟨_, rfl, h.index hD hd h1 h2 h3⟩
  | del0 u =>
    exact .inl ⟨s, .del1 u [], by simp [Task.next, loose_completionDeletor h u], rfl, rfl, h⟩
  | del1 u com =>
    obtain ⟨old, h1, h2⟩ := h.greb u
    have hc : com = [] := ht
    exact .inl ⟨s, .del2 u (com ++ old.map BOp.del), by simp [Task.next, h1], rfl, ⟨old, h2, by rw [hc]; rfl⟩, h⟩
  | del2 u ops =>
    obtain ⟨old, h1, rfl⟩ := ht
    exact .inl ⟨s, _, rfl, rfl, ⟨old, _, h1, refDeleteOps_keys, rfl⟩, h⟩
  | del3 u b =>
    obtain ⟨old, x, h1, h2, rfl⟩ := ht
    exact .inr ⟨_, rfl, h.delete hD h1 h2⟩

/-- The state of any schedule. -/
def LooseSound (env : Env) (h : List HOp) (D : List Doc) (c : Conc) : Prop :=
  Loose env D (latest (h ++ c.finished.map Work.op)) c.store ∧ ∀ t ∈ c.tasks, t.Loose env D

theorem loose_sound_step {h : List HOp} {D : List Doc} {c : Conc} (hdocs : ∀ d ∈ D, DocOK env d)
    (hD : Disjoint env D) (hs : LooseSound env h D c) {i : Nat} {t : Task} (ht : c.tasks[i]? = some t) :
    ∃ c', c.step env (.step i) = some c' ∧ LooseSound env h D c' ∧
      List.Perm (c'.finished ++ c'.tasks.map Task.work) (c.finished ++ c.tasks.map Task.work) := by
  obtain ⟨p1, p2⟩ := set_perm ht
  have pw : List.Perm (c.tasks.map Task.work) (t.work :: (c.tasks.eraseIdx i).map Task.work) := p1.map Task.work
  rcases loose_next hdocs hD hs.1 (hs.2 t (List.mem_of_getElem? ht)) with ⟨s', t', h1, h2, h3, h4⟩ | ⟨s', h1, h2⟩
  · refine ⟨{ c with store := s', tasks := c.tasks.set i t' }, by simp only [Conc.step, ht, h1], ⟨h4, ?_⟩, ?_⟩
    · intro x hx
      rcases List.mem_cons.mp ((p2 t').mem_iff.mp hx) with rfl | hx
      · exact h3
      · exact hs.2 x (p1.mem_iff.mpr (List.mem_cons_of_mem _ hx))
    · refine List.Perm.append_left _ (((p2 t').map Task.work).trans ?_)
      rw [List.map_cons, h2]
      exact pw.symm
  · refine ⟨{ store := s', tasks := c.tasks.eraseIdx i, finished := c.finished ++ [t.work] },
      by simp only [Conc.step, ht, h1], ⟨?_, ?_⟩, ?_⟩
    · show Loose env D (latest (h ++ (c.finished ++ [t.work]).map Work.op)) s'
      have : latest (h ++ (c.finished ++ [t.work]).map Work.op) =
          latestStep (latest (h ++ c.finished.map Work.op)) t.work.op := by simp [latest]
      rw [this]
      exact h2
    · intro x hx
      exact hs.2 x (p1.mem_iff.mpr (List.mem_cons_of_mem _ hx))
    · show List.Perm ((c.finished ++ [t.work]) ++ (c.tasks.eraseIdx i).map Task.work) _
      rw [List.append_assoc]
      exact List.Perm.append_left _ pw.symm

theorem loose_sound_run {h : List HOp} {D : List Doc} (hdocs : ∀ d ∈ D, DocOK env d) (hD : Disjoint env D)
    (es : List Ev) (c : Conc) (hsub : ∀ d, .index d ∈ started es → d ∈ D) (hs : LooseSound env h D c) (c' : Conc)
    (hr : c.run env es = some c') :
    LooseSound env h D c' ∧
      List.Perm (c'.finished ++ c'.tasks.map Task.work) (c.finished ++ c.tasks.map Task.work ++ started es) := by
  induction es generalizing c with
  | nil => cases hr; exact ⟨hs, by simp [started]⟩
  | cons e es ih =>
    simp only [Conc.run] at hr
    cases h1 : c.step env e with
    | none => rw [h1] at hr; cases hr
    | some c1 =>
      rw [h1] at hr
      cases e with
      | start w =>
        have hst : started (.start w :: es) = w :: started es := rfl
        cases h1
        have hw5 : w.start.work = w := by cases w <;> rfl
        obtain ⟨g1, g2⟩ := ih { c with tasks := c.tasks ++ [w.start] } (fun x hx => hsub x (by rw [hst]; simp [hx])) ⟨hs.1, by
          intro x hx
          simp only [List.mem_append, List.mem_singleton] at hx
          rcases hx with hx | rfl
          · exact hs.2 x hx
          · cases w with
            | index d => exact hsub d (by rw [hst]; simp)
            | delete u => trivial⟩ hr
        refine ⟨g1, g2.trans ?_⟩
        rw [hst]
        simp [hw5]
      | step i =>
        have hst : started (.step i :: es) = started es := rfl
        cases ht : c.tasks[i]? with
        | none => simp only [Conc.step, ht] at h1; cases h1
        | some t =>
          obtain ⟨c2, k1, k2, k3⟩ := loose_sound_step hdocs hD hs ht
          rw [h1] at k1
          cases k1
          obtain ⟨g1, g2⟩ := ih c1 (fun x hx => hsub x (by rw [hst]; exact hx)) k2 hr
          exact ⟨g1, g2.trans (by rw [hst]; exact List.Perm.append_right _ k3)⟩

/-- A scan of the keys of one kind that start with `p`. -/
theorem loose_scan {α} (K : KindSpec α) {D L} {s : Store} (inv : Loose env D L s) (hok : ∀ d ∈ D, DocOK env d)
    (p : Bytes) :
    ∃ xs : List α, scanDecode s.db (entryKey K.coll p) K.read = some (xs.map K.st) ∧
      (∀ a ∈ xs, (∃ d ∈ D, K.con a ∈ d.keyed env) ∧ p <+: (K.con a).key env) ∧
      ∀ a, LiveK env L (K.con a) → p <+: (K.con a).key env → K.st a ∈ xs.map K.st := by
  have hn := symColls_nosep _ K.mem
  have hes : ∀ e ∈ s.db.db.filter (fun e => hasPrefix (entryKey K.coll p) e.1),
      ∃ a, e = ((K.con a).dbKey env, (K.con a).serialise) ∧
        ((∃ d ∈ D, K.con a ∈ d.keyed env) ∧ p <+: (K.con a).key env) := by
    rintro ⟨k, v⟩ he
    obtain ⟨hm, hp⟩ := List.mem_filter.mp he
    rw [hasPrefix_iff] at hp
    obtain ⟨t, rfl⟩ := hp
    have hk : entryKey K.coll p ++ t = entryKey K.coll (p ++ t) := by simp [entryKey]
    have hg := (mem_iff_get inv.sorted _ _).mp hm
    simp only [hk] at hg ⊢
    obtain ⟨d, h0, x, h1, h2, h3⟩ := inv.only _ K.mem _ _ hg
    have h4 := (entryKey_inj (coll_nosep x) hn).mp h2
    obtain ⟨a, rfl⟩ := K.con_surj x h4.1
    exact ⟨a, by rw [h2, h3], ⟨d, h0, h1⟩, ⟨t, h4.2.symm⟩⟩
  have choose : ∀ es : Entries, (∀ e ∈ es, ∃ a, e = ((K.con a).dbKey env, (K.con a).serialise) ∧
      ((∃ d ∈ D, K.con a ∈ d.keyed env) ∧ p <+: (K.con a).key env)) →
      ∃ xs : List α, es = xs.map (fun a => ((K.con a).dbKey env, (K.con a).serialise)) ∧
        ∀ a ∈ xs, (∃ d ∈ D, K.con a ∈ d.keyed env) ∧ p <+: (K.con a).key env := by
    intro es
    induction es with
    | nil => intro _; exact ⟨[], rfl, by simp⟩
    | cons e es ih =>
      intro h
      obtain ⟨a, h1, h2⟩ := h e (by simp)
      obtain ⟨xs, h3, h4⟩ := ih fun e he => h e (by simp [he])
      exact ⟨a :: xs, by simp [h1, h3], by simpa using ⟨h2, h4⟩⟩
  obtain ⟨xs, h1, h2⟩ := choose _ hes
  have hread : ∀ a ∈ xs, ∃ rest, K.read (K.con a).serialise = some (K.st a, rest) := by
    intro a ha
    obtain ⟨⟨d, hd, hx⟩, -⟩ := h2 a ha
    exact K.reads a ((hok d hd).syms _ (mem_keyed.mp hx).1).wf
  refine ⟨xs, ?_, h2, ?_⟩
  · unfold scanDecode LevelDB.prefixStream
    rw [LevelDB.stream_deliver _ _ _ _ _ (Nat.lt_succ_self _), deliver_all, h1]
    rw [scan_foldl K.read xs _ K.st, List.nil_append]
    exact hread
  · rintro a ⟨u, d, hL, hlast⟩ hpre
    have hdb : (K.con a).dbKey env = entryKey K.coll ((K.con a).key env) := by
      rw [Sym.dbKey, K.con_coll]
    have hg : s.db.get ((K.con a).dbKey env) = some (K.con a).serialise := by
      rw [hdb] at hlast ⊢
      exact inv.present u d hL _ K.mem _ _ hlast
    have hm : ((K.con a).dbKey env, (K.con a).serialise) ∈
        s.db.db.filter (fun e => hasPrefix (entryKey K.coll p) e.1) := by
      refine List.mem_filter.mpr ⟨(mem_iff_get inv.sorted _ _).mpr hg, ?_⟩
      rw [hasPrefix_iff]
      simp only [hdb]
      exact (entryKey_prefix hn hn).mpr ⟨rfl, hpre⟩
    rw [h1] at hm
    obtain ⟨b, hb, e⟩ := List.mem_map.mp hm
    simp only [Prod.mk.injEq] at e
    have hda := (hok d (inv.live u d hL).1).syms _ (mem_keyed.mp (lastBy_mem hlast).1).1
    obtain ⟨r1, k1⟩ := K.reads a hda.wf
    obtain ⟨r2, k2⟩ := hread b hb
    rw [e.2, k1] at k2
    simp only [Option.some.injEq, Prod.mk.injEq] at k2
    rw [k2.1]
    exact List.mem_map_of_mem hb

end Verif.Store
