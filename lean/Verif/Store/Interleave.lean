import Verif.Store.Concurrent
import Verif.Store.PropsNamespaces
import Verif.Store.PropsRefs

/-!
Calls for different files do not disturb each other: at every moment of every schedule the store is the one reached
by the calls that have returned, one after the other, plus what the calls under way have written ahead.
-/

namespace Verif.Store

open Verif.Encoding Verif.Storage

/-! ### sorted lists of entries -/

theorem entries_ext {a b : Entries} (ha : Sorted a) (hb : Sorted b) (h : ∀ k, Storage.get k a = Storage.get k b) :
    a = b := by
  have key : ∀ e, e ∈ a ↔ e ∈ b := by
    rintro ⟨k, v⟩
    rw [mem_iff_get ha, mem_iff_get hb, h]
  have na : a.Nodup := ha.imp fun h e => by subst e; rw [bLt_irrefl] at h; cases h
  have nb : b.Nodup := hb.imp fun h e => by subst e; rw [bLt_irrefl] at h; cases h
  have hp : List.Perm a b := (List.perm_ext_iff_of_nodup na nb).mpr key
  exact List.Perm.eq_of_pairwise (fun x y _ _ h1 h2 => by
    have := bLt_asymm h1; rw [h2] at this; cases this) ha hb hp

theorem levelDB_ext {a b : LevelDB} (ha : Sorted a.db) (hb : Sorted b.db) (h : ∀ k, a.get k = b.get k) : a = b := by
  cases a; cases b
  congr 1
  exact entries_ext ha hb h

/-! ### what two files put into the completion store -/

/-- What is put into the completion store under which key. -/
theorem completion_shape {env : Env} {d : Doc} {k v : Bytes} (hl : env.LowerOK)
    (htok : ∀ n, sep ∉ n → ∀ t ∈ env.tokenise n, sep ∉ t)
    (hnames : ∀ x ∈ d.symbols, ∀ n, x.searchName env = some n → sep ∉ n)
    (hns : ∀ n ∈ d.namespaces, sep ∉ n) (h : BOp.put k v ∈ completionOps env d) :
    (∃ c t sk, sep ∉ c ∧ c ≠ cNamCom ∧ c ≠ cDocCom ∧ sep ∉ t ∧ k = entryKey c (t ++ sep :: sk) ∧ v = writeString sk) ∨
    (∃ a key i, sep ∉ key ∧ sep ∉ i ∧ k = entryKey cNamCom (a ++ sep :: (key ++ sep :: i)) ∧
      v = writeString (key ++ sep :: i)) ∨
    ∃ r, k = entryKey cDocCom (d.uri ++ sep :: r) := by
  simp only [completionOps, List.mem_append, List.mem_flatMap] at h
  rcases h with ⟨n, hn, h⟩ | ⟨x, hx, h⟩
  · simp only [namespaceOps, List.mem_flatMap, indexNameOps, List.mem_append, List.mem_map, List.mem_singleton,
      completionKeys, List.map_map] at h
    obtain ⟨⟨⟨sc, p⟩, i⟩, hi, h⟩ := h
    rcases h with ⟨t, ht, h⟩ | h
    · simp only [BOp.put.injEq, Function.comp] at h
      have hkey : sep ∉ (indexablesFromNamespaceName n).2 := by
        have := hns n hn
        simp only [indexablesFromNamespaceName, List.mem_cons, not_or]
        refine ⟨by decide, ?_⟩
        cases n with
        | nil => simp [dropBackslash]
        | cons a n =>
          simp only [List.mem_cons, not_or] at this
          simp only [dropBackslash]
          split
          · exact this.2
          · simp only [List.mem_cons, not_or]; exact this
      have hidx : sep ∉ itoa (i : Int) := by
        intro hm
        rcases itoa_mem _ _ hm with h | h
        · revert h; decide
        · revert h; decide
      refine .inr (.inl ?_)
      unfold nsCollection at h
      split at h
      · exact ⟨env.lower t, _, _, hkey, hidx, h.1.symm, h.2.symm⟩
      · refine ⟨92 :: sc ++ sep :: env.lower t, _, _, hkey, hidx, ?_, h.2.symm⟩
        rw [← h.1]; simp [entryKey]
    · simp only [BOp.put.injEq] at h
      exact .inr (.inr ⟨_, h.1⟩)
  · cases hi : x.indexable env with
    | none => rw [hi] at h; simp at h
    | some p =>
      obtain ⟨c, n⟩ := p
      rw [hi] at h
      simp only [indexNameOps, List.mem_append, List.mem_map, List.mem_singleton, completionKeys, List.map_map] at h
      have hcn : sep ∉ c ∧ c ≠ cNamCom ∧ c ≠ cDocCom := by
        have := hi
        revert this
        cases x <;> simp [Sym.indexable] <;> rintro rfl - <;> decide
      have hsn : x.searchName env = some n := by rw [searchName_indexable, hi]; rfl
      rcases h with ⟨t, ht, h⟩ | h
      · simp only [BOp.put.injEq, Function.comp] at h
        exact .inl ⟨c, env.lower t, _, hcn.1, hcn.2.1, hcn.2.2,
          hl t (htok n (hnames x (mem_keyed.mp hx).1 n hsn) t ht), h.1.symm, h.2.symm⟩
      · simp only [BOp.put.injEq] at h
        exact .inr (.inr ⟨_, h.1⟩)

theorem sep_split {a b c d : Bytes} (ha : sep ∉ a) (hc : sep ∉ c) (h : a ++ sep :: b = c ++ sep :: d) :
    a = c ∧ b = d := by
  have := (entryKey_inj (k := b) (k' := d) ha hc).mp (by simpa [entryKey] using h)
  exact this

theorem sep_split_right {a b c d : Bytes} (hb : sep ∉ b) (hd : sep ∉ d) (h : a ++ sep :: b = c ++ sep :: d) :
    a = c ∧ b = d := by
  have h' : b.reverse ++ sep :: a.reverse = d.reverse ++ sep :: c.reverse := by
    have := congrArg List.reverse h
    simpa using this
  obtain ⟨h1, h2⟩ := sep_split (by simpa using hb) (by simpa using hd) h'
  exact ⟨List.reverse_inj.mp h2, List.reverse_inj.mp h1⟩

/-- Two different files never put different values under one key of the completion store. -/
theorem completion_agree {env : Env} {d1 d2 : Doc} {k v1 v2 : Bytes} (hl : env.LowerOK)
    (htok : ∀ n, sep ∉ n → ∀ t ∈ env.tokenise n, sep ∉ t)
    (hn1 : ∀ x ∈ d1.symbols, ∀ n, x.searchName env = some n → sep ∉ n)
    (hn2 : ∀ x ∈ d2.symbols, ∀ n, x.searchName env = some n → sep ∉ n)
    (hs1 : ∀ n ∈ d1.namespaces, sep ∉ n) (hs2 : ∀ n ∈ d2.namespaces, sep ∉ n)
    (hu1 : sep ∉ d1.uri) (hu2 : sep ∉ d2.uri) (hne : d1.uri ≠ d2.uri)
    (h1 : BOp.put k v1 ∈ completionOps env d1) (h2 : BOp.put k v2 ∈ completionOps env d2) : v1 = v2 := by
  have nn : sep ∉ cNamCom := by decide
  have nd : sep ∉ cDocCom := by decide
  have nnd : cNamCom ≠ cDocCom := by decide
  rcases completion_shape hl htok hn1 hs1 h1 with ⟨c, t, sk, c1, c2, c3, ht, rfl, rfl⟩ | ⟨a, key, i, hk, hi, rfl, rfl⟩ | ⟨r, rfl⟩ <;>
  rcases completion_shape hl htok hn2 hs2 h2 with ⟨c', t', sk', c1', c2', c3', ht', e, rfl⟩ | ⟨a', key', i', hk', hi', e, rfl⟩ | ⟨r', e⟩
  · obtain ⟨-, e⟩ := (entryKey_inj c1 c1').mp e
    rw [(sep_split ht ht' e).2]
  · exact absurd ((entryKey_inj c1 nn).mp e).1 c2
  · exact absurd ((entryKey_inj c1 nd).mp e).1 c3
  · exact absurd ((entryKey_inj nn c1').mp e).1.symm c2'
  · obtain ⟨-, e⟩ := (entryKey_inj nn nn).mp e
    rw [← List.cons_append, ← List.append_assoc, ← List.cons_append, ← List.append_assoc] at e
    obtain ⟨e1, rfl⟩ := sep_split_right hi hi' e
    obtain ⟨-, rfl⟩ := sep_split_right hk hk' e1
    rfl
  · exact absurd ((entryKey_inj nn nd).mp e).1 nnd
  · exact absurd ((entryKey_inj nd c1').mp e).1.symm c3'
  · exact absurd ((entryKey_inj nd nn).mp e).1.symm nnd
  · obtain ⟨-, e⟩ := (entryKey_inj nd nd).mp e
    exact absurd (sep_split hu1 hu2 e).1 hne

/-! ### what a call under way has written ahead, and what it has read -/

/-- Entries of the file store written by a call under way. -/
def Task.greb (env : Env) (k : Bytes) : Task → Option Bytes
  | .sync3 d _ _ => if k = entryKey cDocSym d.uri then some (docSymBytes env (d.keyed env)) else none
  | .sync4 d _ _ | .sync5 d _ | .sync6 d _ =>
    if k = entryKey cDocSym d.uri then some (docSymBytes env (d.keyed env))
    else if k = entryKey cDocNs d.uri then some (writeInt 0) else none
  | _ => none

/-- Filters replaced by a call under way. -/
def Task.filter (env : Env) (q : Store) (c : Bytes) : Task → Option Filter
  | .sync5 d _ | .sync6 d _ =>
    if haveReferences d.uri = true ∧ c = canonicaliseURI q.uri d.uri then
      (refIndexOps env q.uri q.refs d.uri d.refs).1.find c
    else none
  | _ => none

/-- Entries of the completion store written by a call under way. -/
def Task.com (env : Env) (k : Bytes) : Task → Option Bytes
  | .sync6 d _ => (effect (completionOps env d) k).bind id
  | _ => none

/-- What a call has read agrees with the store `q` reached by the calls that have returned. -/
def Task.OK (env : Env) (q : Store) : Task → Prop
  | .sync0 _ => True
  | .sync1 d old => readDocSyms q.greb d.uri = some old
  | .sync2 d old ops | .sync3 d old ops | .sync4 d old ops =>
    readDocSyms q.greb d.uri = some old ∧ ops = refDeleteOps q.uri q.refs d.uri
  | .sync5 d b | .sync6 d b => ∃ old, readDocSyms q.greb d.uri = some old ∧ b = syncOps env q d old
  | .del0 _ => True
  | .del1 _ com => com = []
  | .del2 u ops => ∃ old, readDocSyms q.greb u = some old ∧ ops = old.map BOp.del
  | .del3 u b => ∃ old, readDocSyms q.greb u = some old ∧
      b = old.map BOp.del ++ refDeleteOps q.uri q.refs u ++ [BOp.del (entryKey cDoc u)]

/-- What is asked of the work. -/
structure WorkOK (env : Env) (root : Bytes) (w : Work) : Prop where
  inside : haveReferences w.uri = true → InWorkspace root w.uri
  doc : ∀ d, w = .index d → DocOK env d ∧ (∀ x ∈ d.symbols, ∀ n, x.searchName env = some n → sep ∉ n) ∧
    ∀ n ∈ d.namespaces, sep ∉ n

/-- The store `s` is `q` plus what the calls under way have written ahead. -/
structure Ahead (env : Env) (q : Store) (ts : List Task) (s : Store) : Prop where
  uri : s.uri = q.uri
  db : s.db = q.db
  synced : s.synced = q.synced
  apart : (ts.map fun t => t.work.uri).Nodup
  work : ∀ t ∈ ts, WorkOK env q.uri t.work
  ok : ∀ t ∈ ts, t.OK env q
  grebA : ∀ t ∈ ts, ∀ k v, t.greb env k = some v → Storage.get k s.greb = some v
  grebB : ∀ k, (∀ t ∈ ts, t.greb env k = none) → Storage.get k s.greb = Storage.get k q.greb
  refsA : ∀ t ∈ ts, ∀ c f, t.filter env q c = some f → s.refs.find c = some f
  refsB : ∀ c, (∀ t ∈ ts, t.filter env q c = none) → s.refs.find c = q.refs.find c
  comA : ∀ t ∈ ts, ∀ k v, t.com env k = some v → s.comDB.get k = some v
  comB : ∀ k, (∀ t ∈ ts, t.com env k = none) → s.comDB.get k = q.comDB.get k
  sortedGreb : Sorted s.greb ∧ Sorted q.greb
  sortedCom : Sorted s.comDB.db ∧ Sorted q.comDB.db
  nodup : (s.refs.map (·.1)).Nodup

theorem Ahead.perm {env : Env} {q s : Store} {ts ts' : List Task} (h : Ahead env q ts s) (hp : List.Perm ts ts') :
    Ahead env q ts' s where
  uri := h.uri
  db := h.db
  synced := h.synced
  apart := (hp.map _).nodup_iff.mp h.apart
  work t ht := h.work t (hp.mem_iff.mpr ht)
  ok t ht := h.ok t (hp.mem_iff.mpr ht)
  grebA t ht := h.grebA t (hp.mem_iff.mpr ht)
  grebB k hk := h.grebB k fun t ht => hk t (hp.mem_iff.mp ht)
  refsA t ht := h.refsA t (hp.mem_iff.mpr ht)
  refsB k hk := h.refsB k fun t ht => hk t (hp.mem_iff.mp ht)
  comA t ht := h.comA t (hp.mem_iff.mpr ht)
  comB k hk := h.comB k fun t ht => hk t (hp.mem_iff.mp ht)
  sortedGreb := h.sortedGreb
  sortedCom := h.sortedCom
  nodup := h.nodup

theorem greb_key {env : Env} {t : Task} {k v : Bytes} (h : t.greb env k = some v) :
    k = entryKey cDocSym t.work.uri ∨ k = entryKey cDocNs t.work.uri := by
  cases t <;> simp only [Task.greb, Task.work, Work.uri] at h ⊢ <;> first | cases h | skip
  · split at h
    · left; assumption
    · cases h
  all_goals
    split at h
    · left; assumption
    · split at h
      · right; assumption
      · cases h

theorem filter_key {env : Env} {q : Store} {t : Task} {c : Bytes} {f : Filter} (h : t.filter env q c = some f) :
    haveReferences t.work.uri = true ∧ c = canonicaliseURI q.uri t.work.uri := by
  cases t <;> simp only [Task.filter, Task.work, Work.uri] at h ⊢ <;> first | cases h | skip
  all_goals
    split at h
    · assumption
    · cases h

theorem sym_ne_ns (u v : Bytes) : entryKey cDocSym u ≠ entryKey cDocNs v := key_ne (by decide) (by decide) (by decide)

theorem sym_inj {u v : Bytes} (h : entryKey cDocSym u = entryKey cDocSym v) : u = v :=
  ((entryKey_inj (by decide) (by decide)).mp h).2

theorem ns_inj {u v : Bytes} (h : entryKey cDocNs u = entryKey cDocNs v) : u = v :=
  ((entryKey_inj (by decide) (by decide)).mp h).2

/-- The other calls have not written the lists of another file. -/
theorem greb_other {env : Env} {t : Task} {u : Bytes} (h : t.work.uri ≠ u) :
    t.greb env (entryKey cDocSym u) = none ∧ t.greb env (entryKey cDocNs u) = none := by
  constructor
  · cases hg : t.greb env (entryKey cDocSym u) with
    | none => rfl
    | some v =>
      rcases greb_key hg with e | e
      · exact absurd (sym_inj e).symm h
      · exact absurd e (sym_ne_ns _ _)
  · cases hg : t.greb env (entryKey cDocNs u) with
    | none => rfl
    | some v =>
      rcases greb_key hg with e | e
      · exact absurd e.symm (sym_ne_ns _ _)
      · exact absurd (ns_inj e).symm h

theorem filter_other {env : Env} {q : Store} {t : Task} {u : Bytes} (hw : WorkOK env q.uri t.work)
    (hu : haveReferences u = true → InWorkspace q.uri u) (hh : haveReferences u = true) (h : t.work.uri ≠ u) :
    t.filter env q (canonicaliseURI q.uri u) = none := by
  cases hf : t.filter env q (canonicaliseURI q.uri u) with
  | none => rfl
  | some f =>
    obtain ⟨h1, h2⟩ := filter_key hf
    exact absurd (C20_injective (hu hh) (hw.inside h1) h2).symm h

theorem readDocSyms_congr {g g' : Entries} {u : Bytes}
    (h : Storage.get (entryKey cDocSym u) g = Storage.get (entryKey cDocSym u) g') :
    readDocSyms g u = readDocSyms g' u := by
  unfold readDocSyms; rw [h]

theorem refDeleteOps_congr {root : Bytes} {m m' : RefMap} {u : Bytes}
    (h : haveReferences u = true → m.find (canonicaliseURI root u) = m'.find (canonicaliseURI root u)) :
    refDeleteOps root m u = refDeleteOps root m' u := by
  unfold refDeleteOps
  by_cases hh : haveReferences u = true
  · simp only [hh, Bool.not_true, Bool.false_eq_true, if_false, h hh]
  · have : haveReferences u = false := by simpa using hh
    simp [this]

theorem refIndexOps_congr {env : Env} {root : Bytes} {m m' : RefMap} {u : Bytes} {is : List (Bytes × Range)}
    (h : haveReferences u = true → m.find (canonicaliseURI root u) = m'.find (canonicaliseURI root u)) :
    (refIndexOps env root m u is).2 = (refIndexOps env root m' u is).2 ∧
    (haveReferences u = true → (refIndexOps env root m u is).1.find (canonicaliseURI root u) =
      (refIndexOps env root m' u is).1.find (canonicaliseURI root u)) := by
  unfold refIndexOps
  by_cases hh : haveReferences u = true
  · simp only [hh, Bool.not_true, Bool.false_eq_true, if_false, h hh, RefMap.find_set, if_true]
    exact ⟨trivial, fun _ => trivial⟩
  · have : haveReferences u = false := by simpa using hh
    simp [this]

/-- Nothing a call depends on is changed when another call returns. -/
theorem ok_frame {env : Env} {q q' : Store} {t : Task} (hu : q'.uri = q.uri)
    (hg : Storage.get (entryKey cDocSym t.work.uri) q'.greb = Storage.get (entryKey cDocSym t.work.uri) q.greb)
    (hr : haveReferences t.work.uri = true →
      q'.refs.find (canonicaliseURI q.uri t.work.uri) = q.refs.find (canonicaliseURI q.uri t.work.uri))
    (h : t.OK env q) : t.OK env q' := by
  cases t <;> simp only [Task.OK, Task.work, Work.uri] at h hg hr ⊢
  · rw [readDocSyms_congr hg]; exact h
  · rw [readDocSyms_congr hg, hu, refDeleteOps_congr hr]; exact h
  · rw [readDocSyms_congr hg, hu, refDeleteOps_congr hr]; exact h
  · rw [readDocSyms_congr hg, hu, refDeleteOps_congr hr]; exact h
  · obtain ⟨old, h1, h2⟩ := h
    refine ⟨old, by rw [readDocSyms_congr hg]; exact h1, ?_⟩
    rw [h2]
    unfold syncOps
    rw [hu, refDeleteOps_congr hr, (refIndexOps_congr hr).1]
  · obtain ⟨old, h1, h2⟩ := h
    refine ⟨old, by rw [readDocSyms_congr hg]; exact h1, ?_⟩
    rw [h2]
    unfold syncOps
    rw [hu, refDeleteOps_congr hr, (refIndexOps_congr hr).1]
  · exact h
  · rw [readDocSyms_congr hg]; exact h
  · rw [readDocSyms_congr hg, hu, refDeleteOps_congr hr]; exact h

theorem filter_frame {env : Env} {q q' : Store} {t : Task} (hu : q'.uri = q.uri)
    (hr : haveReferences t.work.uri = true →
      q'.refs.find (canonicaliseURI q.uri t.work.uri) = q.refs.find (canonicaliseURI q.uri t.work.uri)) (c : Bytes) :
    t.filter env q' c = t.filter env q c := by
  have key : ∀ d : Doc, (haveReferences d.uri = true →
      q'.refs.find (canonicaliseURI q.uri d.uri) = q.refs.find (canonicaliseURI q.uri d.uri)) →
      (if haveReferences d.uri = true ∧ c = canonicaliseURI q'.uri d.uri then
        (refIndexOps env q'.uri q'.refs d.uri d.refs).1.find c else none) =
      if haveReferences d.uri = true ∧ c = canonicaliseURI q.uri d.uri then
        (refIndexOps env q.uri q.refs d.uri d.refs).1.find c else none := by
    intro d hd
    rw [hu]
    by_cases hc : haveReferences d.uri = true ∧ c = canonicaliseURI q.uri d.uri
    · rw [if_pos hc, if_pos hc, hc.2]
      exact (refIndexOps_congr hd).2 hc.1
    · rw [if_neg hc, if_neg hc]
  cases t <;> simp only [Task.filter, Task.work, Work.uri] at hr ⊢
  · exact key _ hr
  · exact key _ hr

/-! ### one step -/

theorem Ahead.others {env : Env} {q s : Store} {t : Task} {ts : List Task} (h : Ahead env q (t :: ts) s) :
    ∀ o ∈ ts, o.work.uri ≠ t.work.uri := by
  intro o ho e
  have := h.apart
  simp only [List.map_cons, List.nodup_cons, List.mem_map, not_exists, not_and] at this
  exact this.1 o ho e

/-- What a call reads of its own symbol list is what the calls that have returned left there. -/
theorem Ahead.list {env : Env} {q s : Store} {t : Task} {ts : List Task} (h : Ahead env q (t :: ts) s)
    (ht : t.greb env (entryKey cDocSym t.work.uri) = none) :
    readDocSyms s.greb t.work.uri = readDocSyms q.greb t.work.uri := by
  refine readDocSyms_congr (h.grebB _ ?_)
  intro o ho
  rcases List.mem_cons.mp ho with rfl | ho
  · exact ht
  · exact (greb_other (h.others o ho)).1

/-- ... and likewise for its filter. -/
theorem Ahead.map {env : Env} {q s : Store} {t : Task} {ts : List Task} (h : Ahead env q (t :: ts) s)
    (ht : ∀ c, t.filter env q c = none) (hh : haveReferences t.work.uri = true) :
    s.refs.find (canonicaliseURI q.uri t.work.uri) = q.refs.find (canonicaliseURI q.uri t.work.uri) := by
  refine h.refsB _ ?_
  intro o ho
  rcases List.mem_cons.mp ho with rfl | ho
  · exact ht _
  · exact filter_other (h.work o (by simp [ho])) (h.work t (by simp)).inside hh (h.others o ho)

/-- A step that only reads. -/
theorem Ahead.swap {env : Env} {q s : Store} {t t' : Task} {ts : List Task} (h : Ahead env q (t :: ts) s)
    (hw : t'.work = t.work) (ho : t'.OK env q) (hg : ∀ k, t'.greb env k = t.greb env k)
    (hf : ∀ c, t'.filter env q c = t.filter env q c) (hc : ∀ k, t'.com env k = t.com env k) :
    Ahead env q (t' :: ts) s where
  uri := h.uri
  db := h.db
  synced := h.synced
  apart := by have := h.apart; simpa [hw] using this
  work := by
    intro o hm
    rcases List.mem_cons.mp hm with rfl | hm
    · rw [hw]; exact h.work t (by simp)
    · exact h.work o (by simp [hm])
  ok := by
    intro o hm
    rcases List.mem_cons.mp hm with rfl | hm
    · exact ho
    · exact h.ok o (by simp [hm])
  grebA := by
    intro o hm k v
    rcases List.mem_cons.mp hm with rfl | hm
    · rw [hg]; exact h.grebA t (by simp) k v
    · exact h.grebA o (by simp [hm]) k v
  grebB := by
    intro k hk
    refine h.grebB k fun o hm => ?_
    rcases List.mem_cons.mp hm with rfl | hm
    · rw [← hg]; exact hk t' (by simp)
    · exact hk o (by simp [hm])
  refsA := by
    intro o hm k v
    rcases List.mem_cons.mp hm with rfl | hm
    · rw [hf]; exact h.refsA t (by simp) k v
    · exact h.refsA o (by simp [hm]) k v
  refsB := by
    intro k hk
    refine h.refsB k fun o hm => ?_
    rcases List.mem_cons.mp hm with rfl | hm
    · rw [← hf]; exact hk t' (by simp)
    · exact hk o (by simp [hm])
  comA := by
    intro o hm k v
    rcases List.mem_cons.mp hm with rfl | hm
    · rw [hc]; exact h.comA t (by simp) k v
    · exact h.comA o (by simp [hm]) k v
  comB := by
    intro k hk
    refine h.comB k fun o hm => ?_
    rcases List.mem_cons.mp hm with rfl | hm
    · rw [← hc]; exact hk t' (by simp)
    · exact hk o (by simp [hm])
  sortedGreb := h.sortedGreb
  sortedCom := h.sortedCom
  nodup := h.nodup

/-- A step that writes one of the lists of the call's own file. -/
theorem Ahead.write {env : Env} {q s : Store} {t t' : Task} {ts : List Task} (h : Ahead env q (t :: ts) s)
    {key val : Bytes} (hkey : key = entryKey cDocSym t.work.uri ∨ key = entryKey cDocNs t.work.uri)
    (hw : t'.work = t.work) (ho : t'.OK env q)
    (hg : ∀ k, t'.greb env k = if k = key then some val else t.greb env k)
    (hf : ∀ c, t'.filter env q c = t.filter env q c) (hc : ∀ k, t'.com env k = t.com env k) :
    Ahead env q (t' :: ts) { s with greb := Storage.put key val s.greb } := by
  have hother : ∀ o ∈ ts, o.greb env key = none := by
    intro o hm
    rcases hkey with e | e <;> rw [e]
    · exact (greb_other (h.others o hm)).1
    · exact (greb_other (h.others o hm)).2
  refine
    { uri := h.uri, db := h.db, synced := h.synced
      apart := by have := h.apart; simpa [hw] using this
      work := ?_, ok := ?_, grebA := ?_, grebB := ?_, refsA := ?_, refsB := ?_, comA := ?_, comB := ?_
      sortedGreb := ⟨put_sorted h.sortedGreb.1, h.sortedGreb.2⟩, sortedCom := h.sortedCom, nodup := h.nodup }
  · intro o hm
    rcases List.mem_cons.mp hm with rfl | hm
    · rw [hw]; exact h.work t (by simp)
    · exact h.work o (by simp [hm])
  · intro o hm
    rcases List.mem_cons.mp hm with rfl | hm
    · exact ho
    · exact h.ok o (by simp [hm])
  · intro o hm k v hv
    show Storage.get k (Storage.put key val s.greb) = _
    rw [get_put]
    rcases List.mem_cons.mp hm with rfl | hm
    · rw [hg] at hv
      by_cases e : k = key
      · rw [if_pos e] at hv ⊢; exact hv
      · rw [if_neg e] at hv ⊢
        exact h.grebA t (by simp) k v hv
    · rw [if_neg]
      · exact h.grebA o (by simp [hm]) k v hv
      · rintro rfl
        rw [hother o hm] at hv; cases hv
  · intro k hk
    show Storage.get k (Storage.put key val s.greb) = _
    have ht := hk t' (by simp)
    rw [hg] at ht
    by_cases e : k = key
    · rw [if_pos e] at ht; cases ht
    · rw [if_neg e] at ht
      rw [get_put, if_neg e]
      refine h.grebB k fun o hm => ?_
      rcases List.mem_cons.mp hm with rfl | hm
      · exact ht
      · exact hk o (by simp [hm])
  · intro o hm k v
    rcases List.mem_cons.mp hm with rfl | hm
    · rw [hf]; exact h.refsA t (by simp) k v
    · exact h.refsA o (by simp [hm]) k v
  · intro k hk
    refine h.refsB k fun o hm => ?_
    rcases List.mem_cons.mp hm with rfl | hm
    · rw [← hf]; exact hk t' (by simp)
    · exact hk o (by simp [hm])
  · intro o hm k v
    rcases List.mem_cons.mp hm with rfl | hm
    · rw [hc]; exact h.comA t (by simp) k v
    · exact h.comA o (by simp [hm]) k v
  · intro k hk
    refine h.comB k fun o hm => ?_
    rcases List.mem_cons.mp hm with rfl | hm
    · rw [← hc]; exact hk t' (by simp)
    · exact hk o (by simp [hm])

/-- The step that replaces the filter. -/
theorem Ahead.replace {env : Env} {q s : Store} {d : Doc} {old : List Bytes} {ops batch : List BOp} {ts : List Task}
    (h : Ahead env q (.sync4 d old ops :: ts) s) (ho : (Task.sync5 d batch).OK env q) :
    Ahead env q (.sync5 d batch :: ts) { s with refs := (refIndexOps env s.uri s.refs d.uri d.refs).1 } := by
  have hq : haveReferences d.uri = true → s.refs.find (canonicaliseURI q.uri d.uri) =
      q.refs.find (canonicaliseURI q.uri d.uri) := h.map (fun _ => rfl)
  have hfind : ∀ c, ¬ (haveReferences d.uri = true ∧ c = canonicaliseURI q.uri d.uri) →
      (refIndexOps env q.uri s.refs d.uri d.refs).1.find c = s.refs.find c := by
    intro c hc
    by_cases hh : haveReferences d.uri = true
    · rw [refIndexOps_have hh]
      rw [RefMap.find_set, if_neg (fun e => hc ⟨hh, e⟩)]
    · rw [refIndexOps_not (by simpa using hh)]
  have hother : ∀ o ∈ ts, haveReferences d.uri = true → o.filter env q (canonicaliseURI q.uri d.uri) = none :=
    fun o hm hh => filter_other (h.work o (by simp [hm])) (h.work (.sync4 d old ops) (by simp)).inside hh
      (h.others o hm)
  refine
    { uri := h.uri, db := h.db, synced := h.synced, apart := h.apart
      work := ?_, ok := ?_, grebA := ?_, grebB := ?_, refsA := ?_, refsB := ?_, comA := ?_, comB := ?_
      sortedGreb := h.sortedGreb, sortedCom := h.sortedCom, nodup := ?_ }
  · intro o hm
    rcases List.mem_cons.mp hm with rfl | hm
    · exact h.work (.sync4 d old ops) (by simp)
    · exact h.work o (by simp [hm])
  · intro o hm
    rcases List.mem_cons.mp hm with rfl | hm
    · exact ho
    · exact h.ok o (by simp [hm])
  · intro o hm k v
    rcases List.mem_cons.mp hm with rfl | hm
    · exact h.grebA (.sync4 d old ops) (by simp) k v
    · exact h.grebA o (by simp [hm]) k v
  · intro k hk
    refine h.grebB k fun o hm => ?_
    rcases List.mem_cons.mp hm with rfl | hm
    · exact hk (.sync5 d batch) (by simp)
    · exact hk o (by simp [hm])
  · intro o hm c f hf
    show (refIndexOps env s.uri s.refs d.uri d.refs).1.find c = _
    rw [h.uri]
    rcases List.mem_cons.mp hm with rfl | hm
    · simp only [Task.filter] at hf
      split at hf
      · rename_i hc
        obtain ⟨hh, rfl⟩ := hc
        rw [← hf]
        exact (refIndexOps_congr hq).2 hh
      · cases hf
    · rw [hfind]
      · exact h.refsA o (by simp [hm]) c f hf
      · rintro ⟨hh, rfl⟩
        rw [hother o hm hh] at hf; cases hf
  · intro c hc
    show (refIndexOps env s.uri s.refs d.uri d.refs).1.find c = _
    rw [h.uri]
    by_cases hd : haveReferences d.uri = true ∧ c = canonicaliseURI q.uri d.uri
    · have := hc (.sync5 d batch) (by simp)
      simp only [Task.filter] at this
      rw [if_pos hd] at this
      rw [refIndexOps_have hd.1] at this
      rw [hd.2] at this
      rw [RefMap.find_set, if_pos rfl] at this
      cases this
    · rw [hfind c hd]
      refine h.refsB c fun o hm => ?_
      rcases List.mem_cons.mp hm with rfl | hm
      · rfl
      · exact hc o (by simp [hm])
  · intro o hm k v
    rcases List.mem_cons.mp hm with rfl | hm
    · exact h.comA (.sync4 d old ops) (by simp) k v
    · exact h.comA o (by simp [hm]) k v
  · intro k hk
    refine h.comB k fun o hm => ?_
    rcases List.mem_cons.mp hm with rfl | hm
    · exact hk (.sync5 d batch) (by simp)
    · exact hk o (by simp [hm])
  · show ((refIndexOps env s.uri s.refs d.uri d.refs).1.map (·.1)).Nodup
    by_cases hh : haveReferences d.uri = true
    · rw [refIndexOps_have hh]; exact RefMap.set_nodup h.nodup
    · rw [refIndexOps_not (by simpa using hh)]; exact h.nodup

theorem com_put {env : Env} {d : Doc} {k v : Bytes} :
    (effect (completionOps env d) k).bind id = some v → effect (completionOps env d) k = some (some v) ∧
      BOp.put k v ∈ completionOps env d := by
  intro h
  rcases effect_puts_only (fun o ho => completionOps_put ho) k (ops := completionOps env d) with ⟨h1, -⟩ | ⟨w, h1, h2⟩
  · rw [h1] at h; cases h
  · rw [h1] at h
    simp only [Option.bind_some, id, Option.some.injEq] at h
    subst h
    exact ⟨h1, h2⟩

theorem com_none {env : Env} {d : Doc} {k : Bytes} (h : (effect (completionOps env d) k).bind id = none) :
    effect (completionOps env d) k = none := by
  rcases effect_puts_only (fun o ho => completionOps_put ho) k (ops := completionOps env d) with ⟨h1, -⟩ | ⟨w, h1, h2⟩
  · exact h1
  · rw [h1] at h; cases h

/-- The step that commits the completion batch. -/
theorem Ahead.complete {env : Env} {q s : Store} {d : Doc} {batch : List BOp} {ts : List Task}
    (hl : env.LowerOK) (htok : ∀ n, sep ∉ n → ∀ t ∈ env.tokenise n, sep ∉ t)
    (h : Ahead env q (.sync5 d batch :: ts) s) :
    Ahead env q (.sync6 d batch :: ts) { s with comDB := s.comDB.writeBatch [] (completionOps env d) true } := by
  obtain ⟨hd1, hd2, hd3⟩ := (h.work (.sync5 d batch) (by simp)).doc d rfl
  refine
    { uri := h.uri, db := h.db, synced := h.synced, apart := h.apart
      work := ?_, ok := ?_, grebA := ?_, grebB := ?_, refsA := ?_, refsB := ?_, comA := ?_, comB := ?_
      sortedGreb := h.sortedGreb, sortedCom := ⟨applyOps_sorted h.sortedCom.1, h.sortedCom.2⟩, nodup := h.nodup }
  · intro o hm
    rcases List.mem_cons.mp hm with rfl | hm
    · exact h.work (.sync5 d batch) (by simp)
    · exact h.work o (by simp [hm])
  · intro o hm
    rcases List.mem_cons.mp hm with rfl | hm
    · exact h.ok (.sync5 d batch) (by simp)
    · exact h.ok o (by simp [hm])
  · intro o hm k v
    rcases List.mem_cons.mp hm with rfl | hm
    · exact h.grebA (.sync5 d batch) (by simp) k v
    · exact h.grebA o (by simp [hm]) k v
  · intro k hk
    refine h.grebB k fun o hm => ?_
    rcases List.mem_cons.mp hm with rfl | hm
    · exact hk (.sync6 d batch) (by simp)
    · exact hk o (by simp [hm])
  · intro o hm k v
    rcases List.mem_cons.mp hm with rfl | hm
    · exact h.refsA (.sync5 d batch) (by simp) k v
    · exact h.refsA o (by simp [hm]) k v
  · intro k hk
    refine h.refsB k fun o hm => ?_
    rcases List.mem_cons.mp hm with rfl | hm
    · exact hk (.sync6 d batch) (by simp)
    · exact hk o (by simp [hm])
  · intro o hm k v hv
    show (s.comDB.writeBatch [] (completionOps env d) true).get k = _
    rw [LevelDB.get_batch]
    rcases List.mem_cons.mp hm with rfl | hm
    · rw [(com_put hv).1]; rfl
    · cases he : (effect (completionOps env d) k).bind id with
      | none =>
        rw [com_none he]
        exact h.comA o (by simp [hm]) k v hv
      | some w =>
        obtain ⟨e1, e2⟩ := com_put he
        rw [e1]
        have hou := h.others o hm
        have how := h.work o (by simp [hm])
        cases o with
        | sync6 d' b' =>
          obtain ⟨g1, g2, g3⟩ := how.doc d' rfl
          have : w = v := completion_agree hl htok hd2 g2 hd3 g3 hd1.uri.1 g1.uri.1 (Ne.symm hou) e2 (com_put hv).2
          rw [this]; rfl
        | _ => simp [Task.com] at hv
  · intro k hk
    show (s.comDB.writeBatch [] (completionOps env d) true).get k = _
    rw [LevelDB.get_batch]
    have := hk (.sync6 d batch) (by simp)
    rw [com_none this]
    refine h.comB k fun o hm => ?_
    rcases List.mem_cons.mp hm with rfl | hm
    · rfl
    · exact hk o (by simp [hm])

/-- The step that commits the main batch of `SyncDocument`, which is its last. -/
theorem Ahead.commit {env : Env} {q s q' : Store} {d : Doc} {batch : List BOp} {ts : List Task}
    (hl : env.LowerOK) (htok : ∀ n, sep ∉ n → ∀ t ∈ env.tokenise n, sep ∉ t)
    (h : Ahead env q (.sync6 d batch :: ts) s) (hq : q.sync env d = some q') :
    Ahead env q' ts { s with db := s.db.writeBatch [] batch true } := by
  obtain ⟨old, ho1, ho2⟩ := h.ok (.sync6 d batch) (by simp)
  obtain ⟨hd1, hd2, hd3⟩ := (h.work (.sync6 d batch) (by simp)).doc d rfl
  unfold Store.sync at hq
  rw [ho1] at hq
  obtain ⟨e1, e2, e3, e4, e5, e6⟩ : q'.uri = q.uri ∧ q'.db = q.db.writeBatch [] (syncOps env q d old) true ∧
      q'.comDB = q.comDB.writeBatch [] (completionOps env d) true ∧
      q'.greb = Storage.put (entryKey cDocNs d.uri) (writeInt 0)
        (Storage.put (entryKey cDocSym d.uri) (docSymBytes env (d.keyed env)) q.greb) ∧
      q'.refs = (refIndexOps env q.uri q.refs d.uri d.refs).1 ∧ q'.synced = q.synced := by
    cases hq; exact ⟨rfl, rfl, rfl, rfl, rfl, rfl⟩
  clear hq
  have hmap : ∀ o ∈ ts, haveReferences o.work.uri = true →
      q'.refs.find (canonicaliseURI q.uri o.work.uri) = q.refs.find (canonicaliseURI q.uri o.work.uri) := by
    intro o hm hho
    rw [e5]
    by_cases hh : haveReferences d.uri = true
    · rw [refIndexOps_have hh, RefMap.find_set, if_neg]
      intro e
      exact h.others o hm (C20_injective ((h.work o (by simp [hm])).inside hho)
        ((h.work (.sync6 d batch) (by simp)).inside hh) e)
    · rw [refIndexOps_not (by simpa using hh)]
  have hself : ∀ c, (Task.sync6 d batch).filter env q c = none →
      q'.refs.find c = q.refs.find c := by
    intro c hc
    rw [e5]
    simp only [Task.filter] at hc
    split at hc
    · rename_i hd
      rw [refIndexOps_have hd.1] at hc
      rw [hd.2] at hc
      rw [RefMap.find_set, if_pos rfl] at hc
      cases hc
    · rename_i hd
      by_cases hh : haveReferences d.uri = true
      · rw [refIndexOps_have hh, RefMap.find_set, if_neg (fun e => hd ⟨hh, e⟩)]
      · rw [refIndexOps_not (by simpa using hh)]
  refine
    { uri := by rw [e1]; exact h.uri, db := by rw [ho2, h.db, e2], synced := by rw [e6]; exact h.synced
      apart := by have := h.apart; simp only [List.map_cons, List.nodup_cons] at this; exact this.2
      work := fun o hm => by rw [e1]; exact h.work o (by simp [hm])
      ok := ?_, grebA := fun o hm => h.grebA o (by simp [hm])
      grebB := ?_, refsA := ?_, refsB := ?_, comA := fun o hm => h.comA o (by simp [hm]), comB := ?_
      sortedGreb := ⟨h.sortedGreb.1, by rw [e4]; exact put_sorted (put_sorted h.sortedGreb.2)⟩
      sortedCom := ⟨h.sortedCom.1, by rw [e3]; exact applyOps_sorted h.sortedCom.2⟩, nodup := h.nodup }
  · intro o hm
    refine ok_frame e1 ?_ (hmap o hm) (h.ok o (by simp [hm]))
    rw [e4]
    have hne : ¬ entryKey cDocSym o.work.uri = entryKey cDocSym d.uri := fun e => h.others o hm (sym_inj e)
    rw [get_put, if_neg (sym_ne_ns _ _), get_put, if_neg hne]
  · intro k hk
    show Storage.get k s.greb = Storage.get k q'.greb
    rw [e4, get_put, get_put]
    cases ht : (Task.sync6 d batch).greb env k with
    | some v =>
      rw [h.grebA _ (by simp) k v ht]
      simp only [Task.greb] at ht
      by_cases e1 : k = entryKey cDocSym d.uri
      · rw [if_pos e1] at ht
        rw [if_neg (by rw [e1]; exact sym_ne_ns _ _), if_pos e1]
        exact ht.symm
      · rw [if_neg e1] at ht
        by_cases e2 : k = entryKey cDocNs d.uri
        · rw [if_pos e2] at ht ⊢; exact ht.symm
        · rw [if_neg e2] at ht; cases ht
    | none =>
      have hk' := h.grebB k fun o hm => by
        rcases List.mem_cons.mp hm with rfl | hm
        · exact ht
        · exact hk o hm
      rw [hk']
      simp only [Task.greb] at ht
      by_cases e1 : k = entryKey cDocSym d.uri
      · rw [if_pos e1] at ht; cases ht
      · rw [if_neg e1] at ht
        by_cases e2 : k = entryKey cDocNs d.uri
        · rw [if_pos e2] at ht; cases ht
        · rw [if_neg e2, if_neg e1]
  · intro o hm c f hf
    have hfr : o.filter env q' c = o.filter env q c := filter_frame e1 (hmap o hm) c
    exact h.refsA o (by simp [hm]) c f (hfr.symm.trans hf)
  · intro c hc
    show s.refs.find c = q'.refs.find c
    have hc' : ∀ o ∈ ts, o.filter env q c = none := by
      intro o hm
      rw [← hc o hm]
      exact (filter_frame e1 (hmap o hm) c).symm
    cases ht : (Task.sync6 d batch).filter env q c with
    | none =>
      rw [hself c ht]
      refine h.refsB c fun o hm => ?_
      rcases List.mem_cons.mp hm with rfl | hm
      · exact ht
      · exact hc' o hm
    | some f =>
      rw [h.refsA _ (by simp) c f ht, e5]
      simp only [Task.filter] at ht
      split at ht
      · exact ht.symm
      · cases ht
  · intro k hk
    show s.comDB.get k = q'.comDB.get k
    rw [e3, LevelDB.get_batch]
    cases ht : (effect (completionOps env d) k).bind id with
    | none =>
      rw [com_none ht]
      refine h.comB k fun o hm => ?_
      rcases List.mem_cons.mp hm with rfl | hm
      · exact ht
      · exact hk o hm
    | some v =>
      rw [(com_put ht).1]
      exact h.comA (.sync6 d batch) (by simp) k v ht

/-- The step that commits the batch of `DeleteDocument`, which is its last. -/
theorem Ahead.drop {env : Env} {q s : Store} {u : Bytes} {batch : List BOp} {ts : List Task}
    (h : Ahead env q (.del3 u batch :: ts) s) (hc : completionDeletorOps q.db u = some []) :
    ∃ q', q.deleteDocument u = some q' ∧ Ahead env q' ts { s with db := s.db.writeBatch [] batch true } := by
  obtain ⟨old, ho1, ho2⟩ := h.ok (.del3 u batch) (by simp)
  refine ⟨{ q with db := q.db.writeBatch [] batch true }, ?_, ?_⟩
  · simp only [Store.deleteDocument, hc, ho1, ho2]; rfl
  · refine
      { uri := h.uri, db := by rw [h.db], synced := h.synced
        apart := by have := h.apart; simp only [List.map_cons, List.nodup_cons] at this; exact this.2
        work := fun o hm => h.work o (by simp [hm])
        ok := fun o hm => ok_frame rfl rfl (fun _ => rfl) (h.ok o (by simp [hm]))
        grebA := fun o hm => h.grebA o (by simp [hm])
        grebB := ?_, refsA := ?_, refsB := ?_, comA := fun o hm => h.comA o (by simp [hm]), comB := ?_
        sortedGreb := h.sortedGreb, sortedCom := h.sortedCom, nodup := h.nodup }
    · intro k hk
      refine h.grebB k fun o hm => ?_
      rcases List.mem_cons.mp hm with rfl | hm
      · rfl
      · exact hk o hm
    · intro o hm c f hf
      exact h.refsA o (by simp [hm]) c f ((filter_frame (q := q) rfl (fun _ => rfl) c).symm.trans hf)
    · intro c hc
      refine h.refsB c fun o hm => ?_
      rcases List.mem_cons.mp hm with rfl | hm
      · rfl
      · exact (filter_frame (q := q) rfl (fun _ => rfl) c).symm.trans (hc o hm)
    · intro k hk
      refine h.comB k fun o hm => ?_
      rcases List.mem_cons.mp hm with rfl | hm
      · rfl
      · exact hk o hm

/-- Any step of any call. -/
theorem Ahead.next {env : Env} {q s : Store} {t : Task} {ts : List Task} {D L}
    (hl : env.LowerOK) (htok : ∀ n, sep ∉ n → ∀ t ∈ env.tokenise n, sep ∉ t)
    (inv : Inv env D L q) (h : Ahead env q (t :: ts) s) :
    (∃ s' t', t.next env s = some (s', some t') ∧ t'.work = t.work ∧ Ahead env q (t' :: ts) s') ∨
    ∃ s' q', t.next env s = some (s', none) ∧ step env q t.work.op = some q' ∧ Ahead env q' ts s' := by
  obtain ⟨old, hold, -⟩ := inv.greb t.work.uri
  have hok := h.ok t (by simp)
  cases t with
  | sync0 d =>
    have hr := h.list (by rfl)
    simp only [Task.work, Work.uri] at hr hold
    exact .inl ⟨s, .sync1 d old, by simp only [Task.next, hr, hold]; rfl, rfl,
      h.swap rfl hold (fun _ => rfl) (fun _ => rfl) fun _ => rfl⟩
  | sync1 d old' =>
    have hr := h.map (fun _ => rfl)
    simp only [Task.work, Work.uri] at hr
    refine .inl ⟨s, _, rfl, rfl, h.swap rfl ⟨hok, ?_⟩ (fun _ => rfl) (fun _ => rfl) fun _ => rfl⟩
    rw [h.uri]
    exact refDeleteOps_congr hr
  | sync2 d old' ops =>
    exact .inl ⟨_, _, rfl, rfl, h.write (.inl rfl) rfl hok (fun _ => rfl) (fun _ => rfl) fun _ => rfl⟩
  | sync3 d old' ops =>
    refine .inl ⟨_, _, rfl, rfl, h.write (.inr rfl) rfl hok (fun k => ?_) (fun _ => rfl) fun _ => rfl⟩
    simp only [Task.greb]
    by_cases e : k = entryKey cDocSym d.uri
    · rw [if_pos e, if_neg (by rw [e]; exact sym_ne_ns _ _), if_pos e]
    · rw [if_neg e, if_neg e]
  | sync4 d old' ops =>
    refine .inl ⟨_, _, rfl, rfl, h.replace ⟨old', hok.1, ?_⟩⟩
    have hr := h.map (fun _ => rfl)
    simp only [Task.work, Work.uri] at hr
    rw [hok.2]
    unfold syncOps
    rw [h.uri, (refIndexOps_congr hr).1]
  | sync5 d b => exact .inl ⟨_, _, rfl, rfl, h.complete hl htok⟩
  | sync6 d b =>
    obtain ⟨old', h1, h2⟩ := hok
    obtain ⟨q', hq⟩ : ∃ q', q.sync env d = some q' := by
      unfold Store.sync
      rw [h1]
      exact ⟨_, rfl⟩
    exact .inr ⟨_, q', rfl, hq, h.commit hl htok hq⟩
  | del0 u =>
    exact .inl ⟨s, .del1 u [], by simp only [Task.next, h.db, completionDeletor_nil inv]; rfl, rfl,
      h.swap rfl rfl (fun _ => rfl) (fun _ => rfl) fun _ => rfl⟩
  | del1 u com =>
    have hr := h.list (by rfl)
    simp only [Task.work, Work.uri] at hr hold
    refine .inl ⟨s, .del2 u (com ++ old.map BOp.del), by simp only [Task.next, hr, hold]; rfl, rfl,
      h.swap rfl ⟨old, hold, ?_⟩ (fun _ => rfl) (fun _ => rfl) fun _ => rfl⟩
    have : com = [] := hok
    rw [this]; rfl
  | del2 u ops =>
    have hr := h.map (fun _ => rfl)
    simp only [Task.work, Work.uri] at hr
    obtain ⟨old', h1, h2⟩ := hok
    refine .inl ⟨s, _, rfl, rfl, h.swap rfl ⟨old', h1, ?_⟩ (fun _ => rfl) (fun _ => rfl) fun _ => rfl⟩
    rw [h2, h.uri, refDeleteOps_congr hr]
  | del3 u b =>
    obtain ⟨q', h1, h2⟩ := h.drop (completionDeletor_nil inv u)
    exact .inr ⟨_, q', rfl, h1, h2⟩

/-! ### whole schedules -/

theorem step_sortedGreb {env : Env} {s s' : Store} {o : HOp} (h : Sorted s.greb) (hs : step env s o = some s') :
    Sorted s'.greb := by
  have hr : ∀ t t' : Store, t.restart = some t' → t'.greb = t.greb := by
    intro t t' h
    unfold Store.restart at h
    cases hl : loadRefs t.db with
    | none => rw [hl] at h; cases h
    | some r => rw [hl] at h; cases h; rfl
  cases o with
  | index d => rw [(sync_greb hs).1]; exact put_sorted (put_sorted h)
  | delete u =>
    have : s'.greb = s.greb := by
      simp only [step, Store.deleteDocument] at hs
      cases h1 : completionDeletorOps s.db u with
      | none => rw [h1] at hs; cases hs
      | some a =>
        cases h2 : readDocSyms s.greb u with
        | none => rw [h1, h2] at hs; cases hs
        | some b => rw [h1, h2] at hs; cases hs; rfl
    rw [this]; exact h
  | restart => rw [hr _ _ hs]; exact h
  | upgrade v => cases hs; exact h
  | crash d k =>
    simp only [step, Store.crashDuring] at hs
    cases h1 : s.sync env d with
    | none => rw [h1] at hs; cases hs
    | some t =>
      rw [h1] at hs
      rw [hr _ _ hs]
      simp only
      split
      · exact h
      · split
        · exact put_sorted h
        · rw [(sync_greb h1).1]; exact put_sorted (put_sorted h)

theorem runFrom_none (env : Env) (h : List HOp) : runFrom env none h = none := by
  induction h with
  | nil => rfl
  | cons o h ih => exact ih

theorem runFrom_append (env : Env) (s : Option Store) (h h' : List HOp) :
    runFrom env s (h ++ h') = runFrom env (runFrom env s h) h' := by
  simp [runFrom]

theorem run_sortedGreb {env : Env} {root : Bytes} {h : List HOp} {s : Store} (hs : run env root h = some s) :
    Sorted s.greb := by
  have key : ∀ (h : List HOp) (t : Store), Sorted t.greb → ∀ s, runFrom env (some t) h = some s → Sorted s.greb := by
    intro h
    induction h with
    | nil => intro t ht s hs; cases hs; exact ht
    | cons o h ih =>
      intro t ht s hs
      have e : runFrom env (some t) (o :: h) = runFrom env (step env t o) h := rfl
      rw [e] at hs
      cases h1 : step env t o with
      | none => rw [h1, runFrom_none] at hs; cases hs
      | some t' =>
        rw [h1] at hs
        exact ih t' (step_sortedGreb ht h1) s hs
  exact key h (Store.new root) List.Pairwise.nil s hs

theorem run_snoc {env : Env} {root : Bytes} {h : List HOp} {s : Store} (hs : run env root h = some s) (o : HOp) :
    run env root (h ++ [o]) = step env s o := by
  unfold run at hs ⊢
  rw [runFrom_append, hs]
  rfl

theorem keeps_works (env : Env) (L) (ws : List Work) : Keeps env L (ws.map Work.op) := by
  induction ws generalizing L with
  | nil => trivial
  | cons w ws ih =>
    refine ⟨?_, ih _⟩
    cases w <;> trivial

theorem mem_docs_works {h : List HOp} {ws : List Work} {d : Doc} :
    d ∈ docs (h ++ ws.map Work.op) ↔ d ∈ docs h ∨ .index d ∈ ws := by
  rw [docs_append, List.mem_append]
  refine or_congr Iff.rfl ?_
  simp only [docs, List.mem_filterMap, List.mem_map, exists_exists_and_eq_and]
  constructor
  · rintro ⟨w, hw, e⟩
    cases w with
    | index d' => simp only [Work.op, Option.some.injEq] at e; exact e ▸ hw
    | delete u => cases e
  · intro hd
    exact ⟨_, hd, rfl⟩

theorem HistOK.fewer {env : Env} {h : List HOp} {ws ws' : List Work} (hk : HistOK env (h ++ ws.map Work.op))
    (hs : ∀ w ∈ ws', w ∈ ws) : HistOK env (h ++ ws'.map Work.op) where
  docs d hd := by
    refine hk.docs d ?_
    rw [mem_docs_works] at hd ⊢
    exact hd.imp_right (hs _)
  consts := by
    intro d1 h1 d2 h2
    refine hk.consts d1 ?_ d2 ?_
    · rw [mem_docs_works] at h1 ⊢; exact h1.imp_right (hs _)
    · rw [mem_docs_works] at h2 ⊢; exact h2.imp_right (hs _)
  crashes := Keeps.append.mpr ⟨(Keeps.append.mp hk.crashes).1, keeps_works _ _ _⟩

/-- What is asked of a schedule after the history `h`: the conditions on files, names and URIs under which the
theorems about histories hold, for everything in it. -/
structure ScheduleOK (env : Env) (root : Bytes) (h : List HOp) (es : List Ev) : Prop where
  hist : HistOK env (h ++ (started es).map Work.op)
  inside : RefsOK root (h ++ (started es).map Work.op)
  search : SearchOK env (h ++ (started es).map Work.op)
  namespaces : ∀ d ∈ docs (h ++ (started es).map Work.op), ∀ n ∈ d.namespaces, sep ∉ n

theorem ScheduleOK.work {env : Env} {root : Bytes} {h : List HOp} {es : List Ev} (ok : ScheduleOK env root h es)
    {w : Work} (hw : w ∈ started es) : WorkOK env root w where
  inside := by
    have := ok.inside w.op (List.mem_append_right _ (List.mem_map_of_mem hw))
    cases w <;> exact this
  doc d e := by
    subst e
    have hm : d ∈ docs (h ++ (started es).map Work.op) := mem_docs_works.mpr (.inr hw)
    exact ⟨ok.hist.docs d hm, ok.search.names d hm, ok.namespaces d hm⟩

/-- The state of a schedule: what the calls that have returned left behind, and what the others wrote ahead. -/
def Sound (env : Env) (root : Bytes) (h : List HOp) (c : Conc) : Prop :=
  ∃ q, run env root (h ++ c.finished.map Work.op) = some q ∧ q.uri = root ∧ Ahead env q c.tasks c.store

theorem set_perm {α : Type} {l : List α} {i : Nat} {x : α} (h : l[i]? = some x) :
    List.Perm l (x :: l.eraseIdx i) ∧ ∀ y, List.Perm (l.set i y) (y :: l.eraseIdx i) := by
  induction l generalizing i with
  | nil => simp at h
  | cons a l ih =>
    cases i with
    | zero =>
      simp only [List.getElem?_cons_zero, Option.some.injEq] at h
      subst h
      exact ⟨List.Perm.refl _, fun y => List.Perm.refl _⟩
    | succ i =>
      simp only [List.getElem?_cons_succ] at h
      obtain ⟨h1, h2⟩ := ih h
      refine ⟨?_, fun y => ?_⟩
      · exact (h1.cons a).trans (List.Perm.swap x a _)
      · exact ((h2 y).cons a).trans (List.Perm.swap y a _)

theorem sound_step {env : Env} {root : Bytes} {h : List HOp} {W : List Work} {c : Conc} (he : EnvOK env)
    (htok : ∀ n, sep ∉ n → ∀ t ∈ env.tokenise n, sep ∉ t)
    (hW : HistOK env (h ++ W.map Work.op)) (hsub : ∀ w ∈ c.finished, w ∈ W)
    (hs : Sound env root h c) {i : Nat} {t : Task} (ht : c.tasks[i]? = some t) :
    ∃ c', c.step env (.step i) = some c' ∧ Sound env root h c' ∧
      List.Perm (c'.finished ++ c'.tasks.map Task.work) (c.finished ++ c.tasks.map Task.work) := by
  obtain ⟨q, hq, hu, ha⟩ := hs
  obtain ⟨q', hq', inv, -, -⟩ := run_inv (root := root) he (hW.fewer hsub)
  rw [hq] at hq'
  cases hq'
  obtain ⟨p1, p2⟩ := set_perm ht
  have pw : List.Perm (c.tasks.map Task.work) (t.work :: (c.tasks.eraseIdx i).map Task.work) := p1.map Task.work
  rcases (ha.perm p1).next he.lower htok inv with ⟨s', t', h1, h2, h3⟩ | ⟨s', q', h1, h2, h3⟩
  · refine ⟨{ c with store := s', tasks := c.tasks.set i t' }, by simp only [Conc.step, ht, h1],
      ⟨q, hq, hu, h3.perm (p2 t').symm⟩, ?_⟩
    refine List.Perm.append_left _ (((p2 t').map Task.work).trans ?_)
    rw [List.map_cons, h2]
    exact pw.symm
  · refine ⟨{ store := s', tasks := c.tasks.eraseIdx i, finished := c.finished ++ [t.work] },
      by simp only [Conc.step, ht, h1], ⟨q', ?_, ?_, h3⟩, ?_⟩
    · simp only [List.map_append, List.map_cons, List.map_nil]
      rw [← List.append_assoc, run_snoc hq]
      exact h2
    · rw [← hu, ← h3.uri, ← ha.uri]
      -- no step changes the URI of the store
      have : ∀ (t : Task) (s : Store) r, t.next env s = some r → r.1.uri = s.uri := by
        intro t s r hr
        cases t <;> simp only [Task.next, Option.map_eq_some_iff, Option.some.injEq] at hr
        all_goals first
          | (obtain ⟨_, -, rfl⟩ := hr; rfl)
          | (subst hr; rfl)
      exact this _ _ _ h1
    · show List.Perm ((c.finished ++ [t.work]) ++ (c.tasks.eraseIdx i).map Task.work) _
      rw [List.append_assoc]
      exact List.Perm.append_left _ pw.symm

theorem start_ok (env : Env) (q : Store) (w : Work) : w.start.OK env q ∧ (∀ k, w.start.greb env k = none) ∧
    (∀ c, w.start.filter env q c = none) ∧ (∀ k, w.start.com env k = none) ∧ w.start.work = w := by
  cases w <;> exact ⟨trivial, fun _ => rfl, fun _ => rfl, fun _ => rfl, rfl⟩

theorem sound_start {env : Env} {root : Bytes} {h : List HOp} {c : Conc} {w : Work} (hw : WorkOK env root w)
    (hap : ∀ t ∈ c.tasks, t.work.uri ≠ w.uri) (hs : Sound env root h c) :
    Sound env root h { c with tasks := c.tasks ++ [w.start] } := by
  obtain ⟨q, hq, hu, ha⟩ := hs
  obtain ⟨o1, o2, o3, o4, o5⟩ := start_ok env q w
  refine ⟨q, hq, hu, ?_⟩
  have hm : ∀ t, t ∈ c.tasks ++ [w.start] → t ∈ c.tasks ∨ t = w.start := fun t ht => by
    simpa using ht
  refine
    { uri := ha.uri, db := ha.db, synced := ha.synced, apart := ?_, work := ?_, ok := ?_, grebA := ?_, grebB := ?_
      refsA := ?_, refsB := ?_, comA := ?_, comB := ?_, sortedGreb := ha.sortedGreb, sortedCom := ha.sortedCom
      nodup := ha.nodup }
  · rw [List.map_append, List.nodup_append]
    refine ⟨ha.apart, by simp, ?_⟩
    intro a hma b hmb
    obtain ⟨t, ht, rfl⟩ := List.mem_map.mp hma
    simp only [List.map_cons, List.map_nil, List.mem_singleton] at hmb
    rw [hmb, o5]
    exact hap t ht
  · intro t ht
    rcases hm t ht with ht | rfl
    · exact ha.work t ht
    · rw [o5, hu]; exact hw
  · intro t ht
    rcases hm t ht with ht | rfl
    · exact ha.ok t ht
    · exact o1
  · intro t ht k v hv
    rcases hm t ht with ht | rfl
    · exact ha.grebA t ht k v hv
    · rw [o2] at hv; cases hv
  · exact fun k hk => ha.grebB k fun t ht => hk t (by simp [ht])
  · intro t ht k v hv
    rcases hm t ht with ht | rfl
    · exact ha.refsA t ht k v hv
    · rw [o3] at hv; cases hv
  · exact fun k hk => ha.refsB k fun t ht => hk t (by simp [ht])
  · intro t ht k v hv
    rcases hm t ht with ht | rfl
    · exact ha.comA t ht k v hv
    · rw [o4] at hv; cases hv
  · exact fun k hk => ha.comB k fun t ht => hk t (by simp [ht])

/-- Every schedule that keeps the calls for one file apart. -/
theorem sound_run {env : Env} {root : Bytes} {h : List HOp} {W : List Work} (he : EnvOK env)
    (htok : ∀ n, sep ∉ n → ∀ t ∈ env.tokenise n, sep ∉ t) (hW : HistOK env (h ++ W.map Work.op))
    (hok : ∀ w ∈ W, WorkOK env root w) (es : List Ev) (c : Conc) (hsub : ∀ w ∈ started es, w ∈ W)
    (hfin : ∀ w ∈ c.finished ++ c.tasks.map Task.work, w ∈ W) (hs : Sound env root h c) (hap : Apart env c es)
    (c' : Conc) (hr : c.run env es = some c') :
    Sound env root h c' ∧
      List.Perm (c'.finished ++ c'.tasks.map Task.work) (c.finished ++ c.tasks.map Task.work ++ started es) := by
  induction es generalizing c with
  | nil => cases hr; exact ⟨hs, by simp [started]⟩
  | cons e es ih =>
    simp only [Conc.run] at hr
    cases h1 : c.step env e with
    | none => rw [h1] at hr; cases hr
    | some c1 =>
      rw [h1] at hr
      have hap' := hap.2 c1 h1
      cases e with
      | start w =>
        have hst : started (.start w :: es) = w :: started es := rfl
        cases h1
        have hwW : w ∈ W := hsub w (by rw [hst]; simp)
        have hw5 := (start_ok env c.store w).2.2.2.2
        obtain ⟨g1, g2⟩ := ih _ (fun x hx => hsub x (by rw [hst]; simp [hx])) (by
          intro x hx
          simp only [List.map_append, List.map_cons, List.map_nil, List.mem_append, List.mem_singleton] at hx
          rcases hx with hx | hx | rfl
          · exact hfin x (List.mem_append_left _ hx)
          · exact hfin x (List.mem_append_right _ hx)
          · rw [hw5]; exact hwW) (sound_start (hok w hwW) hap.1 hs) hap' hr
        refine ⟨g1, g2.trans ?_⟩
        rw [hst]
        simp [hw5]
      | step i =>
        have hst : started (.step i :: es) = started es := rfl
        cases ht : c.tasks[i]? with
        | none => simp only [Conc.step, ht] at h1; cases h1
        | some t =>
          obtain ⟨c2, k1, k2, k3⟩ := sound_step he htok hW (fun w hw => hfin w (List.mem_append_left _ hw)) hs ht
          rw [h1] at k1
          cases k1
          obtain ⟨g1, g2⟩ := ih c1 (fun x hx => hsub x (by rw [hst]; exact hx))
            (fun x hx => hfin x (k3.mem_iff.mp hx)) k2 hap' hr
          exact ⟨g1, g2.trans (by rw [hst]; exact List.Perm.append_right _ k3)⟩

theorem sound_begin {env : Env} {root : Bytes} {h : List HOp} {s : Store} (he : EnvOK env) (hok : HistOK env h)
    (hs : run env root h = some s) : Sound env root h ⟨s, [], []⟩ := by
  obtain ⟨s', h1, inv, rb, hu⟩ := run_inv (root := root) he hok
  rw [hs] at h1
  cases h1
  have hg := run_sortedGreb hs
  have hc := (run_cinv hs).sorted
  exact ⟨s, by simpa using hs, hu,
    { uri := rfl, db := rfl, synced := rfl, apart := by simp, work := by simp, ok := by simp, grebA := by simp
      grebB := fun _ _ => rfl, refsA := by simp, refsB := fun _ _ => rfl, comA := by simp, comB := fun _ _ => rfl
      sortedGreb := ⟨hg, hg⟩, sortedCom := ⟨hc, hc⟩, nodup := rb.nodup }⟩

end Verif.Store
