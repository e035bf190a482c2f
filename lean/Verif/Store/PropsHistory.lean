import Verif.Store.PropsRefs

/-!
Properties C11 (deleting a folder), C12 (skip or re-index), C13 (a full indexing pass), C14 (crashes).
-/

namespace Verif.Store

open Verif.Encoding Verif.Storage

variable {env : Env} {root : Bytes} {h : List HOp} {s : Store}

/-! ### appending to histories -/

theorem run_append (h1 h2 : List HOp) :
    run env root (h1 ++ h2) = runFrom env (run env root h1) h2 := by
  simp [run, runFrom, List.foldl_append]

theorem latest_append (h1 h2 : List HOp) : latest (h1 ++ h2) = h2.foldl latestStep (latest h1) := by
  simp [latest, List.foldl_append]

theorem docs_deletes (us : List Bytes) : docs (us.map HOp.delete) = [] := by
  induction us with
  | nil => rfl
  | cons u us ih => rw [List.map_cons, docs_cons, ih]; rfl

theorem HistOK.deletes (hok : HistOK env h) (us : List Bytes) : HistOK env (h ++ us.map .delete) := by
  have hd : Store.docs (h ++ us.map .delete) = Store.docs h := by rw [docs_append, docs_deletes, List.append_nil]
  refine ⟨by rw [hd]; exact hok.docs, by rw [hd]; exact hok.consts, Keeps.append.mpr ⟨hok.crashes, ?_⟩⟩
  generalize List.foldl latestStep (fun _ => none) h = L
  clear hd hok
  induction us generalizing L with
  | nil => trivial
  | cons u us ih => exact ⟨trivial, ih _⟩

theorem latest_deletes (h : List HOp) (us : List Bytes) (v : Bytes) :
    latest (h ++ us.map .delete) v = if v ∈ us then none else latest h v := by
  rw [latest_append]
  generalize latest h = L
  induction us generalizing L with
  | nil => simp
  | cons u us ih =>
    rw [List.map_cons, List.foldl_cons, ih]
    simp only [latestStep, List.mem_cons]
    by_cases h1 : v ∈ us <;> by_cases h2 : v = u <;> simp [h1, h2]

theorem split_docKey {u : Bytes} (h : sep ∉ u) : (splitB sep (entryKey cDoc u)).getD 1 [] = u := by
  unfold entryKey
  rw [splitB_append _ _ _ (by decide), splitB_of_no_sep _ _ h]
  rfl

/-- The recorded documents whose URI starts with `p`. -/
theorem docEntries {D L} (inv : Inv env D L s) (p : Bytes) :
    ∃ us : List Bytes, us.Nodup ∧
      s.db.db.filter (fun e => hasPrefix (entryKey cDoc p) e.1)
        = us.map (fun u => (entryKey cDoc u, ((L u).map Doc.hash).getD [])) ∧
      ∀ u, u ∈ us ↔ (∃ d, L u = some d) ∧ p <+: u := by
  have hes : ∀ e ∈ s.db.db.filter (fun e => hasPrefix (entryKey cDoc p) e.1),
      ∃ u, e = (entryKey cDoc u, ((L u).map Doc.hash).getD []) ∧ (∃ d, L u = some d) ∧ p <+: u := by
    rintro ⟨k, v⟩ he
    obtain ⟨hm, hp⟩ := List.mem_filter.mp he
    rw [hasPrefix_iff] at hp
    obtain ⟨t, rfl⟩ := hp
    have hk : entryKey cDoc p ++ t = entryKey cDoc (p ++ t) := by simp [entryKey]
    have hg := (mem_iff_get inv.sorted _ _).mp hm
    simp only [hk] at hg ⊢
    have hd := inv.doc (p ++ t)
    change s.db.get _ = some v at hg
    rw [hg] at hd
    cases hL : L (p ++ t) with
    | none => rw [hL] at hd; cases hd
    | some d =>
      rw [hL] at hd
      refine ⟨p ++ t, ?_, ⟨d, hL⟩, List.prefix_append _ _⟩
      rw [hL]
      simpa using hd
  have hall : ∀ u d, L u = some d → p <+: u →
      entryKey cDoc u ∈ (s.db.db.filter (fun e => hasPrefix (entryKey cDoc p) e.1)).map (·.1) := by
    intro u d hL hp
    have hd := inv.doc u
    rw [hL] at hd
    refine List.mem_map.mpr ⟨(entryKey cDoc u, d.hash), List.mem_filter.mpr
      ⟨(mem_iff_get inv.sorted _ _).mpr hd, ?_⟩, rfl⟩
    rw [hasPrefix_iff]
    exact (entryKey_prefix doc_nosep doc_nosep).mpr ⟨rfl, hp⟩
  have hsort : Sorted (s.db.db.filter (fun e => hasPrefix (entryKey cDoc p) e.1)) := filter_sorted inv.sorted
  generalize s.db.db.filter (fun e => hasPrefix (entryKey cDoc p) e.1) = es at *
  have choose : ∀ es : Entries, (∀ e ∈ es,
      ∃ u, e = (entryKey cDoc u, ((L u).map Doc.hash).getD []) ∧ (∃ d, L u = some d) ∧ p <+: u) →
      ∃ us : List Bytes, es = us.map (fun u => (entryKey cDoc u, ((L u).map Doc.hash).getD [])) ∧
        ∀ u ∈ us, (∃ d, L u = some d) ∧ p <+: u := by
    intro es
    induction es with
    | nil => intro _; exact ⟨[], rfl, by simp⟩
    | cons e es ih =>
      intro h
      obtain ⟨a, h1, h2⟩ := h e (by simp)
      obtain ⟨xs, h3, h4⟩ := ih fun e he => h e (by simp [he])
      exact ⟨a :: xs, by simp [h1, h3], by
        intro u hu
        rcases List.mem_cons.mp hu with rfl | hu
        · exact h2
        · exact h4 u hu⟩
  obtain ⟨us, h1, h2⟩ := choose es hes
  refine ⟨us, ?_, h1, fun u => ⟨h2 u, ?_⟩⟩
  · rw [h1] at hsort
    have := List.pairwise_map.mp hsort
    refine this.imp ?_
    intro a b hab e
    rw [e, bLt_irrefl] at hab
    cases hab
  · rintro ⟨⟨d, hL⟩, hp⟩
    have := hall u d hL hp
    rw [h1, List.map_map] at this
    obtain ⟨v, hv, e⟩ := List.mem_map.mp this
    have := ((entryKey_inj doc_nosep doc_nosep).mp e).2
    rwa [← this]

theorem runFrom_deletes (us : List Bytes) (acc : Option Store) :
    runFrom env acc (us.map .delete) = us.foldl (fun acc u => acc.bind fun s => s.deleteDocument u) acc := by
  induction us generalizing acc with
  | nil => rfl
  | cons u us ih =>
    rw [List.map_cons, List.foldl_cons, ← ih]
    rfl

/-! ## C11 -/

/-- A file is inside a folder. -/
def Inside (folder u : Bytes) : Prop := ∃ rest, u = folder ++ 47 :: rest

theorem deleteFolder_history (he : EnvOK env) (hok : HistOK env h) (hs : run env root h = some s) (f : Bytes) :
    ∃ us : List Bytes, s.deleteFolder f = run env root (h ++ us.map .delete) ∧
      ∀ u, u ∈ us ↔ (∃ d, latest h u = some d) ∧ f <+: u := by
  obtain ⟨s', h1, inv, -, -⟩ := run_inv (root := root) he hok
  rw [hs] at h1
  cases h1
  obtain ⟨us, -, h2, h3⟩ := docEntries inv f
  refine ⟨us, ?_, h3⟩
  rw [run_append, hs, runFrom_deletes]
  unfold Store.deleteFolder LevelDB.prefixStream
  rw [LevelDB.stream_deliver _ _ _ _ _ (Nat.lt_succ_self _), h2,
    deliver_all (fun (acc : Option Store) e => acc.bind fun s => s.deleteDocument ((splitB sep e.1).getD 1 []))]
  have hu : ∀ u ∈ us, sep ∉ u := by
    intro u hu
    obtain ⟨⟨d, hd⟩, -⟩ := (h3 u).mp hu
    obtain ⟨m, e⟩ := inv.live u d hd
    rw [← e]
    exact (hok.docs d m).uri.1
  clear h2 h3
  generalize (some s : Option Store) = acc
  induction us generalizing acc with
  | nil => rfl
  | cons u us ih =>
    rw [List.map_cons, List.foldl_cons, List.foldl_cons, ih (fun u hu' => hu u (by simp [hu']))]
    simp only [split_docKey (hu u (by simp))]

/-- C11 as far as it holds for every URI: deleting a folder removes exactly the files whose URI
*starts with* the folder's URI. Missing: files next to the folder whose name starts with the folder's
name must survive (`C11_false_sibling`). -/
theorem C11_delete_folder_partial (he : EnvOK env) (hsl : env.LowerSlash) (hok : HistOK env h)
    (hs : run env root h = some s) (f : Bytes) :
    ∃ s', s.deleteFolder f = some s' ∧
      ∀ y : Sym, y.NameOK → (Finds env s' y ↔ Finds env s y ∧ ¬ f <+: y.location.uri) := by
  obtain ⟨us, h1, h2⟩ := deleteFolder_history he hok hs f
  have hok' := hok.deletes us
  obtain ⟨s', h3, -⟩ := run_inv (root := root) he hok'
  refine ⟨s', h1.trans h3, fun y hy => ?_⟩
  obtain ⟨_, -, inv, -, -⟩ := run_inv (root := root) he hok
  rw [C08_index_is_latest_partial he hsl hok' h3 y hy, C08_index_is_latest_partial he hsl hok hs y hy]
  have hloc : ∀ u d x, latest h u = some d → x ∈ d.symbols → x.location.uri = u := by
    intro u d x hL hx
    obtain ⟨m, e⟩ := inv.live u d hL
    rw [← e]
    exact ((hok.docs d m).syms x hx).uri
  constructor
  · rintro ⟨x, ⟨u, d, pre, post, g1, g2, g3⟩, rfl⟩
    rw [latest_deletes] at g1
    split at g1
    · cases g1
    · rename_i hu
      refine ⟨⟨x, ⟨u, d, pre, post, g1, g2, g3⟩, rfl⟩, ?_⟩
      rw [stored_location, hloc u d x g1 (by simp [g2])]
      exact fun hp => hu ((h2 u).mpr ⟨⟨d, g1⟩, hp⟩)
  · rintro ⟨⟨x, ⟨u, d, pre, post, g1, g2, g3⟩, rfl⟩, hp⟩
    rw [stored_location, hloc u d x g1 (by simp [g2])] at hp
    refine ⟨x, ⟨u, d, pre, post, ?_, g2, g3⟩, rfl⟩
    rw [latest_deletes, if_neg, g1]
    exact fun hu => hp ((h2 u).mp hu).2

/-- C11 in full when the folder's URI is passed with its trailing slash. -/
theorem C11_delete_folder_slash (he : EnvOK env) (hsl : env.LowerSlash) (hok : HistOK env h)
    (hs : run env root h = some s) (folder : Bytes) :
    ∃ s', s.deleteFolder (folder ++ [47]) = some s' ∧
      ∀ y : Sym, y.NameOK → (Finds env s' y ↔ Finds env s y ∧ ¬ Inside folder y.location.uri) := by
  obtain ⟨s', h1, h2⟩ := C11_delete_folder_partial he hsl hok hs (folder ++ [47])
  refine ⟨s', h1, fun y hy => ?_⟩
  rw [h2 y hy]
  have : folder ++ [47] <+: y.location.uri ↔ Inside folder y.location.uri := by
    constructor
    · rintro ⟨t, ht⟩; exact ⟨t, by rw [← ht]; simp⟩
    · rintro ⟨t, ht⟩; exact ⟨t, by rw [ht]; simp⟩
  rw [this]

/-- The demo files are inside `file:///w`, one of them is not inside `file:///w/a`. -/
example : Inside b!"file:///w" Demo.uA ∧ ¬ Inside b!"file:///w/a" Demo.uA :=
  ⟨⟨b!"a.php", rfl⟩, by
    rintro ⟨rest, e⟩
    have := congrArg (fun l => l.getD 11 0) e
    revert this
    simp [Demo.uA]⟩

/-- C11 is false without the trailing slash: deleting the folder `w/a` also removes the file
`w/a.php`, which is not inside it. -/
theorem C11_false_sibling :
    ∃ (h : List HOp) (s s' : Store) (x : Sym) (folder : Bytes), HistOK Demo.env h ∧
      run Demo.env Demo.root h = some s ∧ s.deleteFolder folder = some s' ∧
      ¬ Inside folder x.location.uri ∧ Finds Demo.env s x ∧ ¬ Finds Demo.env s' x := by
  have hhist : HistOK Demo.env [.index Demo.a1] := ⟨by
    intro d hd
    simp [docs] at hd
    rw [hd]; exact Demo.a1_ok, by
    intro d1 h1 d2 h2 _ _ _ _ _ _
    simp [docs] at h1 h2
    rw [h1, h2], by simp [Keeps]⟩
  let f : Function := ⟨Demo.loc Demo.uA 7, Location.zero, Demo.ty b!"f", [], [Demo.ty b!"int"], b!"doc", none⟩
  obtain ⟨s, h1, h2⟩ := Demo.observe (env := Demo.env) (root := Demo.root) (h := [.index Demo.a1])
    (fun s => (s.getFunctions b!"\\f", (s.deleteFolder b!"file:///w/a").map fun s => s.getFunctions b!"\\f"))
    (some [f], some (some [])) (by decide +kernel)
  simp only [Prod.mk.injEq] at h2
  cases h3 : s.deleteFolder b!"file:///w/a" with
  | none => rw [h3] at h2; exact absurd h2.2 (by simp)
  | some s' =>
    refine ⟨_, s, s', .fn f, b!"file:///w/a", hhist, h1, h3, ?_, ⟨[f], h2.1, by simp⟩, ?_⟩
    · rintro ⟨rest, e⟩
      have := congrArg (fun l => l.getD 11 0) e
      revert this
      simp [f, Sym.location, Demo.loc, Demo.uA]
    · rintro ⟨l, hl, hm⟩
      rw [h3, Option.map_some] at h2
      have := hl.symm.trans (Option.some.inj h2.2)
      rw [Option.some.inj this] at hm
      simp at hm

/-! ## C12 -/

theorem restart_synced {s s' : Store} (h : s.restart = some s') : s'.synced = [] := by
  unfold Store.restart at h
  cases hl : loadRefs s.db with
  | none => rw [hl] at h; cases h
  | some r => rw [hl] at h; cases h; rfl

theorem delete_synced {s s' : Store} {u : Bytes} (h : s.deleteDocument u = some s') : s'.synced = s.synced := by
  unfold Store.deleteDocument at h
  cases h1 : completionDeletorOps s.db u with
  | none => rw [h1] at h; cases h
  | some a =>
    cases h2 : readDocSyms s.greb u with
    | none => rw [h1, h2] at h; cases h
    | some b => rw [h1, h2] at h; cases h; rfl

theorem step_synced {s s' : Store} {o : HOp} (h : step env s o = some s') (hs : s.synced = []) : s'.synced = [] := by
  cases o with
  | index d => exact (sync_greb h).2.2.1.trans hs
  | delete u => exact (delete_synced h).trans hs
  | restart => exact restart_synced h
  | upgrade v => cases h; exact hs
  | crash d k =>
    simp only [step, Store.crashDuring] at h
    cases h1 : s.sync env d with
    | none => rw [h1] at h; cases h
    | some t => rw [h1] at h; exact restart_synced h

/-- Outside an indexing pass no snapshot of hashes is held. -/
theorem run_synced (hs : run env root h = some s) : s.synced = [] := by
  have key : ∀ (h : List HOp) (t : Store), t.synced = [] → ∀ s, runFrom env (some t) h = some s → s.synced = [] := by
    intro h
    induction h with
    | nil => intro t ht s hs; cases hs; exact ht
    | cons o h ih =>
      intro t ht s hs
      have : runFrom env (some t) (o :: h) = runFrom env (step env t o) h := rfl
      rw [this] at hs
      cases h1 : step env t o with
      | none =>
        rw [h1] at hs
        have : ∀ h : List HOp, runFrom env none h = none := by
          intro h
          induction h with
          | nil => rfl
          | cons o h ih => exact ih
        rw [this] at hs; cases hs
      | some t' => rw [h1] at hs; exact ih t' (step_synced h1 ht) s hs
  exact key h _ rfl s hs

/-- C12: indexing a file whose recorded hash is that of the content does nothing. -/
theorem C12_unchanged_is_skipped (he : EnvOK env) (hok : HistOK env h) (hs : run env root h = some s)
    (d d0 : Doc) (hL : latest h d.uri = some d0) (hh : d0.hash = d.hash) :
    s.compareAndIndex env d = some (s, false) := by
  obtain ⟨s', h1, inv, -, -⟩ := run_inv (root := root) he hok
  rw [hs] at h1
  cases h1
  have hnone : mapFind s.synced d.uri = none := by rw [run_synced hs]; rfl
  unfold Store.compareAndIndex
  simp only [hnone]
  rw [if_pos]
  have := inv.doc d.uri
  rw [hL] at this
  rw [this]
  simp [hh]

/-- C12: indexing a file whose content is new (not indexed, or with another hash) does the same as
indexing it unconditionally, so (C08) its symbols replace the old ones; and the hash recorded
afterwards is that of the content. -/
theorem C12_changed_is_reindexed (he : EnvOK env) (hok : HistOK env h) (hs : run env root h = some s)
    (d : Doc) (hd : HistOK env (h ++ [.index d]))
    (hL : ∀ d0, latest h d.uri = some d0 → d0.hash ≠ d.hash) :
    ∃ s', s.compareAndIndex env d = some (s', true) ∧ run env root (h ++ [.index d]) = some s' ∧
      s'.db.get (entryKey cDoc d.uri) = some d.hash ∧ latest (h ++ [.index d]) d.uri = some d := by
  obtain ⟨s0, h1, inv, -, -⟩ := run_inv (root := root) he hok
  rw [hs] at h1
  cases h1
  obtain ⟨s', h1, inv', -, -⟩ := run_inv (root := root) he hd
  have hl' : latest (h ++ [.index d]) d.uri = some d := by simp [latest, latestStep]
  refine ⟨s', ?_, h1, by rw [inv'.doc, hl']; rfl, hl'⟩
  have hsync : s.sync env d = some s' := by
    rw [run_append, hs] at h1
    exact h1
  have hnone : mapFind s.synced d.uri = none := by rw [run_synced hs]; rfl
  unfold Store.compareAndIndex
  simp only [hnone]
  rw [if_neg, hsync]
  · rfl
  · rw [inv.doc]
    intro e
    cases hd0 : latest h d.uri with
    | none => rw [hd0] at e; cases e
    | some d0 => rw [hd0] at e; exact hL d0 hd0 (Option.some.inj e)

/-- Both cases of C12 occur: after the demo history, `a.php` with content 2 is unchanged and with
content 1 it is changed. -/
example : ((latest Demo.hist Demo.a2.uri).map Doc.hash = some Demo.a2.hash) ∧
    (∀ d0, latest Demo.hist Demo.a1.uri = some d0 → d0.hash ≠ Demo.a1.hash) ∧
    HistOK Demo.env (Demo.hist ++ [.index Demo.a1]) :=
  ⟨by decide +kernel, by
    intro d0 h
    have : latest Demo.hist Demo.a1.uri = some Demo.a2 := by decide +kernel
    rw [this] at h
    cases h
    decide, ⟨by
      intro d hd
      have : docs (Demo.hist ++ [.index Demo.a1]) = [Demo.a1, Demo.b1, Demo.a2, Demo.b1, Demo.a1] := rfl
      rw [this] at hd
      simp only [List.mem_cons, List.not_mem_nil, or_false] at hd
      rcases hd with rfl | rfl | rfl | rfl | rfl <;> first | exact Demo.a1_ok | exact Demo.a2_ok | exact Demo.b1_ok,
      by
      intro d1 h1 d2 h2 c1 c2 m1 m2 e1 e2
      refine Demo.hist_ok.consts d1 ?_ d2 ?_ c1 c2 m1 m2 e1 e2
      · have : docs (Demo.hist ++ [.index Demo.a1]) = [Demo.a1, Demo.b1, Demo.a2, Demo.b1, Demo.a1] := rfl
        rw [this] at h1
        rw [Demo.docs_hist]
        simp only [List.mem_cons, List.not_mem_nil, or_false] at h1 ⊢
        tauto
      · have : docs (Demo.hist ++ [.index Demo.a1]) = [Demo.a1, Demo.b1, Demo.a2, Demo.b1, Demo.a1] := rfl
        rw [this] at h2
        rw [Demo.docs_hist]
        simp only [List.mem_cons, List.not_mem_nil, or_false] at h2 ⊢
        tauto, by simp [Keeps, Demo.hist]⟩⟩

/-- C12 is false during an indexing pass: the hash is compared with the snapshot taken when the pass
started. If the file is indexed with content 2 in between (the editor saved it), content 1 is then
skipped although the index holds content 2. -/
theorem C12_false_stale_snapshot :
    ∃ (h : List HOp) (s s2 s3 : Store) (d1 d2 : Doc), HistOK Demo.env (h ++ [.index d2]) ∧
      run Demo.env Demo.root h = some s ∧ s.prepareForIndexing.sync Demo.env d2 = some s2 ∧
      s2.compareAndIndex Demo.env d1 = some (s3, false) ∧ d1.uri = d2.uri ∧
      s3.db.get (entryKey cDoc d1.uri) = some d2.hash ∧ d1.hash ≠ d2.hash := by
  have hok : HistOK Demo.env ([.index Demo.a1] ++ [.index Demo.a2]) := ⟨by
    intro d hd
    have : docs ([.index Demo.a1] ++ [.index Demo.a2]) = [Demo.a1, Demo.a2] := rfl
    rw [this] at hd
    simp only [List.mem_cons, List.not_mem_nil, or_false] at hd
    rcases hd with rfl | rfl
    · exact Demo.a1_ok
    · exact Demo.a2_ok, by
    intro d1 h1 d2 h2 _ _ _ _ _ _
    have : docs ([.index Demo.a1] ++ [.index Demo.a2]) = [Demo.a1, Demo.a2] := rfl
    rw [this] at h1 h2
    simp only [List.mem_cons, List.not_mem_nil, or_false] at h1 h2
    rcases h1 with rfl | rfl <;> rcases h2 with rfl | rfl <;> rfl, by simp [Keeps]⟩
  obtain ⟨s, h1, h2⟩ := Demo.observe (env := Demo.env) (root := Demo.root) (h := [.index Demo.a1])
    (fun s => ((s.prepareForIndexing.sync Demo.env Demo.a2).bind fun s2 => s2.compareAndIndex Demo.env Demo.a1).map
      fun r => (r.2, r.1.db.get (entryKey cDoc Demo.uA))) (some (false, some Demo.a2.hash)) (by decide +kernel)
  cases h3 : s.prepareForIndexing.sync Demo.env Demo.a2 with
  | none => rw [h3] at h2; cases h2
  | some s2 =>
    rw [h3] at h2
    cases h4 : s2.compareAndIndex Demo.env Demo.a1 with
    | none => rw [Option.bind_some, h4] at h2; cases h2
    | some r =>
      rw [Option.bind_some, h4] at h2
      simp only [Option.map_some, Option.some.injEq, Prod.mk.injEq] at h2
      obtain ⟨r1, r2⟩ := r
      simp only at h2
      exact ⟨_, s, s2, r1, Demo.a1, Demo.a2, hok, h1, h3, by rw [h4, h2.1], rfl, h2.2, by decide⟩

/-! ## C13 -/

/-- A full pass: snapshot, visit every file found on disk, remove the rest. -/
def pass (env : Env) (s : Store) (files : List Doc) : Option Store :=
  (files.foldl (fun acc d => acc.bind fun s => (s.compareAndIndex env d).map (·.1))
    (some s.prepareForIndexing)).bind Store.finishIndexing

theorem mapFind_nil (k : Bytes) : mapFind [] k = none := rfl
theorem mapFind_cons (e : Bytes × Bytes) (m) (k : Bytes) :
    mapFind (e :: m) k = if e.1 = k then some e.2 else mapFind m k := by
  unfold mapFind
  rw [List.find?_cons]
  by_cases h : e.1 = k
  · simp [h]
  · simp [h, beq_false_of_ne h]

theorem mapFind_append (m m') (k : Bytes) : mapFind (m ++ m') k = (mapFind m k).or (mapFind m' k) := by
  induction m with
  | nil => simp [mapFind_nil]
  | cons e m ih =>
    rw [List.cons_append, mapFind_cons, mapFind_cons, ih]
    split <;> simp

theorem mapFind_filter (m) (u k : Bytes) :
    mapFind (m.filter fun e => e.1 != u) k = if k = u then none else mapFind m k := by
  induction m with
  | nil => simp [mapFind_nil]
  | cons e m ih =>
    rw [List.filter_cons]
    by_cases h : e.1 = u
    · rw [if_neg (by simp [h]), ih, mapFind_cons]
      by_cases h2 : k = u
      · simp [h2]
      · rw [if_neg h2, if_neg h2, if_neg (by rw [h]; exact Ne.symm h2)]
    · rw [if_pos (by simp [h]), mapFind_cons, mapFind_cons, ih]
      by_cases h2 : k = u
      · subst h2; simp [h]
      · simp [h2]

theorem mapFind_mem {m : List (Bytes × Bytes)} {k v : Bytes} (h : mapFind m k = some v) : (k, v) ∈ m := by
  induction m with
  | nil => cases h
  | cons e m ih =>
    rw [mapFind_cons] at h
    split at h
    · cases h; subst_vars; simp
    · exact List.mem_cons_of_mem _ (ih h)

theorem mem_keys_iff {m : List (Bytes × Bytes)} {k : Bytes} : k ∈ m.map (·.1) ↔ ∃ v, mapFind m k = some v := by
  induction m with
  | nil => simp [mapFind_nil]
  | cons e m ih =>
    rw [List.map_cons, List.mem_cons, ih, mapFind_cons]
    by_cases h : e.1 = k
    · simp [h]
    · simp [h, Ne.symm h]

/-- The snapshot holds exactly the recorded hashes of the `file://` documents. -/
theorem prepare_find {D L} (inv : Inv env D L s) (hD : ∀ d ∈ D, DocOK env d) (hs : s.synced = []) (u : Bytes) :
    mapFind s.prepareForIndexing.synced u =
      if b!"file://" <+: u then (L u).map Doc.hash else none := by
  obtain ⟨us, hn, h1, h2⟩ := docEntries inv b!"file://"
  have hu : ∀ u ∈ us, sep ∉ u := by
    intro u hu
    obtain ⟨⟨d, hd⟩, -⟩ := (h2 u).mp hu
    obtain ⟨m, e⟩ := inv.live u d hd
    rw [← e]
    exact (hD d m).uri.1
  have hpre : s.prepareForIndexing.synced = us.map (fun u => (u, ((L u).map Doc.hash).getD [])) := by
    unfold Store.prepareForIndexing LevelDB.prefixStream
    simp only
    rw [LevelDB.stream_deliver _ _ _ _ _ (Nat.lt_succ_self _), h1, hs]
    rw [deliver_all (fun (m : List (Bytes × Bytes)) (e : Bytes × Bytes) =>
      m.filter (fun x => x.1 != (splitB sep e.1).getD 1 []) ++ [((splitB sep e.1).getD 1 [], e.2)])]
    have key : ∀ (us : List Bytes) (m : List (Bytes × Bytes)), us.Nodup → (∀ u ∈ us, sep ∉ u) →
        (∀ u ∈ us, ∀ x ∈ m, x.1 ≠ u) →
        (us.map (fun u => (entryKey cDoc u, ((L u).map Doc.hash).getD []))).foldl
          (fun (m : List (Bytes × Bytes)) (e : Bytes × Bytes) =>
            m.filter (fun x => x.1 != (splitB sep e.1).getD 1 []) ++ [((splitB sep e.1).getD 1 [], e.2)]) m
        = m ++ us.map (fun u => (u, ((L u).map Doc.hash).getD [])) := by
      intro us
      induction us with
      | nil => simp
      | cons a us ih =>
        intro m hn hsep hm
        rw [List.map_cons, List.foldl_cons]
        simp only [split_docKey (hsep a (by simp))]
        rw [List.filter_eq_self.mpr (by intro x hx; simpa using hm a (by simp) x hx)]
        rw [ih _ (List.nodup_cons.mp hn).2 (fun u hu => hsep u (by simp [hu])) (by
          intro u hu x hx
          rcases List.mem_append.mp hx with hx | hx
          · exact hm u (by simp [hu]) x hx
          · rw [List.mem_singleton.mp hx]
            rintro rfl
            exact (List.nodup_cons.mp hn).1 hu)]
        simp
    exact (key us [] hn hu (by simp)).trans (List.nil_append _)
  rw [hpre]
  have hfind : ∀ us : List Bytes, mapFind (us.map (fun u => (u, ((L u).map Doc.hash).getD []))) u =
      if u ∈ us then some (((L u).map Doc.hash).getD []) else none := by
    intro us
    induction us with
    | nil => rfl
    | cons a us ih =>
      rw [List.map_cons, mapFind_cons, ih]
      simp only [List.mem_cons]
      by_cases h : a = u
      · simp [h]
      · simp [h, Ne.symm h]
  rw [hfind us]
  by_cases hin : u ∈ us
  · obtain ⟨⟨d, hd⟩, hp⟩ := (h2 u).mp hin
    rw [if_pos hin, if_pos hp, hd]; rfl
  · rw [if_neg hin]
    by_cases hp : b!"file://" <+: u
    · rw [if_pos hp]
      cases hL : L u with
      | none => rfl
      | some d => exact absurd ((h2 u).mpr ⟨⟨d, hL⟩, hp⟩) hin
    · rw [if_neg hp]

/-- Operations other than restart do not look at the snapshot. -/
theorem sync_synced (m : List (Bytes × Bytes)) (d : Doc) :
    ({ s with synced := m } : Store).sync env d = (s.sync env d).map fun t => { t with synced := m } := by
  unfold Store.sync
  simp only
  cases readDocSyms s.greb d.uri <;> rfl

theorem delete_with_synced (m : List (Bytes × Bytes)) (u : Bytes) :
    ({ s with synced := m } : Store).deleteDocument u = (s.deleteDocument u).map fun t => { t with synced := m } := by
  unfold Store.deleteDocument
  simp only
  cases completionDeletorOps s.db u with
  | none => rfl
  | some a => cases readDocSyms s.greb u <;> rfl

theorem finish_eq (l : List (Bytes × Bytes)) (t : Store) (m : List (Bytes × Bytes)) (acc : Option Store)
    (hacc : acc = some t) :
    l.foldl (fun acc e => acc.bind fun s => (s.deleteDocument e.1).map fun s =>
      { s with synced := s.synced.filter fun x => x.1 != e.1 }) (some { t with synced := m }) =
    ((l.map (·.1)).foldl (fun acc u => acc.bind fun s => s.deleteDocument u) acc).map
      fun s => { s with synced := m.filter fun x => !(l.map (·.1)).contains x.1 } := by
  induction l generalizing t m acc with
  | nil =>
    subst hacc
    have : m.filter (fun x => !(([] : List (Bytes × Bytes)).map (·.1)).contains x.1) = m :=
      List.filter_eq_self.mpr (by simp)
    rw [this]
    rfl
  | cons e l ih =>
    subst hacc
    simp only [List.foldl_cons, List.map_cons, Option.bind_some]
    rw [delete_with_synced]
    cases hd : t.deleteDocument e.1 with
    | none =>
      simp only [Option.map_none]
      have h1 : ∀ (l : List (Bytes × Bytes)), l.foldl (fun acc e => acc.bind fun s => (s.deleteDocument e.1).map fun s =>
          { s with synced := s.synced.filter fun x => x.1 != e.1 }) (none : Option Store) = none := by
        intro l; induction l with
        | nil => rfl
        | cons _ _ ih => exact ih
      have h2 : ∀ (l : List Bytes), l.foldl (fun acc u => acc.bind fun s => s.deleteDocument u) (none : Option Store) = none := by
        intro l; induction l with
        | nil => rfl
        | cons _ _ ih => exact ih
      rw [h1, h2]; rfl
    | some t' =>
      simp only [Option.map_some]
      rw [ih t' _ (some t') rfl]
      congr 1
      funext s
      rw [List.filter_filter]
      refine congrArg (fun z => ({ s with synced := z } : Store)) (List.filter_congr fun x _ => ?_)
      simp only [List.contains_cons]
      cases h1 : (l.map (·.1)).contains x.1 <;> cases h2 : x.1 == e.1 <;> simp [bne, h2]

/-- C13: a pass over any list of files found on disk (each well-formed, visited in any order, possibly
repeatedly) succeeds, and afterwards the index is the one of a history in which
* a visited file has the content it had when it was last visited (up to the content hash),
* a file that was not visited has been removed if its URI starts with `file://`, and is unchanged
  otherwise (bundled stubs). -/
theorem C13_pass (he : EnvOK env) (hok : HistOK env h) (hs : run env root h = some s) (files : List Doc)
    (hf : ∀ idx : List Doc, idx.Sublist files → HistOK env (h ++ idx.map .index)) :
    ∃ s' h', pass env s files = some s' ∧ run env root h' = some s' ∧ HistOK env h' ∧
      (∀ u, u ∈ files.map Doc.uri → ∃ d0 d, latest h' u = some d0 ∧ d ∈ files ∧ d.uri = u ∧ d0.hash = d.hash) ∧
      (∀ u, u ∉ files.map Doc.uri → latest h' u = if b!"file://" <+: u then none else latest h u) ∧
      (∀ d ∈ docs h', d ∈ docs h ∨ d ∈ files) := by
  obtain ⟨s0, h1, inv0, -, -⟩ := run_inv (root := root) he hok
  rw [hs] at h1
  cases h1
  -- the visits
  have visits : ∀ (todo done idx : List Doc) (t : Store) (m : List (Bytes × Bytes)),
      (∀ jdx : List Doc, jdx.Sublist (todo) → HistOK env (h ++ (idx ++ jdx).map .index)) →
      (∀ d ∈ idx, d ∈ done) →
      run env root (h ++ idx.map .index) = some t →
      (∀ u, mapFind m u = if u ∈ done.map Doc.uri then none else
        if b!"file://" <+: u then (latest h u).map Doc.hash else none) →
      (∀ u, u ∉ done.map Doc.uri → latest (h ++ idx.map .index) u = latest h u) →
      (∀ u, u ∈ done.map Doc.uri → ∃ d0 d, latest (h ++ idx.map .index) u = some d0 ∧ d ∈ done ∧ d.uri = u ∧
        d0.hash = d.hash) →
      ∃ (idx' : List Doc) (t' : Store) (m' : List (Bytes × Bytes)),
        todo.foldl (fun acc d => acc.bind fun s => (s.compareAndIndex env d).map (·.1))
          (some { t with synced := m }) = some { t' with synced := m' } ∧
        HistOK env (h ++ idx'.map .index) ∧ run env root (h ++ idx'.map .index) = some t' ∧
        (∀ d ∈ idx', d ∈ done ++ todo) ∧
        (∀ u, mapFind m' u = if u ∈ (done ++ todo).map Doc.uri then none else
          if b!"file://" <+: u then (latest h u).map Doc.hash else none) ∧
        (∀ u, u ∉ (done ++ todo).map Doc.uri → latest (h ++ idx'.map .index) u = latest h u) ∧
        (∀ u, u ∈ (done ++ todo).map Doc.uri → ∃ d0 d, latest (h ++ idx'.map .index) u = some d0 ∧
          d ∈ done ++ todo ∧ d.uri = u ∧ d0.hash = d.hash) := by
    intro todo
    induction todo with
    | nil =>
      intro done idx t m hsub hidx hrun hm hout hin
      refine ⟨idx, t, m, rfl, by simpa using hsub [] (List.Sublist.refl _), hrun, by simpa using hidx, ?_, ?_, ?_⟩
      · simpa using hm
      · simpa using hout
      · simpa using hin
    | cons d todo ih =>
      intro done idx t m hsub hidx hrun hm hout hin
      have hokt : HistOK env (h ++ idx.map .index) := by
        simpa using hsub [] (List.nil_sublist _)
      obtain ⟨t0, h1, invt, -, -⟩ := run_inv (root := root) he hokt
      rw [hrun] at h1
      cases h1
      rw [List.foldl_cons, Option.bind_some]
      -- the saved hash is the recorded one in every case
      have hsaved : mapFind m d.uri = none ∨ mapFind m d.uri = t.db.get (entryKey cDoc d.uri) := by
        rw [hm]
        split
        · exact .inl rfl
        · rename_i hnd
          split
          · right; rw [invt.doc, hout _ hnd]
          · exact .inl rfl
      have hcmp : ({ t with synced := m } : Store).compareAndIndex env d =
          if t.db.get (entryKey cDoc d.uri) = some d.hash
          then some ({ t with synced := m.filter fun e => e.1 != d.uri }, false)
          else (t.sync env d).map fun t => ({ t with synced := m.filter fun e => e.1 != d.uri }, true) := by
        unfold Store.compareAndIndex
        simp only
        have hfilter : mapFind m d.uri = none → m.filter (fun e => e.1 != d.uri) = m := by
          intro hn
          rw [List.filter_eq_self]
          intro e he
          have : d.uri ∉ m.map (·.1) := by
            rw [mem_keys_iff, hn]; simp
          simp only [bne_iff_ne, ne_eq]
          rintro e'
          exact this (List.mem_map.mpr ⟨e, he, e'⟩)
        cases hmf : mapFind m d.uri with
        | none =>
          simp only [hfilter hmf]
          split
          · rfl
          · rw [sync_synced]; cases t.sync env d <;> rfl
        | some v =>
          rw [hmf] at hsaved
          rcases hsaved with hh | hh
          · cases hh
          · simp only [hh]
            split
            · rfl
            · rw [sync_synced]; cases t.sync env d <;> rfl
      rw [hcmp]
      have hm' : ∀ u, mapFind (m.filter fun e => e.1 != d.uri) u =
          if u ∈ (done ++ [d]).map Doc.uri then none else
            if b!"file://" <+: u then (latest h u).map Doc.hash else none := by
        intro u
        rw [mapFind_filter, hm]
        simp only [List.map_append, List.mem_append, List.map_cons, List.map_nil, List.mem_singleton]
        by_cases e1 : u = d.uri <;> by_cases e2 : u ∈ done.map Doc.uri <;> simp [e1, e2]
      have happ : done ++ d :: todo = (done ++ [d]) ++ todo := by simp
      by_cases hhash : t.db.get (entryKey cDoc d.uri) = some d.hash
      · rw [if_pos hhash, Option.map_some, happ]
        refine ih (done ++ [d]) idx t _ ?_ ?_ hrun hm' ?_ ?_
        · intro jdx hj; exact hsub jdx (List.Sublist.cons _ hj)
        · intro x hx; simp [hidx x hx]
        · intro u hu
          refine hout u ?_
          intro h'; exact hu (by rw [List.map_append]; exact List.mem_append_left _ h')
        · intro u hu
          by_cases e1 : u = d.uri
          · rw [invt.doc] at hhash
            subst e1
            cases hl : latest (h ++ idx.map .index) d.uri with
            | none => rw [hl] at hhash; cases hhash
            | some d0 =>
              rw [hl] at hhash
              exact ⟨d0, d, rfl, by simp, rfl, Option.some.inj hhash⟩
          · have : u ∈ done.map Doc.uri := by
              simp only [List.map_append, List.mem_append, List.map_cons, List.map_nil,
                List.mem_singleton] at hu
              exact hu.resolve_right e1
            obtain ⟨d0, d', a, b, c⟩ := hin u this
            exact ⟨d0, d', a, by simp [b], c⟩
      · rw [if_neg hhash, happ]
        have hok1 : HistOK env (h ++ (idx ++ [d]).map .index) :=
          hsub [d] (List.Sublist.cons_cons _ (List.nil_sublist _))
        obtain ⟨t1, r1, -⟩ := run_inv (root := root) he hok1
        have hlat : ∀ u, latest (h ++ (idx ++ [d]).map .index) u =
            if u = d.uri then some d else latest (h ++ idx.map .index) u := by
          intro u
          rw [List.map_append, ← List.append_assoc, latest_append _ ([d].map HOp.index)]
          rfl
        have hsync : t.sync env d = some t1 := by
          rw [List.map_append, ← List.append_assoc, run_append, hrun] at r1
          exact r1
        rw [hsync, Option.map_some, Option.map_some]
        refine ih (done ++ [d]) (idx ++ [d]) t1 _ ?_ ?_ r1 hm' ?_ ?_
        · intro jdx hj
          have := hsub (d :: jdx) (List.Sublist.cons_cons _ hj)
          simpa using this
        · intro x hx
          rcases List.mem_append.mp hx with hx | hx
          · simp [hidx x hx]
          · simp at hx; simp [hx]
        · intro u hu
          have e1 : u ≠ d.uri := by rintro rfl; exact hu (by simp)
          rw [hlat, if_neg e1]
          refine hout u ?_
          intro h'; exact hu (by rw [List.map_append]; exact List.mem_append_left _ h')
        · intro u hu
          rw [hlat]
          by_cases e1 : u = d.uri
          · rw [if_pos e1]
            exact ⟨d, d, rfl, by simp, e1.symm, rfl⟩
          · rw [if_neg e1]
            have : u ∈ done.map Doc.uri := by
              simp only [List.map_append, List.mem_append, List.map_cons, List.map_nil,
                List.mem_singleton] at hu
              exact hu.resolve_right e1
            obtain ⟨d0, d', a, b, c⟩ := hin u this
            exact ⟨d0, d', a, by simp [b], c⟩
  have hprep : s.prepareForIndexing = { s with synced := s.prepareForIndexing.synced } := rfl
  obtain ⟨idx, t, m, v1, v2, v3, v7, v4, v5, v6⟩ := visits files [] [] s s.prepareForIndexing.synced
    (by simpa using hf) (by simp) (by simpa using hs)
    (by intro u; rw [prepare_find inv0 hok.docs (run_synced hs)]; simp) (by simp) (by simp)
  simp only [List.nil_append] at v4 v5 v6 v7
  -- the clean-up
  let dels := m.map (·.1)
  have hokf := v2.deletes dels
  obtain ⟨s', r1, -⟩ := run_inv (root := root) he hokf
  refine ⟨s', (h ++ idx.map .index) ++ dels.map .delete, ?_, r1, hokf, ?_, ?_, ?_⟩
  · unfold pass
    rw [hprep, v1, Option.bind_some]
    unfold Store.finishIndexing
    simp only
    rw [finish_eq m t m (some t) rfl]
    rw [run_append, v3, runFrom_deletes] at r1
    rw [r1, Option.map_some]
    have hsy : s'.synced = [] := by
      have : run env root ((h ++ idx.map .index) ++ dels.map .delete) = some s' := by
        rw [run_append, v3, runFrom_deletes]; exact r1
      exact run_synced this
    have : m.filter (fun x => !(m.map (·.1)).contains x.1) = [] := by
      rw [List.filter_eq_nil_iff]
      intro x hx
      simp only [Bool.not_eq_true', Bool.not_eq_false, List.contains_iff_mem]
      have : x.1 ∈ m.map (·.1) := List.mem_map.mpr ⟨x, hx, rfl⟩
      simpa using this
    rw [this, ← hsy]
  · intro u hu
    obtain ⟨d0, d, a, b⟩ := v6 u hu
    refine ⟨d0, d, ?_, b⟩
    rw [latest_deletes, if_neg, a]
    rw [mem_keys_iff]
    rintro ⟨v, hv⟩
    rw [v4, if_pos hu] at hv
    cases hv
  · intro u hu
    rw [latest_deletes, v5 u hu]
    have : u ∈ dels ↔ (b!"file://" <+: u ∧ (latest h u).isSome = true) := by
      rw [mem_keys_iff]
      simp only [v4, if_neg hu]
      by_cases hp : b!"file://" <+: u
      · rw [if_pos hp]
        cases latest h u <;> simp [hp]
      · simp [hp]
    by_cases hp : b!"file://" <+: u
    · rw [if_pos hp]
      cases hL : latest h u with
      | none => simp
      | some d => rw [if_pos (this.mpr ⟨hp, by rw [hL]; rfl⟩)]
    · rw [if_neg hp, if_neg (fun hm => hp (this.mp hm).1)]
  · intro d hd
    rw [docs_append, docs_deletes, List.append_nil, docs_append] at hd
    rcases List.mem_append.mp hd with hd | hd
    · exact .inl hd
    · obtain ⟨o, ho, e⟩ := List.mem_filterMap.mp hd
      obtain ⟨x, hx, rfl⟩ := List.mem_map.mp ho
      cases e
      exact .inr (v7 _ hx)

/-- C13, what a user sees: if the content hash tells versions of a file apart, every indexed file is a
`file://` one and the files found on disk are distinct, then after the pass every lookup answers as in
an index built from scratch from the files found on disk, whatever was indexed before. -/
theorem C13_pass_equals_fresh_index (he : EnvOK env) (hsl : env.LowerSlash) (hok : HistOK env h)
    (hs : run env root h = some s) (files : List Doc)
    (hf : ∀ idx : List Doc, idx.Sublist files → HistOK env (h ++ idx.map .index))
    (hfresh : HistOK env (files.map .index)) (hnd : (files.map Doc.uri).Nodup)
    (hfile : ∀ u d, latest h u = some d → b!"file://" <+: u)
    (hhash : ∀ d1 d2, (d1 ∈ docs h ∨ d1 ∈ files) → d2 ∈ files → d1.uri = d2.uri → d1.hash = d2.hash → d1 = d2) :
    ∃ s' t, pass env s files = some s' ∧ run env root (files.map .index) = some t ∧
      ∀ y : Sym, y.NameOK → (Finds env s' y ↔ Finds env t y) := by
  obtain ⟨s', h', p1, p2, p3, p4, p5, p6⟩ := C13_pass he hok hs files hf
  obtain ⟨t, t1, -⟩ := run_inv (root := root) he hfresh
  obtain ⟨_, -, inv', -, -⟩ := run_inv (root := root) he p3
  refine ⟨s', t, p1, t1, fun y hy => ?_⟩
  rw [C08_index_is_latest_partial he hsl p3 p2 y hy, C08_index_is_latest_partial he hsl hfresh t1 y hy]
  have hlat : ∀ (fs : List Doc) (L : Bytes → Option Doc), (fs.map Doc.uri).Nodup →
      (∀ u, u ∉ fs.map Doc.uri → (fs.map HOp.index).foldl latestStep L u = L u) ∧
      (∀ d ∈ fs, (fs.map HOp.index).foldl latestStep L d.uri = some d) := by
    intro fs
    induction fs with
    | nil => intro L _; exact ⟨fun _ _ => rfl, by simp⟩
    | cons a fs ih =>
      intro L hn
      rw [List.map_cons] at hn
      obtain ⟨n1, n2⟩ := List.nodup_cons.mp hn
      obtain ⟨i1, i2⟩ := ih (latestStep L (.index a)) n2
      refine ⟨fun u hu => ?_, fun d hd => ?_⟩
      · rw [List.map_cons, List.mem_cons, not_or] at hu
        rw [List.map_cons, List.foldl_cons, i1 u hu.2]
        simp [latestStep, hu.1]
      · rw [List.map_cons, List.foldl_cons]
        rcases List.mem_cons.mp hd with rfl | hd
        · rw [i1 _ n1]; simp [latestStep]
        · exact i2 d hd
  have : latest h' = latest (files.map .index) := by
    funext u
    obtain ⟨l1, l2⟩ := hlat files (fun _ => none) hnd
    by_cases hu : u ∈ files.map Doc.uri
    · obtain ⟨d0, d, a, b, c, e⟩ := p4 u hu
      obtain ⟨m0, e0⟩ := inv'.live u d0 a
      rw [hhash d0 d (p6 d0 m0) b (e0.trans c.symm) e] at a
      rw [a, ← c]
      exact (l2 d b).symm
    · have h2 : latest (files.map .index) u = none := l1 u hu
      rw [p5 u hu, h2]
      split
      · rfl
      · cases hl : latest h u with
        | none => rfl
        | some d => exact absurd (hfile u d hl) ‹_›
  rw [this]

/-- A pass that meets the hypotheses of C13: after the demo history (`a.php`, `b.php` indexed) only
`a.php` is found on disk, with its old content; `b.php` is removed. -/
example : (∀ idx : List Doc, idx.Sublist [Demo.a1] → HistOK Demo.env (Demo.hist ++ idx.map .index)) ∧
    Demo.uB ∉ [Demo.a1].map Doc.uri ∧ b!"file://" <+: Demo.uB ∧ (latest Demo.hist Demo.uB).isSome = true := by
  refine ⟨?_, by decide, by decide, by decide +kernel⟩
  intro idx hi
  have hsub : ∀ d ∈ docs (Demo.hist ++ idx.map .index), d ∈ docs Demo.hist := by
    intro d hd
    rw [docs_append] at hd
    rcases List.mem_append.mp hd with hd | hd
    · exact hd
    · have : d = Demo.a1 := by
        obtain ⟨o, ho, e⟩ := List.mem_filterMap.mp hd
        obtain ⟨x, hx, rfl⟩ := List.mem_map.mp ho
        cases e
        simpa using hi.subset hx
      rw [this, Demo.docs_hist]; simp
  refine ⟨fun d hd => Demo.hist_ok.docs d (hsub d hd), fun d1 h1 d2 h2 => Demo.hist_ok.consts d1 (hsub d1 h1) d2 (hsub d2 h2),
    Keeps.append.mpr ⟨Demo.hist_ok.crashes, ?_⟩⟩
  generalize List.foldl latestStep (fun _ => none) Demo.hist = L
  clear hi hsub
  induction idx generalizing L with
  | nil => trivial
  | cons d idx ih => exact ⟨trivial, ih _⟩

/-! ## C14 -/

/-- C14 as far as it holds: whatever happens after `h`, if the process dies at any point while `d` is
being indexed and `d` is indexed again after the restart, every lookup answers as if there had been no
crash. Missing (it is part of `HistOK`, as `Keeps`): if the crash happens between the first and the last
durable write, `d` must still declare everything that the indexed version of the file declared
(`C14_false_stale_symbols`). -/
theorem C14_reindex_after_crash_partial (he : EnvOK env) (hsl : env.LowerSlash) (d : Doc) (k : Nat)
    {s1 s2 : Store} (hok1 : HistOK env (h ++ [.crash d k, .index d])) (hok2 : HistOK env (h ++ [.index d]))
    (h1 : run env root (h ++ [.crash d k, .index d]) = some s1)
    (h2 : run env root (h ++ [.index d]) = some s2) (y : Sym) (hy : y.NameOK) :
    Finds env s1 y ↔ Finds env s2 y := by
  rw [C08_index_is_latest_partial he hsl hok1 h1 y hy, C08_index_is_latest_partial he hsl hok2 h2 y hy]
  have : latest (h ++ [.crash d k, .index d]) = latest (h ++ [.index d]) := by
    funext u
    simp only [latest_append, List.foldl_cons, List.foldl_nil, latestStep]
    by_cases hu : u = d.uri <;> simp [hu]
  rw [this]

/-- C14, references: the same for reference searches. -/
theorem C14_references_after_crash_partial (he : EnvOK env) (hf : env.FilterOK) (d : Doc) (k : Nat)
    {s1 : Store} (hok1 : HistOK env (h ++ [.crash d k, .index d]))
    (hw : RefsOK root (h ++ [.crash d k, .index d]))
    (h1 : run env root (h ++ [.crash d k, .index d]) = some s1) (ref : Bytes) :
    AnswersUses (latest (h ++ [.index d])) ref (s1.getReferences env ref) := by
  have : latest (h ++ [.crash d k, .index d]) = latest (h ++ [.index d]) := by
    funext u
    simp only [latest_append, List.foldl_cons, List.foldl_nil, latestStep]
    by_cases hu : u = d.uri <;> simp [hu]
  rw [← this]
  exact C18_references_exact he hf hok1 hw h1 ref

/-- `Finds` looks at the main store only. -/
theorem finds_db {s t : Store} (e : s.db = t.db) (y : Sym) : Finds env s y ↔ Finds env t y := by
  cases y <;> simp only [Finds, Store.queryClasses, Store.getClasses, Store.getInterfaces, Store.getTraits,
    Store.getFunctions, Store.getConsts, Store.getDefines, Store.getMethods, Store.getClassConsts,
    Store.getProperties, Store.getGlobalVariables, e]

/-- C14: right after a crash at any point (no assumption on the versions), every lookup answers either
as before the indexing or as after it, never a mixture. -/
theorem C14_crash_is_atomic (d : Doc) (k : Nat) (t : Store) (hc : s.crashDuring env d k = some t) :
    (∀ y, Finds env t y ↔ Finds env s y) ∨ ∃ s', s.sync env d = some s' ∧ ∀ y, Finds env t y ↔ Finds env s' y := by
  unfold Store.crashDuring at hc
  cases hs : s.sync env d with
  | none => rw [hs] at hc; cases hc
  | some s' =>
    rw [hs, Option.bind_eq_bind, Option.bind_some] at hc
    have hdb : t.db = if k < 4 then s.db else s'.db := by
      unfold Store.restart at hc
      simp only at hc
      split at hc
      · cases hl : loadRefs s.db with
        | none => rw [hl] at hc; cases hc
        | some r => rw [hl] at hc; cases hc; simp [*]
      · cases hl : loadRefs s'.db with
        | none => rw [hl] at hc; cases hc
        | some r => rw [hl] at hc; cases hc; simp [*]
    by_cases hk : k < 4
    · rw [if_pos hk] at hdb
      exact .inl (finds_db hdb)
    · rw [if_neg hk] at hdb
      exact .inr ⟨s', rfl, finds_db hdb⟩

/-- The hypotheses of C14 are met by a crash at any point of the indexing of a new file. -/
example (k : Nat) : HistOK Demo.env ([.index Demo.a1] ++ [.crash Demo.b1 k, .index Demo.b1]) where
  docs := by
    intro d hd
    have : docs ([.index Demo.a1] ++ [.crash Demo.b1 k, .index Demo.b1]) = [Demo.a1, Demo.b1, Demo.b1] := rfl
    rw [this] at hd
    simp only [List.mem_cons, List.not_mem_nil, or_false] at hd
    rcases hd with rfl | rfl | rfl
    · exact Demo.a1_ok
    · exact Demo.b1_ok
    · exact Demo.b1_ok
  consts := by
    have : docs ([.index Demo.a1] ++ [.crash Demo.b1 k, .index Demo.b1]) = [Demo.a1, Demo.b1, Demo.b1] := rfl
    intro d1 h1 d2 h2
    rw [this] at h1 h2
    refine Demo.hist_ok.consts d1 ?_ d2 ?_ <;> rw [Demo.docs_hist] <;> simp at h1 h2 ⊢ <;> tauto
  crashes := by
    refine ⟨trivial, fun _ _ d0 h0 => ?_, trivial, trivial⟩
    have : latestStep (fun _ => none) (HOp.index Demo.a1) Demo.b1.uri = none := by decide +kernel
    rw [this] at h0
    cases h0

/-- C14 is false in general: version 1 of a file declares `f` and `g`, version 2 only `g`. The process
dies while version 2 is being indexed, after the new symbol list was written but before the main batch
was committed. However often version 2 is indexed afterwards, `f` stays in the index. -/
theorem C14_false_stale_symbols :
    ∃ (d1 d2 : Doc) (x : Sym), (∀ d ∈ [d1, d2], DocOK Demo.env d) ∧ d1.uri = d2.uri ∧ x ∉ d2.symbols ∧
      (∃ s, run Demo.env Demo.root [.index d1, .index d2] = some s ∧ ¬ Finds Demo.env s x.stored) ∧
      (∃ s, run Demo.env Demo.root [.index d1, .crash d2 1, .index d2, .index d2] = some s ∧
        Finds Demo.env s x.stored) := by
  let d1 : Doc := ⟨Demo.uA, b!"1", [Demo.fn Demo.uA b!"f" 1, Demo.fn Demo.uA b!"g" 2], [], []⟩
  let d2 : Doc := ⟨Demo.uA, b!"2", [Demo.fn Demo.uA b!"g" 1], [], []⟩
  let f : Function := ⟨Demo.loc Demo.uA 1, Location.zero, Demo.ty b!"f", [], [Demo.ty b!"int"], b!"doc", none⟩
  refine ⟨d1, d2, Demo.fn Demo.uA b!"f" 1, ?_, rfl, by decide +kernel, ?_, ?_⟩
  · intro d hd
    simp only [List.mem_cons, List.not_mem_nil, or_false] at hd
    rcases hd with rfl | rfl
    · refine Demo.doc_ok Demo.uA_ok (by simp [Str, Demo.uA]) _ _ (by decide) ?_
      intro x hx
      rcases List.mem_cons.mp hx with rfl | hx
      · exact Demo.fn_ok _ (by decide) (by decide) (by decide)
      · rw [List.mem_singleton.mp hx]
        exact Demo.fn_ok _ (by decide) (by decide) (by decide)
    · refine Demo.doc_ok Demo.uA_ok (by simp [Str, Demo.uA]) _ _ (by decide) ?_
      intro x hx
      rw [List.mem_singleton.mp hx]
      exact Demo.fn_ok _ (by decide) (by decide) (by decide)
  · obtain ⟨s, h1, h2⟩ := Demo.observe (env := Demo.env) (root := Demo.root) (h := [.index d1, .index d2])
      (fun s => s.getFunctions b!"\\f") (some []) (by decide +kernel)
    refine ⟨s, h1, ?_⟩
    rintro ⟨l, hl, hm⟩
    have := hl.symm.trans h2
    rw [Option.some.inj this] at hm
    simp at hm
  · obtain ⟨s, h1, h2⟩ := Demo.observe (env := Demo.env) (root := Demo.root)
      (h := [.index d1, .crash d2 1, .index d2, .index d2])
      (fun s => s.getFunctions b!"\\f") (some [f]) (by decide +kernel)
    exact ⟨s, h1, [f], h2, by simp [f]⟩

end Verif.Store
