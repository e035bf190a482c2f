import Verif.Store.Open
import Verif.Store.PropsMigrate

/-! Property C129: what the index describes when a folder has been opened. -/

namespace Verif.Store

open Verif.Encoding Verif.Storage

variable {env : Env} {root : Bytes} {h : List HOp} {s : Store}

/-- Not a crash. -/
def HOp.Calm : HOp → Prop
  | .crash _ _ => False
  | _ => True

theorem keeps_calm {ops : List HOp} (hc : ∀ o ∈ ops, o.Calm) (L : Bytes → Option Doc) : Keeps env L ops := by
  induction ops generalizing L with
  | nil => trivial
  | cons o ops ih =>
    refine ⟨?_, ih (fun o ho => hc o (by simp [ho])) _⟩
    have := hc o (by simp)
    cases o <;> first | trivial | exact this.elim

theorem docs_indexes (ds : List Doc) : docs (ds.map .index) = ds := by
  induction ds with
  | nil => rfl
  | cons d ds ih => exact congrArg (d :: ·) ih

/-- Conditions on a history are kept when calm operations are added whose files are known to be fine. -/
theorem histOK_calm {all : List Doc} {ops : List HOp} (hok : HistOK env (h ++ all.map .index)) (hc : ∀ o ∈ ops, o.Calm)
    (hd : ∀ d ∈ docs ops, d ∈ docs h ∨ d ∈ all) : HistOK env (h ++ ops) := by
  have hsub : ∀ d ∈ docs (h ++ ops), d ∈ docs (h ++ all.map .index) := by
    intro d hm
    rw [docs_append, List.mem_append] at hm
    rw [docs_append, docs_indexes, List.mem_append]
    rcases hm with hm | hm
    · exact .inl hm
    · exact hd d hm
  exact ⟨fun d hm => hok.docs d (hsub d hm), fun d1 m1 d2 m2 => hok.consts d1 (hsub d1 m1) d2 (hsub d2 m2),
    Keeps.append.mpr ⟨(Keeps.append.mp hok.crashes).1, keeps_calm hc _⟩⟩

theorem calm_indexes (ds : List Doc) : ∀ o ∈ ds.map HOp.index, o.Calm := by
  intro o ho
  obtain ⟨d, -, rfl⟩ := List.mem_map.mp ho
  trivial

/-- Loading bundled files. -/
theorem stubs_run (he : EnvOK env) : ∀ (todo : List Doc) (h : List HOp) (s : Store),
    HistOK env (h ++ todo.map .index) → run env root h = some s → (todo.map Doc.uri).Nodup →
    (∀ d1 d2, d1 ∈ docs h → d2 ∈ todo → d1.uri = d2.uri → d1.hash = d2.hash → d1 = d2) →
    ∃ (s' : Store) (idx : List Doc), s.loadStubs env todo = some s' ∧ run env root (h ++ idx.map .index) = some s' ∧
      (∀ d ∈ idx, d ∈ todo) ∧ (∀ d ∈ todo, latest (h ++ idx.map .index) d.uri = some d) ∧
      ∀ u, u ∉ todo.map Doc.uri → latest (h ++ idx.map .index) u = latest h u := by
  intro todo
  induction todo with
  | nil => intro h s _ hs _ _; exact ⟨s, [], rfl, by simpa using hs, by simp, by simp, by simp⟩
  | cons d todo ih =>
    intro h s hok hs hn hh
    obtain ⟨n1, n2⟩ := List.nodup_cons.mp (by simpa using hn : (d.uri :: todo.map Doc.uri).Nodup)
    have hok0 : HistOK env h := by simpa using histOK_calm (ops := []) hok (by simp) (by simp [docs])
    have hok1 : HistOK env (h ++ [.index d]) := by
      refine histOK_calm hok (by simp [HOp.Calm]) ?_
      intro x hx
      right
      have : docs [HOp.index d] = [d] := rfl
      rw [this, List.mem_singleton] at hx
      simp [hx]
    obtain ⟨s0, h1, inv, -, -⟩ := run_inv (root := root) he hok0
    rw [hs] at h1
    cases h1
    have hfold : Store.loadStubs env s (d :: todo) = (s.loadStub env d).bind fun t => t.loadStubs env todo := by
      unfold Store.loadStubs
      rw [List.foldl_cons, Option.bind_some]
      cases s.loadStub env d with
      | some t => rfl
      | none =>
        have : ∀ (l : List Doc), l.foldl (fun acc d => acc.bind fun s : Store => s.loadStub env d) none = none := by
          intro l
          induction l with
          | nil => rfl
          | cons _ _ ih => exact ih
        rw [this]; rfl
    rw [hfold]
    by_cases hsame : s.db.get (entryKey cDoc d.uri) = some d.hash
    · -- nothing to do
      have hl : latest h d.uri = some d := by
        have hdoc := inv.doc d.uri
        rw [hsame] at hdoc
        obtain ⟨d0, h0, e0⟩ := Option.map_eq_some_iff.mp hdoc.symm
        obtain ⟨m0, u0⟩ := inv.live _ _ h0
        rw [h0, hh d0 d m0 (by simp) u0 e0]
      obtain ⟨s', idx, a, b, c, e, f⟩ := ih h s
        (histOK_calm hok (calm_indexes _) (fun x hx => .inr (by rw [docs_indexes] at hx; simp [hx]))) hs n2
        (fun d1 d2 m1 m2 => hh d1 d2 m1 (by simp [m2]))
      refine ⟨s', idx, ?_, b, fun x hx => by simp [c x hx], ?_, ?_⟩
      · rw [Store.loadStub, if_pos hsame]; exact a
      · intro x hx
        rcases List.mem_cons.mp hx with rfl | hx
        · rw [f _ n1]; exact hl
        · exact e x hx
      · intro u hu
        exact f u (fun hm => hu (by simp at hm ⊢; exact .inr hm))
    · obtain ⟨t, ht, invt, -, -⟩ := run_inv (root := root) he hok1
      have hsync : s.sync env d = some t := by
        rw [run_append_one, hs] at ht
        exact ht
      have happ : ∀ l : List Doc, h ++ [HOp.index d] ++ l.map .index = h ++ (d :: l).map .index := by simp
      obtain ⟨s', idx, a, b, c, e, f⟩ := ih (h ++ [.index d]) t (by rw [happ]; exact hok) ht n2
        (by
          intro d1 d2 m1 m2 hu hx
          rw [docs_append] at m1
          rcases List.mem_append.mp m1 with m1 | m1
          · exact hh d1 d2 m1 (by simp [m2]) hu hx
          · have : docs [HOp.index d] = [d] := rfl
            rw [this, List.mem_singleton] at m1
            subst m1
            exact absurd (hu ▸ List.mem_map.mpr ⟨d2, m2, rfl⟩) n1)
      rw [happ] at b e f
      have hlat : ∀ u, latest (h ++ [.index d]) u = if u = d.uri then some d else latest h u := by
        intro u; simp [latest, latestStep]
      refine ⟨s', d :: idx, ?_, b, ?_, ?_, ?_⟩
      · rw [Store.loadStub, if_neg hsame, hsync]; exact a
      · intro x hx
        rcases List.mem_cons.mp hx with rfl | hx
        · simp
        · simp [c x hx]
      · intro x hx
        rcases List.mem_cons.mp hx with rfl | hx
        · rw [f _ n1, hlat, if_pos rfl]
        · exact e x hx
      · intro u hu
        rw [List.map_cons, List.mem_cons, not_or] at hu
        rw [f u hu.2, hlat, if_neg hu.1]

/-- A document of the disk, as opposed to one of the bundled files. -/
def OnDisk (u : Bytes) : Prop := b!"file://" <+: u

instance (u : Bytes) : Decidable (OnDisk u) := inferInstanceAs (Decidable (_ <+: _))

/-- C129: whatever happened to the index before, opening the folder succeeds, and afterwards the index is the one of a
history after which
* every bundled file and every file found on the disk has the content it has now,
* no other file of the disk is known,
* documents of other schemes are as before, or gone if the index was of an older release. -/
theorem C129_open (he : EnvOK env) (older : Bytes → Option Bool) (version : Bytes) (stubs files : List Doc)
    (hok : HistOK env (h ++ (stubs ++ files).map .index)) (hs : run env root h = some s)
    (hn1 : (stubs.map Doc.uri).Nodup) (hn2 : (files.map Doc.uri).Nodup)
    (hst : ∀ d ∈ stubs, ¬ OnDisk d.uri) (hf : ∀ d ∈ files, OnDisk d.uri)
    (hhash : ∀ d1 d2, (d1 ∈ docs h ∨ d1 ∈ stubs ∨ d1 ∈ files) → d2 ∈ stubs ++ files → d1.uri = d2.uri →
      d1.hash = d2.hash → d1 = d2) :
    ∃ s' h', openFolder env older version stubs files s = some s' ∧ run env root h' = some s' ∧ HistOK env h' ∧
      (∀ d ∈ stubs ++ files, latest h' d.uri = some d) ∧
      (∀ u, OnDisk u → u ∉ files.map Doc.uri → latest h' u = none) ∧
      (∀ u, ¬ OnDisk u → u ∉ stubs.map Doc.uri →
        latest h' u = if older s.version = some true then none else latest h u) := by
  -- the operations before the bundled files
  obtain ⟨pre, t, hpre, hdocs, hrun, hmig, hlat⟩ : ∃ (pre : List HOp) (t : Store), (∀ o ∈ pre, o.Calm) ∧ docs pre = [] ∧
      run env root (h ++ pre) = some t ∧ s.restart.map (fun r => r.migrate older version) = some t ∧
      ∀ u, latest (h ++ pre) u = if older s.version = some true then none else latest h u := by
    have hokr : HistOK env (h ++ [.restart]) :=
      histOK_calm hok (by simp [HOp.Calm]) (by intro d hd; have : docs [HOp.restart] = [] := rfl; rw [this] at hd; simp at hd)
    obtain ⟨r, hr, -, -, -⟩ := run_inv (root := root) he hokr
    have hres : s.restart = some r := by rw [run_append_one, hs] at hr; exact hr
    have hv := restart_version hres
    cases ho : older s.version with
    | none =>
      refine ⟨[.restart], r, by simp [HOp.Calm], rfl, hr, ?_, ?_⟩
      · rw [hres, Option.map_some]; unfold Store.migrate; rw [hv, ho]
      · intro u; simp [latest, latestStep]
    | some b =>
      cases b with
      | false =>
        refine ⟨[.restart], r, by simp [HOp.Calm], rfl, hr, ?_, ?_⟩
        · rw [hres, Option.map_some]; unfold Store.migrate; rw [hv, ho]
        · intro u; simp [latest, latestStep]
      | true =>
        refine ⟨[.restart, .upgrade version], r.clear.putVersion version, by simp [HOp.Calm], rfl, ?_, ?_, ?_⟩
        · rw [show h ++ [HOp.restart, HOp.upgrade version] = (h ++ [.restart]) ++ [.upgrade version] by simp, run_append_one,
            hr]
          rfl
        · rw [hres, Option.map_some]; unfold Store.migrate; rw [hv, ho]
        · intro u; simp [latest, latestStep]
  have hdp : ∀ d ∈ docs (h ++ pre), d ∈ docs h := by
    intro d hd; rw [docs_append, hdocs, List.append_nil] at hd; exact hd
  -- the bundled files
  obtain ⟨t2, idx, a, b, c, e, f⟩ := stubs_run (root := root) he stubs (h ++ pre) t
    (by
      rw [List.append_assoc]
      refine histOK_calm hok ?_ ?_
      · intro o ho
        rcases List.mem_append.mp ho with ho | ho
        · exact hpre o ho
        · exact calm_indexes _ o ho
      · intro d hd
        rw [docs_append, hdocs, docs_indexes, List.nil_append] at hd
        exact .inr (List.mem_append_left _ hd))
    hrun hn1 (fun d1 d2 m1 m2 => hhash d1 d2 (.inl (hdp d1 m1)) (List.mem_append_left _ m2))
  -- the pass
  have hcalm : ∀ jdx : List Doc, (∀ d ∈ jdx, d ∈ files) → HistOK env (h ++ pre ++ idx.map .index ++ jdx.map .index) := by
    intro jdx hj
    rw [List.append_assoc, List.append_assoc]
    refine histOK_calm hok ?_ ?_
    · intro o ho
      simp only [List.mem_append] at ho
      rcases ho with ho | ho | ho
      exacts [hpre o ho, calm_indexes _ o ho, calm_indexes _ o ho]
    · intro d hd
      rw [docs_append, hdocs, docs_append, docs_indexes, docs_indexes, List.nil_append] at hd
      rcases List.mem_append.mp hd with hd | hd
      · exact .inr (List.mem_append_left _ (c d hd))
      · exact .inr (List.mem_append_right _ (hj d hd))
  obtain ⟨s', h', p1, p2, p3, p4, p5, p6⟩ := C13_pass he (by simpa using hcalm [] (by simp)) b files
    (fun jdx hj => hcalm jdx hj.subset)
  obtain ⟨s1, q1, inv', -, -⟩ := run_inv (root := root) he p3
  refine ⟨s', h', ?_, p2, p3, ?_, ?_, ?_⟩
  · unfold openFolder
    obtain ⟨r, hr, e1⟩ := Option.map_eq_some_iff.mp hmig
    rw [hr, Option.bind_some, e1, a, Option.bind_some, p1]
  · intro d hd
    rcases List.mem_append.mp hd with hd | hd
    · have hu : d.uri ∉ files.map Doc.uri := by
        intro hm
        obtain ⟨x, hx, e1⟩ := List.mem_map.mp hm
        exact hst d hd (e1 ▸ hf x hx)
      rw [p5 _ hu, if_neg (show ¬ b!"file://" <+: d.uri from hst d hd)]
      exact e d hd
    · obtain ⟨d0, d', a1, a2, a3, a4⟩ := p4 d.uri (List.mem_map.mpr ⟨d, hd, rfl⟩)
      have hdd : d' = d := by
        have : ∀ (l : List Doc), (l.map Doc.uri).Nodup → ∀ x ∈ l, ∀ y ∈ l, x.uri = y.uri → x = y := by
          intro l
          induction l with
          | nil => simp
          | cons z l ih =>
            intro hl x hx y hy hxy
            obtain ⟨z1, z2⟩ := List.nodup_cons.mp (by simpa using hl : (z.uri :: l.map Doc.uri).Nodup)
            rcases List.mem_cons.mp hx with hx | hx <;> rcases List.mem_cons.mp hy with hy | hy
            · rw [hx, hy]
            · exact absurd (List.mem_map.mpr ⟨y, hy, by rw [← hxy, hx]⟩) z1
            · exact absurd (List.mem_map.mpr ⟨x, hx, by rw [hxy, hy]⟩) z1
            · exact ih z2 x hx y hy hxy
        exact this files hn2 d' a2 d hd a3
      subst hdd
      obtain ⟨m0, u0⟩ := inv'.live _ _ a1
      have hm : d0 ∈ docs h ∨ d0 ∈ stubs ∨ d0 ∈ files := by
        rcases p6 d0 m0 with m | m
        · rw [docs_append, docs_indexes] at m
          rcases List.mem_append.mp m with m | m
          · exact .inl (hdp d0 m)
          · exact .inr (.inl (c d0 m))
        · exact .inr (.inr m)
      rw [a1, hhash d0 d' hm (List.mem_append_right _ hd) u0 a4]
  · intro u hu hm
    rw [p5 u hm, if_pos (show b!"file://" <+: u from hu)]
  · intro u hu hm
    have hmf : u ∉ files.map Doc.uri := by
      intro hx
      obtain ⟨x, hx, e1⟩ := List.mem_map.mp hx
      exact hu (e1 ▸ hf x hx)
    rw [p5 u hmf, if_neg (show ¬ b!"file://" <+: u from hu), f u hm, hlat]

/-- Indexing files of different names from scratch: each has its content, nothing else is there. -/
theorem latest_indexes {ds : List Doc} (hn : (ds.map Doc.uri).Nodup) :
    (∀ d ∈ ds, latest (ds.map .index) d.uri = some d) ∧ ∀ u, u ∉ ds.map Doc.uri → latest (ds.map .index) u = none := by
  have hlat : ∀ (fs : List Doc) (L : Bytes → Option Doc), (fs.map Doc.uri).Nodup →
      (∀ u, u ∉ fs.map Doc.uri → (fs.map HOp.index).foldl latestStep L u = L u) ∧
      (∀ d ∈ fs, (fs.map HOp.index).foldl latestStep L d.uri = some d) := by
    intro fs
    induction fs with
    | nil => intro L _; exact ⟨fun _ _ => rfl, by simp⟩
    | cons a fs ih =>
      intro L hn
      rw [List.map_cons] at hn
      obtain ⟨n1, n2⟩ := List.nodup_cons.mp hn
      obtain ⟨i1, i2⟩ := ih (latestStep L (.index a)) n2
      refine ⟨fun u hu => ?_, fun d hd => ?_⟩
      · rw [List.map_cons, List.mem_cons, not_or] at hu
        rw [List.map_cons, List.foldl_cons, i1 u hu.2]
        simp [latestStep, hu.1]
      · rw [List.map_cons, List.foldl_cons]
        rcases List.mem_cons.mp hd with rfl | hd
        · rw [i1 _ n1]; simp [latestStep]
        · exact i2 d hd
  obtain ⟨a, b⟩ := hlat ds (fun _ => none) hn
  exact ⟨b, a⟩

/-- C129, what a user sees: if all documents known before that are not files of the disk are still bundled, or the index
was of an older release, then after the folder has been opened every lookup answers as in an index built from scratch
from the bundled files and the files found on the disk, whatever was indexed before. -/
theorem C129_equals_fresh_index (he : EnvOK env) (hsl : env.LowerSlash) (older : Bytes → Option Bool) (version : Bytes)
    (stubs files : List Doc) (hok : HistOK env (h ++ (stubs ++ files).map .index)) (hs : run env root h = some s)
    (hn1 : (stubs.map Doc.uri).Nodup) (hn2 : (files.map Doc.uri).Nodup)
    (hst : ∀ d ∈ stubs, ¬ OnDisk d.uri) (hf : ∀ d ∈ files, OnDisk d.uri)
    (hhash : ∀ d1 d2, (d1 ∈ docs h ∨ d1 ∈ stubs ∨ d1 ∈ files) → d2 ∈ stubs ++ files → d1.uri = d2.uri →
      d1.hash = d2.hash → d1 = d2)
    (hkept : older s.version = some true ∨ ∀ u d, latest h u = some d → ¬ OnDisk u → u ∈ stubs.map Doc.uri) :
    ∃ s' t, openFolder env older version stubs files s = some s' ∧ run env root ((stubs ++ files).map .index) = some t ∧
      ∀ y : Sym, y.NameOK → (Finds env s' y ↔ Finds env t y) := by
  obtain ⟨s', h', a, b, c, d, e, f⟩ := C129_open he older version stubs files hok hs hn1 hn2 hst hf hhash
  have hfresh : HistOK env ((stubs ++ files).map .index) := by
    have hsub : ∀ d ∈ docs ((stubs ++ files).map HOp.index), d ∈ docs (h ++ (stubs ++ files).map .index) := by
      intro d hd; rw [docs_append]; exact List.mem_append_right _ hd
    exact ⟨fun d hm => hok.docs d (hsub d hm), fun d1 m1 d2 m2 => hok.consts d1 (hsub d1 m1) d2 (hsub d2 m2),
      keeps_calm (calm_indexes _) _⟩
  obtain ⟨t, ht, -⟩ := run_inv (root := root) he hfresh
  have hn : ((stubs ++ files).map Doc.uri).Nodup := by
    rw [List.map_append]
    refine List.nodup_append.mpr ⟨hn1, hn2, ?_⟩
    intro x hx y hy hxy
    obtain ⟨d1, m1, rfl⟩ := List.mem_map.mp hx
    obtain ⟨d2, m2, rfl⟩ := List.mem_map.mp hy
    exact hst d1 m1 (hxy ▸ hf d2 m2)
  obtain ⟨l1, l2⟩ := latest_indexes hn
  have hl : latest h' = latest ((stubs ++ files).map .index) := by
    funext u
    by_cases hu : u ∈ (stubs ++ files).map Doc.uri
    · obtain ⟨x, hx, rfl⟩ := List.mem_map.mp hu
      rw [d x hx, l1 x hx]
    · rw [l2 u hu]
      rw [List.map_append, List.mem_append, not_or] at hu
      by_cases hd : OnDisk u
      · exact e u hd hu.2
      · rw [f u hd hu.1]
        split
        · rfl
        · rcases hkept with hk | hk
          · exact absurd hk ‹_›
          · cases hx : latest h u with
            | none => rfl
            | some x => exact absurd (hk u x hx hd) hu.1
  refine ⟨s', t, a, ht, fun y hy => ?_⟩
  rw [C08_index_is_latest_partial he hsl c b y hy, C08_index_is_latest_partial he hsl hfresh ht y hy, hl]

/-- A bundled file of the examples. -/
def Demo.stub (hash : Bytes) (name : Bytes) : Doc :=
  ⟨b!"phpstorm-stubs://x.php", hash, [Demo.fn b!"phpstorm-stubs://x.php" name 1], [], []⟩

theorem Demo.stub_ok (hash : Bytes) {name : Bytes} (h : name.length < 100) (hn : sep ∉ name) :
    DocOK Demo.env (Demo.stub hash name) :=
  Demo.doc_ok (Demo.uri_ok (by decide) 112 (by decide) (by unfold rangeChar; decide)) (by simp [Str]) _ _ (by simp) (by
    intro x hx
    rw [List.mem_singleton.mp hx]
    exact Demo.fn_ok _ (by decide) h hn)

/-- C129, why "if they are still bundled": a file that was bundled with an earlier release of which the index is kept
stays in the index for ever: a function that no file declares any more is still found. -/
theorem C129_needs_bundled :
    ∃ (h : List HOp) (s s' : Store) (y : Sym), HistOK Demo.env h ∧ run Demo.env Demo.root h = some s ∧
      openFolder Demo.env Demo.olderThan13 b!"v0.0.17" [] [] s = some s' ∧ y.NameOK ∧ Finds Demo.env s' y := by
  let f : Function := ⟨Demo.loc b!"phpstorm-stubs://x.php" 1, Location.zero, Demo.ty b!"gone", [],
    [Demo.ty b!"int"], b!"doc", none⟩
  obtain ⟨s, h1, h2⟩ := Demo.observe (env := Demo.env) (root := Demo.root)
    (h := [.upgrade b!"v0.0.16", .index (Demo.stub b!"1" b!"gone")])
    (fun s => (openFolder Demo.env Demo.olderThan13 b!"v0.0.17" [] [] s).map fun s => s.getFunctions b!"\\gone")
    (some (some [f])) (by decide +kernel)
  cases h3 : openFolder Demo.env Demo.olderThan13 b!"v0.0.17" [] [] s with
  | none => rw [h3] at h2; cases h2
  | some s' =>
    rw [h3] at h2
    refine ⟨_, s, s', .fn f, ⟨?_, ?_, by simp [Keeps]⟩, h1, h3, ?_, ⟨[f], Option.some.inj h2, by simp⟩⟩
    · intro d hd
      have : docs [.upgrade b!"v0.0.16", .index (Demo.stub b!"1" b!"gone")] = [Demo.stub b!"1" b!"gone"] := rfl
      rw [this, List.mem_singleton] at hd
      subst hd
      exact Demo.stub_ok _ (by decide) (by decide)
    · intro d1 m1 d2 m2
      have : docs [.upgrade b!"v0.0.16", .index (Demo.stub b!"1" b!"gone")] = [Demo.stub b!"1" b!"gone"] := rfl
      rw [this, List.mem_singleton] at m1 m2
      rw [m1, m2]
      intros; rfl
    · intro n hn
      simp [Sym.names, f, Demo.ty] at hn
      subst hn
      decide

/-- The hypotheses of C129 are met: an index of the release before with an older bundled file, `a.php` and `b.php`; a new
version of the bundled file comes with the program, `a.php` has been edited and `b.php` is gone. -/
example : ∃ (h : List HOp) (stubs files : List Doc),
    HistOK Demo.env (h ++ (stubs ++ files).map .index) ∧ (∃ s, run Demo.env Demo.root h = some s) ∧
    (stubs.map Doc.uri).Nodup ∧ (files.map Doc.uri).Nodup ∧ (∀ d ∈ stubs, ¬ OnDisk d.uri) ∧ (∀ d ∈ files, OnDisk d.uri) ∧
    (∀ d1 d2, (d1 ∈ docs h ∨ d1 ∈ stubs ∨ d1 ∈ files) → d2 ∈ stubs ++ files → d1.uri = d2.uri →
      d1.hash = d2.hash → d1 = d2) ∧
    latest h Demo.uA = some Demo.a1 ∧ Demo.a2 ∈ files ∧ Demo.uB ∉ files.map Doc.uri ∧ latest h Demo.uB = some Demo.b1 ∧
    (∀ u d, latest h u = some d → ¬ OnDisk u → u ∈ stubs.map Doc.uri) := by
  have hd : docs ([.index (Demo.stub b!"1" b!"gone"), .index Demo.a1, .index Demo.b1] ++
      ([Demo.stub b!"2" b!"new"] ++ [Demo.a2]).map .index) =
      [Demo.stub b!"1" b!"gone", Demo.a1, Demo.b1, Demo.stub b!"2" b!"new", Demo.a2] := rfl
  have hok : HistOK Demo.env ([.index (Demo.stub b!"1" b!"gone"), .index Demo.a1, .index Demo.b1] ++
      ([Demo.stub b!"2" b!"new"] ++ [Demo.a2]).map .index) := by
    refine ⟨?_, ?_, by simp [Keeps]⟩
    · rw [hd]
      simp only [List.mem_cons, List.not_mem_nil, or_false]
      rintro d (rfl | rfl | rfl | rfl | rfl)
      exacts [Demo.stub_ok _ (by decide) (by decide), Demo.a1_ok, Demo.b1_ok, Demo.stub_ok _ (by decide) (by decide), Demo.a2_ok]
    · rw [hd]
      intro d1 h1 d2 h2 c1 c2 m1 m2 _ _
      simp only [List.mem_cons, List.not_mem_nil, or_false] at h1 h2
      rcases h1 with rfl | rfl | rfl | rfl | rfl <;> rcases h2 with rfl | rfl | rfl | rfl | rfl <;>
        first
          | rfl
          | (simp [Demo.a1, Demo.a2, Demo.b1, Demo.stub, Demo.cla, Demo.met, Demo.pro, Demo.fn, Demo.glo, Demo.claCon] at m1 m2)
  have hok0 : HistOK Demo.env [.index (Demo.stub b!"1" b!"gone"), .index Demo.a1, .index Demo.b1] := by
    simpa using histOK_calm (ops := []) hok (by simp) (by simp [docs])
  refine ⟨[.index (Demo.stub b!"1" b!"gone"), .index Demo.a1, .index Demo.b1], [Demo.stub b!"2" b!"new"], [Demo.a2], hok,
    C08_never_fails Demo.env_ok hok0 _, by decide, by decide, by decide +kernel, by decide +kernel, ?_, by decide +kernel,
    by simp, by decide +kernel, by decide +kernel, ?_⟩
  · intro d1 d2 m1 m2 hu hx
    have m1 : d1 ∈ docs [HOp.index (Demo.stub b!"1" b!"gone"), .index Demo.a1, .index Demo.b1] ∨
      d1 ∈ [Demo.stub b!"2" b!"new"] ∨ d1 ∈ [Demo.a2] := m1
    simp only [docs, List.filterMap_cons, List.filterMap_nil, List.mem_cons, List.not_mem_nil, or_false, List.cons_append,
      List.nil_append] at m1 m2
    rcases m1 with (rfl | rfl | rfl) | rfl | rfl <;> rcases m2 with rfl | rfl <;>
      first | rfl | exact absurd hu (by decide +kernel) | exact absurd hx (by decide +kernel)
  · intro u d hl hu
    obtain ⟨s, -, inv, -, -⟩ := run_inv (root := Demo.root) Demo.env_ok hok0
    obtain ⟨m, e⟩ := inv.live u d hl
    simp only [docs, List.filterMap_cons, List.filterMap_nil, List.mem_cons, List.not_mem_nil, or_false] at m
    rcases m with rfl | rfl | rfl
    · rw [← e]; decide +kernel
    · exact absurd (e ▸ (by decide +kernel : OnDisk Demo.a1.uri)) hu
    · exact absurd (e ▸ (by decide +kernel : OnDisk Demo.b1.uri)) hu

end Verif.Store
