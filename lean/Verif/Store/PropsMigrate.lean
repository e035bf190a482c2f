import Verif.Store.PropsNamespaces
import Verif.Store.PropsHistory
import Mathlib.Data.List.Induction

/-!
Property C60: a store written by an older release is started afresh, once; any other store is kept.
-/

namespace Verif.Store

open Verif.Encoding Verif.Storage

variable {env : Env} {root : Bytes} {h : List HOp} {s : Store} {older : Bytes → Option Bool}

/-! ### indexing does not touch the recorded version -/

theorem version_effect_none {ops : List BOp} (ho : ∀ o ∈ ops, ∃ c r, opKey o = entryKey c r) :
    effect ops versionKey = none :=
  effect_none fun o hm e => by
    obtain ⟨c, r, hr⟩ := ho o hm
    exact versionKey_ne c r (hr.symm.trans e)

theorem sync_version {D L} {s' : Store} {d : Doc} (inv : Inv env D L s) (hs : s.sync env d = some s') :
    s'.version = s.version := by
  obtain ⟨old, hE3, hE2, hE1⟩ := inv.greb d.uri
  simp only [Store.sync, hE3, Option.bind_eq_bind, Option.bind_some, Option.pure_def,
    Option.some.injEq] at hs
  subst hs
  show ((s.db.writeBatch [] _ true).get versionKey).getD _ = _
  rw [LevelDB.get_batch, version_effect_none]
  · rfl
  · intro o hm
    simp only [syncOps, List.mem_append, List.mem_map, List.mem_singleton] at hm
    rcases hm with (((hm | ⟨x, -, rfl⟩) | hm) | ⟨x, hm, rfl⟩) | rfl
    · obtain ⟨r, hr⟩ := refDeleteOps_keys o hm
      exact ⟨_, r, hr⟩
    · exact ⟨x.coll, x.key env, rfl⟩
    · obtain ⟨r, hr⟩ := refIndexOps_keys o hm
      exact ⟨_, r, hr⟩
    · obtain ⟨c, -, r, hr⟩ := old_keys hE1 x (mem_remaining.mp hm).1
      exact ⟨c, r, hr⟩
    · exact ⟨_, _, rfl⟩

theorem delete_version {D L} {s' : Store} {u : Bytes} (inv : Inv env D L s) (hs : s.deleteDocument u = some s') :
    s'.version = s.version := by
  obtain ⟨old, hE3, hE2, hE1⟩ := inv.greb u
  simp only [Store.deleteDocument, hE3, completionDeletor_nil inv, Option.bind_eq_bind, Option.bind_some,
    Option.pure_def, Option.some.injEq] at hs
  subst hs
  show ((s.db.writeBatch [] _ true).get versionKey).getD _ = _
  rw [LevelDB.get_batch, version_effect_none]
  · rfl
  · intro o hm
    simp only [List.nil_append, List.mem_append, List.mem_map, List.mem_singleton] at hm
    rcases hm with (⟨x, hm, rfl⟩ | hm) | rfl
    · obtain ⟨c, -, r, hr⟩ := old_keys hE1 x hm
      exact ⟨c, r, hr⟩
    · obtain ⟨r, hr⟩ := refDeleteOps_keys o hm
      exact ⟨_, r, hr⟩
    · exact ⟨_, _, rfl⟩

theorem restart_version {s' : Store} (hs : s.restart = some s') : s'.version = s.version := by
  unfold Store.restart at hs
  cases hl : loadRefs s.db with
  | none => rw [hl] at hs; cases hs
  | some r => rw [hl] at hs; cases hs; rfl

/-- The version recorded by the last upgrade of a history; `v0.0.0` if there was none. -/
def recorded (h : List HOp) : Bytes :=
  h.foldl (fun v o => match o with | .upgrade w => w | _ => v) b!"v0.0.0"

theorem recorded_append (h : List HOp) (o : HOp) :
    recorded (h ++ [o]) = match o with | .upgrade w => w | _ => recorded h := by
  simp only [recorded, List.foldl_append, List.foldl_cons, List.foldl_nil]

theorem histOK_init {o : HOp} (hok : HistOK env (h ++ [o])) : HistOK env h := by
  have hd : docs (h ++ [o]) = docs h ++ docs [o] := by simp [docs, List.filterMap_append]
  have hm : ∀ d ∈ docs h, d ∈ docs (h ++ [o]) := fun d hx => by rw [hd]; exact List.mem_append_left _ hx
  exact ⟨fun d hx => hok.docs d (hm d hx), fun d1 m1 d2 m2 => hok.consts d1 (hm d1 m1) d2 (hm d2 m2),
    (Keeps.append.mp hok.crashes).1⟩

theorem run_append_one (h : List HOp) (o : HOp) :
    run env root (h ++ [o]) = (run env root h).bind fun s => step env s o := by
  simp only [run, runFrom, List.foldl_append, List.foldl_cons, List.foldl_nil]

theorem run_version (he : EnvOK env) : ∀ (h : List HOp), HistOK env h → ∀ s, run env root h = some s →
    s.version = recorded h := by
  intro h
  induction h using List.reverseRecOn with
  | nil => intro _ s hs; cases hs; rfl
  | append_singleton h o ih =>
    intro hok s hs
    obtain ⟨t, ht, inv, rb, -⟩ := run_inv (root := root) he (histOK_init hok)
    rw [run_append_one, ht, Option.bind_some] at hs
    have hv := ih (histOK_init hok) t ht
    rw [recorded_append]
    cases o with
    | index d => exact (sync_version inv hs).trans hv
    | delete u => exact (delete_version inv hs).trans hv
    | restart => exact (restart_version hs).trans hv
    | upgrade v =>
      cases hs
      show ((t.clear.putVersion v).db.get versionKey).getD _ = _
      rw [upgrade_get, if_pos rfl]
      rfl
    | crash d k =>
      simp only [step, Store.crashDuring] at hs
      cases h1 : t.sync env d with
      | none => rw [h1] at hs; cases hs
      | some t' =>
        rw [h1] at hs
        refine (restart_version hs).trans ?_
        by_cases hk : k < 4
        · simp only [Store.version, if_pos hk]; exact hv
        · simp only [Store.version, if_neg hk]; exact (sync_version inv h1).trans hv

/-! ## C60 -/

/-- C60: the release that opens a store whose recorded version is older than `v0.0.13` (or that has
none, as a brand-new store) empties it: nothing can be looked up by name, no uses are reported, every
file counts as new, and the version of this release is recorded. What is left behaves, for all that is
said about histories elsewhere, as the same history followed by an upgrade. -/
theorem C60_old_store_emptied (he : EnvOK env) (hsl : env.LowerSlash) (hok : HistOK env h)
    (hs : run env root h = some s) (v : Bytes) (hold : older s.version = some true) :
    run env root (h ++ [.upgrade v]) = some (s.migrate older v) ∧
    (s.migrate older v).version = v ∧
    (∀ y : Sym, y.NameOK → ¬ Finds env (s.migrate older v) y) ∧
    (∀ ref, (s.migrate older v).getReferences env ref = some []) ∧
    ∀ d : Doc, DocOK env d → HistOK env (h ++ [.upgrade v, .index d]) →
      ∃ s', (s.migrate older v).compareAndIndex env d = some (s', true) := by
  have hm : s.migrate older v = s.clear.putVersion v := by unfold Store.migrate; rw [hold]
  have hrun : run env root (h ++ [.upgrade v]) = some (s.migrate older v) := by
    rw [run_append_one, hs, hm]; rfl
  have hd : docs (h ++ [.upgrade v]) = docs h := by simp [docs, List.filterMap_append]
  have hok' : HistOK env (h ++ [.upgrade v]) := ⟨by rw [hd]; exact hok.docs, by rw [hd]; exact hok.consts,
    Keeps.append.mpr ⟨hok.crashes, trivial, trivial⟩⟩
  have hl : latest (h ++ [.upgrade v]) = fun _ => none := by
    simp only [latest, List.foldl_append, List.foldl_cons, List.foldl_nil, latestStep]
  refine ⟨hrun, ?_, ?_, ?_, ?_⟩
  · rw [hm]
    show ((s.clear.putVersion v).db.get versionKey).getD _ = _
    rw [upgrade_get, if_pos rfl]
    rfl
  · intro y hy hf
    obtain ⟨x, ⟨u, d, -, -, h1, -⟩, -⟩ := (C08_index_is_latest_partial he hsl hok' hrun y hy).mp hf
    rw [hl] at h1
    cases h1
  · intro ref
    rw [hm]
    unfold Store.getReferences
    have hz : ∀ uri, refSearchEntry (s.clear.putVersion v) uri ref = some [] := by
      intro uri
      unfold refSearchEntry
      rw [refKey_eq, upgrade_get_entry]
    have : ∀ (l : RefMap), l.foldl (fun acc e => acc.bind fun rs =>
        if e.2.lookup env ref then
          let uri := uriFromCanonical (s.clear.putVersion v).uri e.1
          (refSearchEntry (s.clear.putVersion v) uri ref).map fun xs => rs ++ xs.map fun r => (uri, r)
        else some rs) (some ([] : List (Bytes × Range))) = some [] := by
      intro l
      induction l with
      | nil => rfl
      | cons e l ih =>
        rw [List.foldl_cons]
        rw [show ((some ([] : List (Bytes × Range))).bind fun rs =>
          if e.2.lookup env ref then
            let uri := uriFromCanonical (s.clear.putVersion v).uri e.1
            (refSearchEntry (s.clear.putVersion v) uri ref).map fun xs => rs ++ xs.map fun r => (uri, r)
          else some rs) = some [] by
            simp only [Option.bind_some, hz, Option.map_some, List.map_nil, List.append_nil, ite_self]]
        exact ih
    exact this _
  · intro d hdo hokd
    obtain ⟨s', h1, -⟩ := C12_changed_is_reindexed he hok' hrun d (by simpa using hokd)
      (fun d0 h0 => by rw [hl] at h0; cases h0)
    exact ⟨s', h1⟩

/-- C60: a store whose recorded version is not older is left exactly as it is. -/
theorem C60_current_store_kept (v : Bytes) (hnew : older s.version ≠ some true) : s.migrate older v = s := by
  unfold Store.migrate
  cases ho : older s.version with
  | none => rfl
  | some b =>
    cases b with
    | false => rfl
    | true => exact absurd ho hnew

/-- C60: a store is emptied once per release: whatever is indexed, deleted, restarted or interrupted
after an upgrade to a version that is not itself older, opening the store again changes nothing. -/
theorem C60_emptied_once (he : EnvOK env) (h' : List HOp) (v w : Bytes) (hv : older v ≠ some true)
    (hno : ∀ o ∈ h', ∀ x, o ≠ .upgrade x) (hok : HistOK env (h ++ .upgrade v :: h'))
    (hs : run env root (h ++ .upgrade v :: h') = some s) : s.version = v ∧ s.migrate older w = s := by
  have hr : s.version = v := by
    rw [run_version he _ hok s hs]
    unfold recorded
    rw [List.foldl_append, List.foldl_cons]
    generalize List.foldl _ _ h = z
    clear hs hok
    show List.foldl _ v h' = v
    induction h' with
    | nil => rfl
    | cons o os ih =>
      rw [List.foldl_cons]
      have := ih fun o ho => hno o (by simp [ho])
      cases o with
      | upgrade x => exact absurd rfl (hno (.upgrade x) (by simp) x)
      | _ => exact this
  exact ⟨hr, C60_current_store_kept w (by rw [hr]; exact hv)⟩

/-- The version comparison used in the examples. -/
def Demo.olderThan13 (v : Bytes) : Option Bool :=
  if v = b!"v0.0.0" ∨ v = b!"v0.0.12" then some true else if v = b!"v0.0.16" then some false else none

example : HistOK Demo.env Demo.hist ∧ (∃ s, run Demo.env Demo.root Demo.hist = some s) ∧
    recorded Demo.hist = b!"v0.0.16" ∧ Demo.olderThan13 (recorded Demo.hist) = some false ∧
    Demo.olderThan13 (recorded []) = some true ∧
    (latest (Demo.hist ++ [.upgrade b!"v0.0.17"]) Demo.uA = none) :=
  ⟨Demo.hist_ok, C08_never_fails Demo.env_ok Demo.hist_ok _, by decide +kernel, by decide +kernel,
    by decide +kernel, by decide +kernel⟩

/-- C60 is false as "the index starts afresh": the completion index is not cleared, so a namespace of a
file that was indexed by the older release and is gone is still offered after the upgrade. -/
theorem C60_false_namespaces :
    ∃ s, run Demo.env Demo.root [.upgrade b!"v0.0.12", .index Demo.a1] = some s ∧
      Demo.olderThan13 s.version = some true ∧
      ∃ results b, (s.migrate Demo.olderThan13 b!"v0.0.16").searchNamespaces Demo.env b!"N" = some (results, b) ∧
        b!"\\N" ∈ results ∧
        latest [.upgrade b!"v0.0.12", .index Demo.a1, .upgrade b!"v0.0.16"] = fun _ => none := by
  obtain ⟨s, h1, h2⟩ := Demo.observe (env := Demo.env) (root := Demo.root)
    (h := [.upgrade b!"v0.0.12", .index Demo.a1])
    (fun s => (Demo.olderThan13 s.version, (s.migrate Demo.olderThan13 b!"v0.0.16").searchNamespaces Demo.env b!"N"))
    (some true, some ([b!"\\N"], true)) (by decide +kernel)
  obtain ⟨h2, h3⟩ := Prod.mk.inj h2
  exact ⟨s, h1, h2, _, _, h3, by decide, rfl⟩

end Verif.Store
