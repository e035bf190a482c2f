import Verif.Store.PropsLookup

/-!
Properties C18 (find references), C19 (restart), C20 (workspace-relative URIs).
-/

namespace Verif.Store

open Verif.Encoding Verif.Storage

variable {env : Env} {root : Bytes} {h : List HOp} {s : Store}

/-! ## C20 -/

theorem canon_of_inWorkspace {root u : Bytes} (h : InWorkspace root u) :
    u = root ++ canonicaliseURI root u ∧ ¬ root <+: canonicaliseURI root u := by
  obtain ⟨⟨t, rfl⟩, h2⟩ := h
  have : canonicaliseURI root (root ++ t) = t := by
    unfold canonicaliseURI trimPrefix
    rw [if_pos (isPrefixOf_iff.mpr (List.prefix_append _ _)), List.drop_left]
  rw [this]
  rw [List.drop_left] at h2
  exact ⟨rfl, h2⟩

/-- C20 for every file inside the workspace: shortening and expanding its URI gives it back.
Missing: nothing inside the workspace except the odd file whose relative path starts with the
workspace's own URI; see `C20_false_outside` and `C20_false_nested` for what happens otherwise. -/
theorem C20_round_trip_partial {root u : Bytes} (h : InWorkspace root u) :
    uriFromCanonical root (canonicaliseURI root u) = u := by
  obtain ⟨h1, h2⟩ := canon_of_inWorkspace h
  unfold uriFromCanonical
  rw [if_neg (fun hp => h2 (isPrefixOf_iff.mp hp))]
  exact h1.symm

/-- C20: different files of one workspace have different workspace-relative URIs. -/
theorem C20_injective {root u v : Bytes} (hu : InWorkspace root u) (hv : InWorkspace root v)
    (h : canonicaliseURI root u = canonicaliseURI root v) : u = v := by
  rw [← C20_round_trip_partial hu, h, C20_round_trip_partial hv]

example : InWorkspace b!"file:///w" b!"file:///w/src/a.php" := by
  constructor <;> decide

/-- C20 fails for a file outside the workspace: it is given a place inside it. -/
theorem C20_false_outside : ∃ root u, ¬ root <+: u ∧ uriFromCanonical root (canonicaliseURI root u) ≠ u :=
  ⟨b!"file:///w", b!"file:///x/a.php", by decide, by decide⟩

/-- C20 fails for a file whose path relative to the workspace starts with the workspace's URI. -/
theorem C20_false_nested : ∃ root u, root <+: u ∧ uriFromCanonical root (canonicaliseURI root u) ≠ u :=
  ⟨b!"/w", b!"/w/w/a.php", by decide, by decide⟩

/-! ## C18 -/

/-- The reference index holds the references of the live documents. -/
structure RInv (env : Env) (D : List Doc) (L : Bytes → Option Doc) (s : Store) : Prop where
  present : ∀ u d, L u = some d → haveReferences u = true →
    s.db.get (refKey (canonicaliseURI s.uri u)) = some (writeMany writeEntryInfo d.refs) ∧
    ∃ f, s.refs.find (canonicaliseURI s.uri u) = some f ∧
      s.db.get (refFilterKey (canonicaliseURI s.uri u)) = some f.encode ∧
      ∀ r ∈ d.refs, f.lookup env r.1 = true
  only : ∀ c v, sep ∉ c → s.db.get (refKey c) = some v →
    ∃ u d, L u = some d ∧ haveReferences u = true ∧ c = canonicaliseURI s.uri u
  mapped : ∀ c f, s.refs.find c = some f →
    ∃ d ∈ D, haveReferences d.uri = true ∧ c = canonicaliseURI s.uri d.uri

theorem rinv_new (root : Bytes) : RInv env [] (fun _ => none) (Store.new root) :=
  ⟨by simp, by simp [Store.new, LevelDB.new, LevelDB.get, Storage.get], by simp [Store.new, RefMap.find]⟩

theorem refKey_eq (c : Bytes) : refKey c = entryKey cRefInd c := rfl

theorem rinv_sync {D L} {s' : Store} {d : Doc} (inv : Inv env D L s) (rb : RBase s)
    (ri : RInv env D L s) (hf : env.FilterOK) (hd : sep ∉ d.uri) (hD : ∀ d ∈ D, sep ∉ d.uri)
    (hw : ∀ x ∈ D ++ [d], haveReferences x.uri = true → InWorkspace s.uri x.uri)
    (h : s.sync env d = some s') (hr : s'.refs = (refIndexOps env s.uri s.refs d.uri d.refs).1)
    (hu : s'.uri = s.uri) : RInv env (D ++ [d]) (latestStep L (.index d)) s' := by
  have hg := sync_ref_get inv h
  by_cases hh : haveReferences d.uri = true
  · rw [refIndexOps_have hh] at hr
    simp only at hr
    have wd := hw d (by simp) hh
    refine ⟨?_, ?_, ?_⟩
    · intro u d' hL hhu
      simp only [latestStep] at hL
      split at hL
      · rename_i e
        cases hL
        subst e
        rw [hu, hr, refKey_eq, hg, if_pos hh, if_neg (Ne.symm (filter_key_ne (canon_nosep hd))), if_pos rfl]
        refine ⟨rfl, _, by rw [RefMap.find_set, if_pos rfl], ?_, newFilter_lookup hf rb.ok⟩
        unfold refFilterKey
        rw [hg, if_pos hh, if_pos rfl]
      · rename_i e
        obtain ⟨hm, hdu⟩ := inv.live u d' hL
        have hne : canonicaliseURI s.uri u ≠ canonicaliseURI s.uri d.uri := by
          intro e'
          have := hw d' (by simp [hm]) (hdu ▸ hhu)
          rw [hdu] at this
          exact e (C20_injective this wd e')
        have hsu : sep ∉ canonicaliseURI s.uri u := by
          rw [← hdu]; exact canon_nosep (hD d' hm)
        obtain ⟨p1, f, p2, p3, p4⟩ := ri.present u d' hL hhu
        rw [hu, hr, refKey_eq, hg, if_pos hh, if_neg (Ne.symm (filter_key_ne hsu)), if_neg hne]
        refine ⟨p1, f, by rw [RefMap.find_set, if_neg hne, p2], ?_, p4⟩
        unfold refFilterKey
        rw [hg, if_pos hh, if_neg (fun e => hne (filter_key_inj.mp e)),
          if_neg (filter_key_ne (canon_nosep hd))]
        exact p3
    · intro c v hc hv
      rw [hu]
      rw [refKey_eq, hg, if_pos hh, if_neg (Ne.symm (filter_key_ne hc))] at hv
      by_cases hcc : c = canonicaliseURI s.uri d.uri
      · exact ⟨d.uri, d, by simp [latestStep], hh, hcc⟩
      · rw [if_neg hcc] at hv
        obtain ⟨u, d', h1, h2, h3⟩ := ri.only c v hc hv
        refine ⟨u, d', ?_, h2, h3⟩
        simp only [latestStep]
        rw [if_neg, h1]
        rintro rfl
        exact hcc h3
    · intro c f hfind
      rw [hu]
      rw [hr, RefMap.find_set] at hfind
      split at hfind
      · exact ⟨d, by simp, hh, by assumption⟩
      · obtain ⟨d', h1, h2⟩ := ri.mapped c f hfind
        exact ⟨d', by simp [h1], h2⟩
  · have hh' : haveReferences d.uri = false := by simpa using hh
    rw [refIndexOps_not hh'] at hr
    simp only at hr
    have hg' : ∀ r, s'.db.get (entryKey cRefInd r) = s.db.get (entryKey cRefInd r) := fun r => by
      rw [hg, if_neg hh]
    refine ⟨?_, ?_, ?_⟩
    · intro u d' hL hhu
      simp only [latestStep] at hL
      split at hL
      · subst_vars; exact absurd hhu hh
      · obtain ⟨p1, f, p2, p3, p4⟩ := ri.present u d' hL hhu
        rw [hu, hr]
        exact ⟨(hg' _).trans p1, f, p2, (hg' _).trans p3, p4⟩
    · intro c v hc hv
      rw [hu]
      obtain ⟨u, d', h1, h2, h3⟩ := ri.only c v hc ((hg' _).symm.trans hv)
      refine ⟨u, d', ?_, h2, h3⟩
      simp only [latestStep]
      rw [if_neg, h1]
      rintro rfl
      exact hh h2
    · intro c f hfind
      rw [hu]
      rw [hr] at hfind
      obtain ⟨d', h1, h2⟩ := ri.mapped c f hfind
      exact ⟨d', by simp [h1], h2⟩

theorem rinv_delete {D L} {s' : Store} {u : Bytes} (inv : Inv env D L s) (ri : RInv env D L s)
    (hD : ∀ d ∈ D, sep ∉ d.uri) (hw : ∀ x ∈ D, haveReferences x.uri = true → InWorkspace s.uri x.uri)
    (hwu : haveReferences u = true → InWorkspace s.uri u)
    (hu : s'.uri = s.uri) (hr : s'.refs = s.refs)
    (hg : ∀ r, s'.db.get (entryKey cRefInd r) =
      (effect (refDeleteOps s.uri s.refs u) (entryKey cRefInd r)).getD (s.db.get (entryKey cRefInd r))) :
    RInv env D (latestStep L (.delete u)) s' := by
  -- what is deleted is the entry of `u` itself
  have hwu' : ∀ c, c = canonicaliseURI s.uri u → haveReferences u = true →
      (s.refs.find c).isSome = true → sep ∉ c := by
    intro c hc _ hs
    obtain ⟨f, hf⟩ := Option.isSome_iff_exists.mp hs
    obtain ⟨d, h1, -, h3⟩ := ri.mapped c f hf
    rw [h3]; exact canon_nosep (hD d h1)
  refine ⟨?_, ?_, ?_⟩
  · intro v d hL hh
    simp only [latestStep] at hL
    split at hL
    · cases hL
    · rename_i hne
      obtain ⟨hm, hdu⟩ := inv.live v d hL
      have wv := hw d hm (hdu ▸ hh)
      rw [hdu] at wv
      obtain ⟨p1, f, p2, p3, p4⟩ := ri.present v d hL hh
      have hsv : sep ∉ canonicaliseURI s.uri v := by rw [← hdu]; exact canon_nosep (hD d hm)
      rw [hu, hr, refKey_eq, refFilterKey, hg, hg, effect_refDelete, effect_refDelete]
      have n1 : ¬ (haveReferences u = true ∧ (s.refs.find (canonicaliseURI s.uri u)).isSome = true ∧
          (canonicaliseURI s.uri v = canonicaliseURI s.uri u ∨
            canonicaliseURI s.uri v = cFilter ++ sep :: canonicaliseURI s.uri u)) := by
        rintro ⟨a, b, c | c⟩
        · exact hne (C20_injective wv (hwu a) c)
        · exact filter_key_ne hsv c.symm
      have n2 : ¬ (haveReferences u = true ∧ (s.refs.find (canonicaliseURI s.uri u)).isSome = true ∧
          (cFilter ++ sep :: canonicaliseURI s.uri v = canonicaliseURI s.uri u ∨
            cFilter ++ sep :: canonicaliseURI s.uri v = cFilter ++ sep :: canonicaliseURI s.uri u)) := by
        rintro ⟨a, b, c | c⟩
        · exact filter_key_ne (hwu' _ rfl a b) c
        · exact hne (C20_injective wv (hwu a) (filter_key_inj.mp c))
      rw [if_neg n1, if_neg n2]
      exact ⟨p1, f, p2, p3, p4⟩
  · intro c v hc hv
    rw [hu]
    rw [refKey_eq, hg, effect_refDelete] at hv
    split at hv
    · cases hv
    · rename_i hn
      obtain ⟨w, d, h1, h2, h3⟩ := ri.only c v hc hv
      refine ⟨w, d, ?_, h2, h3⟩
      simp only [latestStep]
      rw [if_neg, h1]
      rintro rfl
      obtain ⟨-, f, p2, -⟩ := ri.present w d h1 h2
      exact hn ⟨h2, by rw [p2]; rfl, .inl h3⟩
  · intro c f hf
    rw [hu]
    rw [hr] at hf
    exact ri.mapped c f hf

theorem rinv_restart {D L} (inv : Inv env D L s) (rb : RBase s) (ri : RInv env D L s) :
    ∃ s', s.restart = some s' ∧ Inv env D L s' ∧ RBase s' ∧ RInv env D L s' ∧ s'.uri = s.uri := by
  obtain ⟨s', h1, h2, h3, h4, h5, -, -, h8⟩ := restart_ok inv rb
  refine ⟨s', h1, h2, h3, ⟨?_, ?_, ?_⟩, h4⟩
  · intro u d hL hh
    obtain ⟨p1, f, p2, p3, p4⟩ := ri.present u d hL hh
    rw [h4, h5]
    exact ⟨p1, f, (h8 _ _).mpr ⟨p2, p3⟩, p3, p4⟩
  · intro c v hc hv
    rw [h4]
    rw [h5] at hv
    exact ri.only c v hc hv
  · intro c f hfind
    rw [h4]
    exact ri.mapped c f ((h8 _ _).mp hfind).1

theorem RefsOK.docs {root : Bytes} {h : List HOp} (hw : RefsOK root h) :
    ∀ d ∈ Store.docs h, haveReferences d.uri = true → InWorkspace root d.uri := by
  intro d hd
  obtain ⟨o, ho, e⟩ := List.mem_filterMap.mp hd
  cases o with
  | index d' => cases e; exact hw _ ho
  | delete _ => cases e
  | restart => cases e
  | upgrade _ => cases e
  | crash d' k => cases e; exact hw _ ho

theorem runFrom_rinv (he : EnvOK env) (hf : env.FilterOK) (h : List HOp) :
    ∀ (D : List Doc) (L : Bytes → Option Doc) (s : Store), Inv env D L s → RBase s → RInv env D L s →
      (∀ d ∈ D ++ docs h, DocOK env d) → ConstsOK (D ++ docs h) →
      (∀ d ∈ D, haveReferences d.uri = true → InWorkspace s.uri d.uri) → RefsOK s.uri h → Keeps env L h →
      ∃ s', runFrom env (some s) h = some s' ∧ Inv env (D ++ docs h) (h.foldl latestStep L) s' ∧
        RBase s' ∧ RInv env (D ++ docs h) (h.foldl latestStep L) s' ∧ s'.uri = s.uri := by
  induction h with
  | nil =>
    intro D L s inv rb ri _ _ _ _ _
    exact ⟨s, rfl, by simpa [docs] using inv, rb, by simpa [docs] using ri, rfl⟩
  | cons o h ih =>
    intro D L s inv rb ri hd hc hw hr hkeep
    have hDD : Disjoint env (D ++ docs (o :: h)) := disjoint_of_ok he.lower hd hc
    rw [docs_cons, ← List.append_assoc] at hd hc hDD
    have hDo : Disjoint env (D ++ docs [o]) := fun d1 m1 d2 m2 =>
      hDD d1 (List.mem_append_left _ m1) d2 (List.mem_append_left _ m2)
    have hdo : ∀ d ∈ D ++ docs [o], DocOK env d := fun d m => hd d (List.mem_append_left _ m)
    have hro := hr o (by simp)
    have key : ∃ s', step env s o = some s' ∧ Inv env (D ++ docs [o]) (latestStep L o) s' ∧ RBase s' ∧
        RInv env (D ++ docs [o]) (latestStep L o) s' ∧ s'.uri = s.uri := by
      cases o with
      | index d =>
        have hd1 := hdo d (by simp [docs])
        have hdocs : docs [HOp.index d] = [d] := rfl
        rw [hdocs] at hDo hdo ⊢
        obtain ⟨s', h1, h2, h3, h4⟩ := inv_sync inv hd1 hDo
        refine ⟨s', h1, h2, rbase_sync inv rb he.size hd1.uri.1 h1 h4, ?_, h3⟩
        refine rinv_sync inv rb ri hf hd1.uri.1 (fun x hx => (hdo x (by simp [hx])).uri.1) ?_ h1 h4 h3
        intro x hx
        rcases List.mem_append.mp hx with hx | hx
        · exact hw x hx
        · rw [List.mem_singleton.mp hx]; exact hro
      | delete u =>
        have hdocs : docs [HOp.delete u] = [] := rfl
        rw [hdocs, List.append_nil] at hDo hdo ⊢
        obtain ⟨s', h1, h2, h3, h4, -, -, h5⟩ := inv_delete (u := u) inv hDo
        exact ⟨s', h1, h2, rbase_delete rb h4 h5,
          rinv_delete inv ri (fun x hx => (hdo x hx).uri.1) hw hro h3 h4 h5, h3⟩
      | restart =>
        have hdocs : docs [HOp.restart] = [] := rfl
        rw [hdocs, List.append_nil] at hDo hdo ⊢
        obtain ⟨s', h1, h2, h3, h4, h5⟩ := rinv_restart inv rb ri
        exact ⟨s', h1, h2, h3, h4, h5⟩
      | upgrade v =>
        have hdocs : docs [HOp.upgrade v] = [] := rfl
        rw [hdocs, List.append_nil]
        obtain ⟨h1, h2⟩ := upgrade_inv v inv rb
        refine ⟨_, rfl, h1, h2, ⟨fun u d h => by simp [latestStep] at h, ?_, ri.mapped⟩, rfl⟩
        intro c v' _ hv
        rw [refKey_eq, upgrade_get_entry] at hv
        cases hv
      | crash d k =>
        have hdocs : docs [HOp.crash d k] = [d] := rfl
        rw [hdocs] at hDo hdo ⊢
        have hdd := hdo d (by simp)
        rcases crash_cases he.lower inv rb he.size (fun d hx => hdo d (by simp [hx])) hdd hDo hkeep.head.1 with
          ⟨hlt, t, h1, h2, h3, h4, h5, h6, h7⟩ | ⟨hge, t, h1, h2⟩
        · have rt : RInv env (D ++ [d]) L t := by
            refine ⟨?_, ?_, ?_⟩
            · rw [h4, h5, h6]; exact ri.present
            · rw [h4, h6]; exact ri.only
            · rw [h5, h6]
              intro c f hf
              obtain ⟨d', a, b⟩ := ri.mapped c f hf
              exact ⟨d', by simp [a], b⟩
          obtain ⟨s', g1, g2, g3, g4, g5⟩ := rinv_restart h2 h3 rt
          have hL : latestStep L (.crash d k) = L := by
            funext u; simp only [latestStep]; rw [if_neg]; omega
          rw [hL]
          exact ⟨s', h1.trans g1, g2, g3, g4, g5.trans h6⟩
        · obtain ⟨t', k1, k2, k3, k4⟩ := inv_sync inv hdd hDo
          rw [h1] at k1
          cases k1
          have rt := rinv_sync inv rb ri hf hdd.uri.1 (fun x hx => (hdo x (by simp [hx])).uri.1) (by
            intro x hx
            rcases List.mem_append.mp hx with hx | hx
            · exact hw x hx
            · rw [List.mem_singleton.mp hx]; exact hro) h1 k4 k3
          obtain ⟨s', g1, g2, g3, g4, g5⟩ := rinv_restart k2 (rbase_sync inv rb he.size hdd.uri.1 h1 k4) rt
          have hL : latestStep L (.crash d k) = latestStep L (.index d) := by
            funext u; simp [latestStep, hge]
          rw [hL]
          exact ⟨s', h2.trans g1, g2, g3, g4, g5.trans k3⟩
    obtain ⟨s', h1, h2, h3, h4, h5⟩ := key
    obtain ⟨s'', g1, g2, g3, g4, g5⟩ := ih _ _ s' h2 h3 h4 hd hc (by
        rw [h5]
        intro x hx
        rcases List.mem_append.mp hx with hx | hx
        · exact hw x hx
        · refine RefsOK.docs hr x ?_
          rw [docs_cons]
          exact List.mem_append_left _ hx)
      (fun o' ho' => by rw [h5]; exact hr o' (by simp [ho'])) hkeep.2
    refine ⟨s'', ?_, ?_, g3, ?_, g5.trans h5⟩
    · rw [← g1]
      show List.foldl _ _ _ = List.foldl _ _ _
      rw [List.foldl_cons]
      simp only [Option.bind_some, h1]
    · rw [docs_cons, ← List.append_assoc]; exact g2
    · rw [docs_cons, ← List.append_assoc]; exact g4

theorem run_rinv (he : EnvOK env) (hf : env.FilterOK) (hok : HistOK env h) (hw : RefsOK root h) :
    ∃ s, run env root h = some s ∧ Inv env (docs h) (latest h) s ∧ RBase s ∧
      RInv env (docs h) (latest h) s ∧ s.uri = root := by
  have := runFrom_rinv he hf h [] (fun _ => none) (Store.new root) (inv_new env root) (rbase_new root)
    (rinv_new root) (by simpa using hok.docs) (by simpa using hok.consts) (by simp) hw hok.crashes
  rw [List.nil_append] at this
  exact this

theorem readEntryInfo_reads (i : Bytes × Range) (h : Str i.1) : Reads readEntryInfo (writeEntryInfo i) i := by
  intro rest
  unfold writeEntryInfo readEntryInfo
  rw [List.append_assoc, List.append_assoc]
  simp only [bind, StateT.bind, Option.bind, pure, StateT.pure]
  rw [readString_reads i.1 h]
  simp only
  rw [readPosition_reads]
  simp only
  rw [readPosition_reads]

theorem foldl_refs (f : Bytes × Filter → Option (List (Bytes × Range))) (g : Bytes × Filter → List (Bytes × Range))
    (m : RefMap) (h : ∀ e ∈ m, f e = some (g e)) (acc : List (Bytes × Range)) :
    m.foldl (fun acc e => acc.bind fun rs => (f e).map fun xs => rs ++ xs) (some acc)
      = some (acc ++ m.flatMap g) := by
  induction m generalizing acc with
  | nil => simp
  | cons e m ih =>
    rw [List.foldl_cons, Option.bind_some, h e (by simp), Option.map_some,
      ih (fun e he => h e (by simp [he]))]
    simp

/-- What a reference search answers when the filters of some files (those not in `U`) may be out of step with the
recorded references. -/
theorem answers_loose {L : Bytes → Option Doc} (U : Bytes → Prop) (hn : (s.refs.map (·.1)).Nodup)
    (hmap : ∀ c f, s.refs.find c = some f →
      ∃ u, haveReferences u = true ∧ InWorkspace s.uri u ∧ sep ∉ u ∧ c = canonicaliseURI s.uri u)
    (hheld : ∀ u d, L u = some d → haveReferences u = true →
      s.db.get (refKey (canonicaliseURI s.uri u)) = some (writeMany writeEntryInfo d.refs))
    (honly : ∀ c v, sep ∉ c → s.db.get (refKey c) = some v →
      ∃ u d, L u = some d ∧ haveReferences u = true ∧ c = canonicaliseURI s.uri u)
    (hfil : ∀ u d, U u → L u = some d → haveReferences u = true →
      ∃ f, s.refs.find (canonicaliseURI s.uri u) = some f ∧ ∀ r ∈ d.refs, f.lookup env r.1 = true)
    (hL : ∀ u d, L u = some d → DocOK env d ∧ (haveReferences u = true → InWorkspace s.uri u))
    (ref : Bytes) : ∃ res, s.getReferences env ref = some res ∧ ∀ u,
      (U u → (res.filter fun e => e.1 == u).map (·.2) = uses L u ref) ∧
      ((res.filter fun e => e.1 == u).map (·.2) = uses L u ref ∨ (res.filter fun e => e.1 == u).map (·.2) = []) := by
  -- the answer of one entry
  have entry : ∀ e ∈ s.refs, ∃ u, e.1 = canonicaliseURI s.uri u ∧ InWorkspace s.uri u ∧
      haveReferences u = true ∧ uriFromCanonical s.uri e.1 = u ∧ refSearchEntry s u ref = some (uses L u ref) := by
    intro e he
    obtain ⟨v, h2, wd, h1, h3⟩ := hmap e.1 e.2 (RefMap.find_of_mem hn he)
    refine ⟨v, h3, wd, h2, by rw [h3]; exact C20_round_trip_partial wd, ?_⟩
    unfold refSearchEntry uses
    cases hg : s.db.get (refKey (canonicaliseURI s.uri v)) with
    | none =>
      cases hLv : L v with
      | none => rfl
      | some d' =>
        rw [hheld _ d' hLv h2] at hg
        cases hg
    | some w =>
      obtain ⟨u, d', g1, g2, g3⟩ := honly _ w (canon_nosep h1) hg
      obtain ⟨ok, wu⟩ := hL u d' g1
      have := C20_injective wd (wu g2) g3
      rw [this] at hg ⊢
      rw [hheld u d' g1 g2] at hg
      cases hg
      have hr := readMany_reads' readEntryInfo writeEntryInfo d'.refs ok.refsLen
        (fun x hx => readEntryInfo_reads x (ok.refs x hx)) []
      rw [List.append_nil] at hr
      simp only [g1, if_neg (writeMany_ne_nil writeEntryInfo d'.refs), hr, g2, if_true, Option.map_some]
  let g : Bytes × Filter → List (Bytes × Range) := fun e =>
    if e.2.lookup env ref then
      (uses L (uriFromCanonical s.uri e.1) ref).map fun r => (uriFromCanonical s.uri e.1, r) else []
  have hres : s.getReferences env ref = some (s.refs.flatMap g) := by
    have := foldl_refs (fun e => if e.2.lookup env ref then
        (refSearchEntry s (uriFromCanonical s.uri e.1) ref).map fun xs =>
          xs.map fun r => (uriFromCanonical s.uri e.1, r) else some []) g s.refs (by
      intro e he
      obtain ⟨u, h1, h2, h3, h4, h5⟩ := entry e he
      simp only [g]
      split
      · rw [h4, h5]; rfl
      · rfl) []
    rw [List.nil_append] at this
    rw [← this]
    unfold Store.getReferences
    congr 1
    funext acc e
    cases acc with
    | none => rfl
    | some rs =>
      simp only [Option.bind_some]
      split
      · cases refSearchEntry s (uriFromCanonical s.uri e.1) ref <;> rfl
      · simp
  refine ⟨_, hres, ?_⟩
  intro u
  -- entries of other files contribute nothing to `u`
  have hg : ∀ e ∈ s.refs, ((g e).filter fun x => x.1 == u).map (·.2) =
      if uriFromCanonical s.uri e.1 = u then (if e.2.lookup env ref then uses L u ref else []) else [] := by
    intro e _
    simp only [g]
    by_cases h1 : e.2.lookup env ref = true
    · simp only [h1, if_true]
      by_cases h2 : uriFromCanonical s.uri e.1 = u
      · rw [h2, if_pos rfl, List.filter_eq_self.mpr (by simp), List.map_map]
        exact List.map_id _
      · rw [if_neg h2, List.filter_eq_nil_iff.mpr (by simp [h2])]
        rfl
    · simp [h1]
  have hsum : ∀ m : RefMap, (∀ e ∈ m, e ∈ s.refs) →
      ((m.flatMap g).filter fun x => x.1 == u).map (·.2) =
        m.flatMap fun e => if uriFromCanonical s.uri e.1 = u then
          (if e.2.lookup env ref then uses L u ref else []) else [] := by
    intro m hm
    induction m with
    | nil => rfl
    | cons e m ih =>
      rw [List.flatMap_cons, List.filter_append, List.map_append, hg e (hm e (by simp)),
        ih fun e he => hm e (by simp [he]), List.flatMap_cons]
  rw [hsum _ fun _ h => h]
  by_cases hu : ∃ e ∈ s.refs, uriFromCanonical s.uri e.1 = u
  · obtain ⟨e, he, heu⟩ := hu
    obtain ⟨u', h1, h2, h3, h4, h5⟩ := entry e he
    rw [heu] at h4
    subst h4
    have hone : ∀ m : RefMap, (∀ x ∈ m, x ∈ s.refs) → (m.map (·.1)).Nodup → e ∈ m →
        (m.flatMap fun x => if uriFromCanonical s.uri x.1 = u then
          (if x.2.lookup env ref then uses L u ref else []) else []) =
        if e.2.lookup env ref then uses L u ref else [] := by
      intro m hm hn hem
      have hother : ∀ x ∈ m, x.1 ≠ e.1 → uriFromCanonical s.uri x.1 ≠ u := by
        intro x hx hne hxu
        obtain ⟨w, k1, k2, k3, k4, k5⟩ := entry x (hm x hx)
        rw [hxu] at k4
        subst k4
        exact hne (k1.trans h1.symm)
      induction m with
      | nil => cases hem
      | cons x m ih =>
        rw [List.flatMap_cons]
        have hn' := List.nodup_cons.mp hn
        rcases List.mem_cons.mp hem with rfl | hem
        · rw [if_pos heu]
          have : (m.flatMap fun x => if uriFromCanonical s.uri x.1 = u then
              (if x.2.lookup env ref then uses L u ref else []) else []) = [] := by
            rw [List.flatMap_eq_nil_iff]
            intro x hx
            rw [if_neg]
            refine hother x (by simp [hx]) ?_
            intro e'
            exact hn'.1 (List.mem_map.mpr ⟨x, hx, e'⟩)
          rw [this, List.append_nil]
        · have hx : x.1 ≠ e.1 := by
            intro e'
            exact hn'.1 (List.mem_map.mpr ⟨e, hem, e'.symm⟩)
          rw [if_neg (hother x (by simp) hx), List.nil_append]
          exact ih (fun x hx => hm x (by simp [hx])) hn'.2 hem
            fun x hx => hother x (by simp [hx])
    rw [hone _ (fun _ h => h) hn he]
    split
    · exact ⟨fun _ => rfl, .inl rfl⟩
    · rename_i hl
      refine ⟨fun hU => ?_, .inr rfl⟩
      unfold uses
      cases hLu : L u with
      | none => rfl
      | some d =>
        simp only [h3, if_true]
        obtain ⟨f, p2, p4⟩ := hfil u d hU hLu h3
        have : f = e.2 := by
          have := RefMap.find_of_mem hn he
          rw [h1, p2] at this
          exact Option.some.inj this
        subst this
        rw [List.filter_eq_nil_iff.mpr]
        · rfl
        · intro r hr hrr
          have := p4 r hr
          rw [eq_of_beq hrr] at this
          exact hl this
  · have : (s.refs.flatMap fun x => if uriFromCanonical s.uri x.1 = u then
        (if x.2.lookup env ref then uses L u ref else []) else []) = [] := by
      rw [List.flatMap_eq_nil_iff]
      intro x hx
      rw [if_neg]
      exact fun e => hu ⟨x, hx, e⟩
    rw [this]
    refine ⟨fun hU => ?_, .inr rfl⟩
    unfold uses
    cases hLu : L u with
    | none => rfl
    | some d =>
      simp only
      by_cases hh : haveReferences u = true
      · exfalso
        obtain ⟨f, p2, -⟩ := hfil u d hU hLu hh
        exact hu ⟨_, RefMap.find_mem p2, C20_round_trip_partial ((hL u d hLu).2 hh)⟩
      · simp [hh]

/-- C18 along any state satisfying the invariant. -/
theorem answers_of_rinv {D L} (inv : Inv env D L s) (rb : RBase s) (ri : RInv env D L s)
    (hD : ∀ d ∈ D, DocOK env d) (hw : ∀ d ∈ D, haveReferences d.uri = true → InWorkspace s.uri d.uri)
    (ref : Bytes) : AnswersUses L ref (s.getReferences env ref) := by
  obtain ⟨res, h1, h2⟩ := answers_loose (env := env) (L := L) (fun _ => True) rb.nodup
    (fun c f hc => by
      obtain ⟨d, h1, h2, h3⟩ := ri.mapped c f hc
      exact ⟨d.uri, h2, hw d h1 h2, (hD d h1).uri.1, h3⟩)
    (fun u d hL hh => (ri.present u d hL hh).1) ri.only
    (fun u d _ hL hh => by
      obtain ⟨-, f, p2, -, p4⟩ := ri.present u d hL hh
      exact ⟨f, p2, p4⟩)
    (fun u d hL => by
      obtain ⟨m, hu⟩ := inv.live u d hL
      exact ⟨hD d m, fun hh => by rw [← hu] at hh ⊢; exact hw d m hh⟩) ref
  exact ⟨res, h1, fun u => (h2 u).1 trivial⟩

/-- C18: after any history of indexing, deleting and restarting, a reference search for a name
answers, for every file, exactly the uses recorded by the latest indexing of that file, provided the
membership filter forgets no inserted key. -/
theorem C18_references_exact (he : EnvOK env) (hf : env.FilterOK) (hok : HistOK env h)
    (hw : RefsOK root h) (hs : run env root h = some s) (ref : Bytes) :
    AnswersUses (latest h) ref (s.getReferences env ref) := by
  obtain ⟨s', h1, inv, rb, ri, hu⟩ := run_rinv (root := root) he hf hok hw
  rw [hs] at h1
  cases h1
  exact answers_of_rinv inv rb ri hok.docs (by rw [hu]; exact hw.docs) ref

/-- C18: a file without recorded use of the name is never reported; a deleted file is never
reported. -/
theorem C18_no_stale_file (he : EnvOK env) (hf : env.FilterOK) (hok : HistOK env h)
    (hw : RefsOK root h) (hs : run env root h = some s) (ref : Bytes) (res : List (Bytes × Range))
    (hr : s.getReferences env ref = some res) (u : Bytes) (r : Range) (hm : (u, r) ∈ res) :
    ∃ d, latest h u = some d ∧ (ref, r) ∈ d.refs := by
  obtain ⟨res', e, hres⟩ := C18_references_exact he hf hok hw hs ref
  rw [hr] at e
  cases e
  have : r ∈ uses (latest h) u ref := by
    rw [← hres u]
    exact List.mem_map.mpr ⟨(u, r), List.mem_filter.mpr ⟨hm, by simp⟩, rfl⟩
  unfold uses at this
  split at this
  · simp at this
  · rename_i d hd
    split at this
    · obtain ⟨x, hx, rfl⟩ := List.mem_map.mp this
      obtain ⟨h1, h2⟩ := List.mem_filter.mp hx
      exact ⟨d, hd, by rw [← eq_of_beq h2]; exact h1⟩
    · simp at this

theorem Demo.refs_ok : RefsOK Demo.root Demo.hist := by
  intro o ho
  have hA : InWorkspace Demo.root Demo.uA := by constructor <;> decide
  have hB : InWorkspace Demo.root Demo.uB := by constructor <;> decide
  simp only [Demo.hist, List.mem_cons, List.not_mem_nil, or_false] at ho
  rcases ho with rfl | rfl | rfl | rfl | rfl | rfl | rfl
  · trivial
  · exact fun _ => hA
  · exact fun _ => hB
  · exact fun _ => hA
  · trivial
  · exact fun _ => hB
  · exact fun _ => hB

/-- The hypotheses of C18 and C19 are met, and the answer is not empty. -/
example : EnvOK Demo.env ∧ Demo.env.FilterOK ∧ HistOK Demo.env Demo.hist ∧ RefsOK Demo.root Demo.hist ∧
    uses (latest Demo.hist) Demo.uB b!"\\f" = [Demo.rng 4] :=
  ⟨Demo.env_ok, Demo.filter_ok, Demo.hist_ok, Demo.refs_ok, by decide +kernel⟩

/-! ## C19 -/

/-- C19: a restart does not change the answer of any reference search: both the answer before and
the answer after the restart are, file by file, the recorded uses. -/
theorem C19_restart_same_answers (he : EnvOK env) (hf : env.FilterOK) (hok : HistOK env h)
    (hw : RefsOK root h) (hs : run env root h = some s) (ref : Bytes) :
    ∃ s', s.restart = some s' ∧ ∃ a b, s.getReferences env ref = some a ∧
      s'.getReferences env ref = some b ∧
      ∀ u, (a.filter fun e => e.1 == u).map (·.2) = (b.filter fun e => e.1 == u).map (·.2) := by
  have hdocs : docs (h ++ [.restart]) = docs h := by simp [docs]
  have hok' : HistOK env (h ++ [.restart]) := ⟨by rw [hdocs]; exact hok.docs, by rw [hdocs]; exact hok.consts,
    Keeps.append.mpr ⟨hok.crashes, trivial, trivial⟩⟩
  have hw' : RefsOK root (h ++ [.restart]) := by
    intro o ho
    rcases List.mem_append.mp ho with ho | ho
    · exact hw o ho
    · rw [List.mem_singleton.mp ho]; trivial
  obtain ⟨s', h1, -⟩ := run_inv (root := root) he hok'
  have hlat : latest (h ++ [.restart]) = latest h := by simp [latest, latestStep]
  have hrs : s.restart = some s' := by
    have : run env root (h ++ [.restart]) = (run env root h).bind fun s => step env s .restart := by
      simp [run, runFrom, List.foldl_append]
    rw [this, hs] at h1
    exact h1
  obtain ⟨a, ha, ha'⟩ := C18_references_exact he hf hok hw hs ref
  obtain ⟨b, hb, hb'⟩ := C18_references_exact he hf hok' hw' h1 ref
  refine ⟨s', hrs, a, b, ha, hb, fun u => ?_⟩
  rw [ha' u, hb' u, hlat]

/-- C18/C19 fail for a file outside the workspace: the answer names a file that does not exist. -/
theorem C18_false_outside_workspace :
    ∃ (h : List HOp) (s : Store) (u : Bytes) (r : Range), HistOK Demo.env h ∧
      run Demo.env b!"file:///other" h = some s ∧
      (s.getReferences Demo.env b!"\\f").map (fun a => a.contains (u, r)) = some true ∧
      latest h u = none := by
  refine ⟨[.index Demo.b1], _, b!"file:///otherfile:///w/b.php", Demo.rng 4, ⟨?_, ?_, by simp [Keeps]⟩, rfl, by decide +kernel,
    by decide +kernel⟩
  · have : docs [.index Demo.b1] = [Demo.b1] := rfl
    rw [this]
    simpa using Demo.b1_ok
  · have : docs [.index Demo.b1] = [Demo.b1] := rfl
    rw [this]
    intro d1 h1 d2 h2 _ _ _ _ _ _
    simp at h1 h2
    rw [h1, h2]

end Verif.Store
