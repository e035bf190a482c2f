import Verif.Store.PropsSearch

/-! Property C48: namespace completion. -/

namespace Verif.Store

open Verif.Encoding Verif.Storage

variable {env : Env} {root : Bytes} {h : List HOp} {s : Store}

theorem joinB_append_single (c : UInt8) (ps : List Bytes) (p : Bytes) (h : ps ≠ []) :
    joinB c (ps ++ [p]) = joinB c ps ++ c :: p := by
  induction ps with
  | nil => exact absurd rfl h
  | cons a ps ih =>
    cases ps with
    | nil => rfl
    | cons b ps =>
      have := ih (by simp)
      simp only [List.cons_append, joinB] at this ⊢
      rw [this]; simp

theorem joinB_eq_nil {c : UInt8} {ps : List Bytes} (h : [] ∉ ps) : joinB c ps = [] ↔ ps = [] := by
  cases ps with
  | nil => simp [joinB]
  | cons a ps =>
    have ha : a ≠ [] := fun e => h (by simp [e])
    cases ps with
    | nil => simpa [joinB] using ha
    | cons b ps => simp [joinB]

theorem joinB_inj {c : UInt8} {ps qs : List Bytes} (hp : ∀ p ∈ ps, c ∉ p) (hq : ∀ p ∈ qs, c ∉ p)
    (h0 : [] ∉ ps) (h1 : [] ∉ qs) (e : joinB c ps = joinB c qs) : ps = qs := by
  have key : ∀ ps : List Bytes, ps ≠ [] → (∀ p ∈ ps, c ∉ p) → splitB c (joinB c ps) = ps := by
    intro ps
    induction ps with
    | nil => intro h; exact absurd rfl h
    | cons a ps ih =>
      intro _ h
      cases ps with
      | nil => exact splitB_of_no_sep _ _ (h a (by simp))
      | cons b ps =>
        simp only [joinB]
        rw [splitB_append _ _ _ (h a (by simp)), ih (by simp) (fun p hp => h p (by simp [hp]))]
  by_cases hps : ps = []
  · subst hps
    have : joinB c qs = [] := e.symm
    exact ((joinB_eq_nil h1).mp this).symm
  · by_cases hqs : qs = []
    · subst hqs
      exact absurd ((joinB_eq_nil h0).mp e) hps
    · rw [← key ps hps hp, e, key qs hqs hq]

theorem mem_nsLevels {pre0 parts : List Bytes} (h0 : [] ∉ pre0) (h1 : [] ∉ parts) (sc p : Bytes) :
    (sc, p) ∈ nsLevels (joinB 92 pre0) parts ↔
      ∃ pre post, parts = pre ++ p :: post ∧ sc = joinB 92 (pre0 ++ pre) := by
  induction parts generalizing pre0 with
  | nil => simp [nsLevels]
  | cons a parts ih =>
    have hscope : (if joinB 92 pre0 = [] then [] else joinB 92 pre0 ++ [92]) ++ a = joinB 92 (pre0 ++ [a]) := by
      by_cases hp : pre0 = []
      · subst hp; simp [joinB]
      · rw [if_neg (fun e => hp ((joinB_eq_nil h0).mp e)), joinB_append_single _ _ _ hp]; simp
    have ha : ([] : Bytes) ≠ a := fun e => h1 (by simp [e])
    simp only [nsLevels, hscope, List.mem_cons, Prod.mk.injEq]
    rw [ih (pre0 := pre0 ++ [a]) (by
      intro hm
      rcases List.mem_append.mp hm with hm | hm
      · exact h0 hm
      · exact ha (List.mem_singleton.mp hm)) (fun h => h1 (by simp [h]))]
    constructor
    · rintro (⟨rfl, rfl⟩ | ⟨pre, post, rfl, rfl⟩)
      · exact ⟨[], parts, rfl, by simp⟩
      · exact ⟨a :: pre, post, rfl, by simp⟩
    · rintro ⟨pre, post, e, rfl⟩
      cases pre with
      | nil =>
        simp only [List.nil_append, List.cons.injEq] at e
        exact .inl ⟨by simp, e.1.symm⟩
      | cons b pre =>
        simp only [List.cons_append, List.cons.injEq] at e
        exact .inr ⟨pre, post, e.2, by simp [e.1]⟩

theorem indexables_eq {ns : Bytes} (hn : NsOK ns) (h0 : ns ≠ []) :
    indexablesFromNamespaceName ns = (nsLevels [] (splitB 92 ns), 92 :: ns) := by
  have hp := hn.parts.resolve_left h0
  have hd : dropBackslash ns = ns := by
    cases ns with
    | nil => rfl
    | cons c t =>
      have hc : c ≠ 92 := by rintro rfl; apply hp; simp [splitB]
      simp [dropBackslash, hc]
  unfold indexablesFromNamespaceName
  simp only [hd]
  rw [if_pos (List.length_pos_iff.mpr h0)]

theorem levels_of_ns {ns : Bytes} (hn : NsOK ns) (h0 : ns ≠ []) (sc p : Bytes) :
    (indexablesFromNamespaceName ns).2 = 92 :: ns ∧
    ((sc, p) ∈ (indexablesFromNamespaceName ns).1 ↔ ∃ pre, NsLevel ns pre p ∧ sc = joinB 92 pre) := by
  have hp := hn.parts.resolve_left h0
  rw [indexables_eq hn h0]
  refine ⟨rfl, ?_⟩
  have := mem_nsLevels (pre0 := []) (by simp) hp sc p
  simp only [joinB, List.nil_append] at this
  rw [this]
  constructor
  · rintro ⟨pre, post, h1, h2⟩; exact ⟨pre, ⟨post, h1⟩, h2⟩
  · rintro ⟨pre, ⟨post, h1⟩, h2⟩; exact ⟨pre, post, h1, h2⟩

theorem natDigits_length (n : Nat) : (natDigits n).length ≤ n + 1 := by
  induction n using Nat.strongRecOn with
  | ind n ih =>
    unfold natDigits
    split
    · simp
    · have := ih (n / 10) (by omega)
      simp only [List.length_append, List.length_singleton]
      omega

theorem splitB_length (c : UInt8) (s : Bytes) : (splitB c s).length ≤ s.length + 1 := by
  induction s with
  | nil => simp [splitB]
  | cons a s ih =>
    simp only [splitB]
    split
    · simp only [List.length_cons]; omega
    · split
      · simp
      · rename_i h; rw [h] at ih; simp only [List.length_cons] at ih ⊢; omega

theorem nsLevels_length (sc : Bytes) (parts : List Bytes) : (nsLevels sc parts).length = parts.length := by
  induction parts generalizing sc with
  | nil => rfl
  | cons a parts ih => simp [nsLevels, ih]

/-- Every entry of the namespace collections. -/
theorem ns_put {d : Doc} {r v : Bytes} (h : BOp.put (entryKey cNamCom r) v ∈ completionOps env d) :
    ∃ ns ∈ d.namespaces, ∃ sc p i, ((sc, p), i) ∈ (indexablesFromNamespaceName ns).1.zipIdx ∧
      (∃ t ∈ env.tokenise p, entryKey cNamCom r = entryKey (nsCollection sc)
        (env.lower t ++ sep :: ((indexablesFromNamespaceName ns).2 ++ sep :: itoa i))) ∧
      v = writeString ((indexablesFromNamespaceName ns).2 ++ sep :: itoa i) := by
  simp only [completionOps, List.mem_append, List.mem_flatMap] at h
  rcases h with ⟨n, hn, h⟩ | ⟨x, hx, h⟩
  · simp only [namespaceOps, List.mem_flatMap, indexNameOps, List.mem_append, List.mem_map, List.mem_singleton,
      completionKeys, List.map_map] at h
    obtain ⟨⟨⟨sc, p⟩, i⟩, hi, h⟩ := h
    rcases h with ⟨t, ht, h⟩ | h
    · simp only [BOp.put.injEq, Function.comp] at h
      exact ⟨n, hn, sc, p, i, hi, ⟨t, ht, h.1.symm⟩, h.2.symm⟩
    · simp only [BOp.put.injEq] at h
      exact absurd ((entryKey_inj (by decide) (by decide)).mp h.1).1 (by decide)
  · cases hi : x.indexable env with
    | none => rw [hi] at h; simp at h
    | some p =>
      obtain ⟨c, n⟩ := p
      rw [hi] at h
      simp only [indexNameOps, List.mem_append, List.mem_map, List.mem_singleton, completionKeys, List.map_map] at h
      have hcn : sep ∉ c ∧ c ≠ cNamCom := by
        revert hi
        cases x <;> simp [Sym.indexable] <;> rintro rfl - <;> decide
      rcases h with ⟨t, ht, h⟩ | h
      · simp only [BOp.put.injEq, Function.comp] at h
        exact absurd ((entryKey_inj hcn.1 (by decide)).mp h.1).1 hcn.2
      · simp only [BOp.put.injEq] at h
        exact absurd ((entryKey_inj (by decide) (by decide)).mp h.1).1 (by decide)

theorem runStop_all {β} (f : Bytes → β) (acc : List β) (vs : List Bytes) :
    runStop (fun acc cv => some (acc ++ [f cv], false)) acc vs = some (acc ++ vs.map f, true) := by
  induction vs generalizing acc with
  | nil => simp [runStop]
  | cons v vs ih => simp only [runStop]; rw [ih]; simp

theorem nsKeyword_scope {pre : List Bytes} {kw : Bytes} (hp : [] ∉ pre) (hb : 92 ∉ kw) :
    (let p := scopeAndName (nsKeyword pre kw)
     ((if p.1 = [92] then [] else p.1), p.2)) = ((if pre = [] then [] else 92 :: joinB 92 pre), kw) := by
  by_cases h0 : pre = []
  · subst h0
    have : nsKeyword [] kw = [] ++ 92 :: kw := rfl
    rw [this]
    unfold scopeAndName
    rw [if_neg (by simp), splitB_append _ _ _ (by simp), splitB_of_no_sep _ _ hb]
    simp
  · have hj : joinB 92 pre ≠ [] := fun e => h0 ((joinB_eq_nil hp).mp e)
    have : nsKeyword pre kw = 92 :: joinB 92 pre ++ 92 :: kw := by
      unfold nsKeyword
      congr 1
      clear hj hp
      induction pre with
      | nil => exact absurd rfl h0
      | cons a pre ih =>
        cases pre with
        | nil => simp [joinB]
        | cons b pre =>
          rw [List.flatMap_cons, ih (by simp)]
          simp [joinB]
    rw [this]
    simp only [scope_ns hb hj, h0, if_false]
    rw [if_neg]
    intro e
    simp only [List.cons.injEq, true_and] at e
    exact hj e

theorem pairs_of_nsKeyword {pre : List Bytes} {kw keyword : Bytes} (hp : [] ∉ pre) (hb : 92 ∉ kw)
    (hkey : keyword = nsKeyword pre kw ∨ (pre = [] ∧ keyword = kw)) :
    (let p := scopeAndName keyword
     ((if p.1 = [92] then [] else p.1), p.2)) = ((if pre = [] then [] else 92 :: joinB 92 pre), kw) := by
  rcases hkey with rfl | ⟨rfl, rfl⟩
  · exact nsKeyword_scope hp hb
  · by_cases h0 : keyword = []
    · subst h0; rfl
    · rw [scope_plain h0 hb]; simp

/-- The collection searched, and the collection of a level. -/
theorem search_collection {pre : List Bytes} {kw keyword : Bytes} (hp : [] ∉ pre) (hq : ∀ p ∈ pre, 92 ∉ p) (hb : 92 ∉ kw)
    (hkey : keyword = nsKeyword pre kw ∨ (pre = [] ∧ keyword = kw)) :
    s.searchNamespaces env keyword = searchCompletions env s.comDB (nsCollection (joinB 92 pre)) kw
      (fun acc cv => some (acc ++ [(splitB sep cv).headD []], false)) [] := by
  have hpk := pairs_of_nsKeyword hp hb hkey
  generalize hsn : scopeAndName keyword = sn at hpk
  obtain ⟨sc, k⟩ := sn
  simp only [Prod.mk.injEq] at hpk
  unfold Store.searchNamespaces
  simp only [hsn]
  rw [hpk.1, hpk.2]
  congr 1
  by_cases h0 : pre = []
  · subst h0; simp [nsCollection, joinB]
  · have hj : joinB 92 pre ≠ [] := fun e => h0 ((joinB_eq_nil hp).mp e)
    unfold nsCollection
    rw [if_neg h0, if_pos (by simp), if_neg]
    rintro (e | e)
    · exact hj e
    · cases pre with
      | nil => exact h0 rfl
      | cons a pre =>
        have ha : a ≠ [] := fun e => hp (by simp [e])
        cases pre with
        | nil =>
          simp only [joinB] at e
          exact hq a (by simp) (by simp [e])
        | cons b pre =>
          simp only [joinB] at e
          cases a with
          | nil => exact ha rfl
          | cons x a => simp at e


theorem nsCollection_inj {pre pre' : List Bytes} (h0 : [] ∉ pre) (h0' : [] ∉ pre') (hq : ∀ p ∈ pre, 92 ∉ p)
    (hq' : ∀ p ∈ pre', 92 ∉ p) (hs : ∀ p ∈ pre, sep ∉ p) (hs' : ∀ p ∈ pre', sep ∉ p) {w y k : Bytes} (hw : 92 ∉ w)
    (hy : 92 ∉ y)
    (h : entryKey (nsCollection (joinB 92 pre)) w <+: entryKey (nsCollection (joinB 92 pre')) (y ++ sep :: k)) :
    (pre = [] ∧ w = []) ∨ (pre = pre' ∧ w <+: y ++ sep :: k) := by
  generalize hr : y ++ sep :: k = r at h ⊢
  have hform : ∀ pre : List Bytes, [] ∉ pre → (∀ p ∈ pre, 92 ∉ p) →
      nsCollection (joinB 92 pre) = if pre = [] then cNamCom else cNamCom ++ sep :: 92 :: joinB 92 pre := by
    intro pre h0 hq
    by_cases hp : pre = []
    · subst hp; simp [nsCollection, joinB]
    · have hj : joinB 92 pre ≠ [] := fun e => hp ((joinB_eq_nil h0).mp e)
      unfold nsCollection
      rw [if_neg hp, if_neg]
      rintro (e | e)
      · exact hj e
      · have : splitB 92 (joinB 92 pre) = splitB 92 [92] := by rw [e]
        cases pre with
        | nil => exact hp rfl
        | cons a pre =>
          have ha : a ≠ [] := fun e => h0 (by simp [e])
          cases pre with
          | nil => simp only [joinB] at e; exact hq a (by simp) (by simp [e])
          | cons b pre =>
            simp only [joinB] at e
            cases a with
            | nil => exact ha rfl
            | cons x a => simp at e
  rw [hform pre h0 hq, hform pre' h0' hq'] at h
  have hjs : ∀ pre : List Bytes, (∀ p ∈ pre, sep ∉ p) → sep ∉ joinB 92 pre := by
    intro pre
    induction pre with
    | nil => simp [joinB]
    | cons a pre ih =>
      intro h
      cases pre with
      | nil => simpa [joinB] using h a (by simp)
      | cons b pre =>
        simp only [joinB, List.mem_append, List.mem_cons, not_or]
        exact ⟨h a (by simp), by decide, ih fun p hp => h p (by simp [hp])⟩
  by_cases hp : pre = []
  · by_cases hp' : pre' = []
    · right
      rw [if_pos hp, if_pos hp'] at h
      exact ⟨by rw [hp, hp'], ((entryKey_prefix (by decide) (by decide)).mp h).2⟩
    · left
      refine ⟨hp, ?_⟩
      rw [if_pos hp, if_neg hp'] at h
      have e : entryKey (cNamCom ++ sep :: 92 :: joinB 92 pre') r = entryKey cNamCom (92 :: joinB 92 pre' ++ sep :: r) := by
        simp [entryKey]
      rw [e] at h
      have h2 := ((entryKey_prefix (by decide) (by decide)).mp h).2
      cases w with
      | nil => rfl
      | cons x w =>
        rw [List.cons_append, List.cons_prefix_cons] at h2
        exact absurd (by simp [h2.1]) hw
  · right
    have e : ∀ pre r, entryKey (cNamCom ++ sep :: 92 :: joinB 92 pre) r = entryKey cNamCom (92 :: joinB 92 pre ++ sep :: r) := by
      intro pre r; simp [entryKey]
    rw [if_neg hp, e] at h
    by_cases hp' : pre' = []
    · -- the entry is in the root collection: its token would have to start with a backslash
      rw [if_pos hp'] at h
      have h2 := ((entryKey_prefix (by decide) (by decide)).mp h).2
      rw [← hr] at h2
      cases y with
      | nil =>
        rw [List.cons_append, List.nil_append, List.cons_prefix_cons] at h2
        exact absurd h2.1 (by decide)
      | cons x y =>
        rw [List.cons_append, List.cons_append, List.cons_prefix_cons] at h2
        exact absurd (by simp [h2.1]) hy
    · rw [if_neg hp', e] at h
      have h2 := ((entryKey_prefix (by decide) (by decide)).mp h).2
      rw [sep_prefix (by simp [hjs pre hs]; decide) (by simp [hjs pre' hs']; decide)] at h2
      simp only [List.cons.injEq, true_and] at h2
      exact ⟨joinB_inj hq hq' h0 h0' h2.1, h2.2⟩


/-- A name is one of its own words, and splitting into words and lower-casing do not invent a `\`. -/
structure WordsOK (env : Env) : Prop where
  whole : ∀ n, n ∈ env.tokenise n
  backslash : ∀ n, 92 ∉ n → ∀ t ∈ env.tokenise n, 92 ∉ env.lower t

theorem level_ok {ns : Bytes} {pre : List Bytes} {part : Bytes} (hn : NsOK ns) (h0 : ns ≠ []) (hl : NsLevel ns pre part) :
    [] ∉ pre ∧ (∀ p ∈ pre, 92 ∉ p) ∧ (∀ p ∈ pre, sep ∉ p) ∧ 92 ∉ part ∧ sep ∉ part := by
  obtain ⟨post, e⟩ := hl
  have hparts := hn.parts.resolve_left h0
  have hsep : ∀ p ∈ splitB 92 ns, sep ∉ p := by
    have key : ∀ n : Bytes, sep ∉ n → ∀ p ∈ splitB 92 n, sep ∉ p := by
      intro n
      induction n with
      | nil => simp [splitB]
      | cons c n ih =>
        intro h p hp
        simp only [splitB] at hp
        have ih := ih fun h' => h (by simp [h'])
        split at hp
        · rcases List.mem_cons.mp hp with rfl | hp
          · simp
          · exact ih p hp
        · cases hs : splitB 92 n with
          | nil => exact absurd hs (splitB_ne_nil 92 n)
          | cons q qs =>
            rw [hs] at hp ih
            rcases List.mem_cons.mp hp with rfl | hp
            · intro hm
              rcases List.mem_cons.mp hm with rfl | hm
              · exact h (by simp)
              · exact ih q (by simp) hm
            · exact ih p (by simp [hp])
    exact key ns hn.nosep
  rw [e] at hparts hsep
  have h92 : ∀ p ∈ pre ++ part :: post, 92 ∉ p := fun p hp => splitB_no_sep 92 ns p (by rw [e]; exact hp)
  exact ⟨fun h => hparts (by simp [h]), fun p hp => h92 p (by simp [hp]), fun p hp => hsep p (by simp [hp]),
    h92 part (by simp), hsep part (by simp)⟩

theorem latest_mem {h : List HOp} {u : Bytes} {d : Doc} (hu : latest h u = some d) : d ∈ docs h := by
  have key : ∀ (h : List HOp) (L : Bytes → Option Doc) (D : List Doc), (∀ u d, L u = some d → d ∈ D) →
      ∀ u d, h.foldl latestStep L u = some d → d ∈ D ∨ d ∈ docs h := by
    intro h
    induction h with
    | nil => intro L D hL u d hu; exact .inl (hL u d hu)
    | cons o h ih =>
      intro L D hL u d hu
      rw [docs_cons]
      have := ih (latestStep L o) (D ++ docs [o]) (by
        intro u d hd
        cases o with
        | index d' =>
          simp only [latestStep] at hd
          split at hd
          · cases hd; simp [docs]
          · simp [hL u d hd]
        | delete v =>
          simp only [latestStep] at hd
          split at hd
          · cases hd
          · simp [hL u d hd]
        | restart => simp [hL u d hd]
        | upgrade _ => cases hd
        | crash d' k =>
          simp only [latestStep] at hd
          split at hd
          · cases hd; simp [docs]
          · simp [hL u d hd]) u d hu
      rcases this with h1 | h1
      · rcases List.mem_append.mp h1 with h1 | h1
        · exact .inl h1
        · exact .inr (List.mem_append.mpr (.inl h1))
      · exact .inr (List.mem_append.mpr (.inr h1))
  rcases key h (fun _ => none) [] (by simp) u d hu with h | h
  · simp at h
  · exact h

/-- C48: what is offered below the levels `pre` for the word `kw`. Every namespace of a current file that
has, below exactly these levels, a level one of whose words starts with a word of `kw`, is offered; and
every namespace that is offered was declared by some version of some file and has such a level. -/
theorem C48_namespaces (he : EnvOK env) (hw : WordsOK env) (hso : SearchOK env h) (hs : run env root h = some s)
    (hns : ∀ d ∈ docs h, ∀ ns ∈ d.namespaces, NsOK ns)
    (pre : List Bytes) (kw keyword : Bytes) (hpre : ∀ p ∈ pre, p ≠ [] ∧ 92 ∉ p ∧ sep ∉ p) (hb : 92 ∉ kw)
    (hn : sep ∉ kw) (hkey : keyword = nsKeyword pre kw ∨ (pre = [] ∧ keyword = kw)) :
    ∃ results, s.searchNamespaces env keyword = some (results, true) ∧
      (∀ u d, latest h u = some d → ∀ ns ∈ d.namespaces, ns ≠ [] → ∀ part, NsLevel ns pre part →
        Matches env kw part → 92 :: ns ∈ results) ∧
      ∀ r ∈ results, ∃ d ∈ docs h, ∃ ns ∈ d.namespaces, r = 92 :: ns ∧
        ∃ part, NsLevel ns pre part ∧ Matches env kw part := by
  have ci := run_cinv hs
  have hp0 : [] ∉ pre := fun h => (hpre _ h).1 rfl
  have hp1 : ∀ p ∈ pre, 92 ∉ p := fun p h => (hpre p h).2.1
  have hp2 : ∀ p ∈ pre, sep ∉ p := fun p h => (hpre p h).2.2
  -- every entry of the namespace collections
  have hent : ∀ e ∈ s.comDB.db, entryKey cNamCom [] <+: e.1 → ∃ d ∈ docs h, ∃ ns ∈ d.namespaces, ns ≠ [] ∧
      ∃ pre' p, ∃ i : Nat, NsLevel ns pre' p ∧ (∃ t ∈ env.tokenise p,
        e.1 = entryKey (nsCollection (joinB 92 pre')) (env.lower t ++ sep :: (92 :: ns ++ sep :: itoa i))) ∧
      readString e.2 = some (92 :: ns ++ sep :: itoa i, []) := by
    rintro ⟨k, v⟩ hm ⟨r, rfl⟩
    have hk : entryKey cNamCom [] ++ r = entryKey cNamCom r := by simp [entryKey]
    simp only [hk] at hm ⊢
    obtain ⟨d, hd, hput⟩ := ci.sound _ _ ((mem_iff_get ci.sorted _ _).mp hm)
    obtain ⟨ns, hnm, sc, p, i, hi, ⟨t, ht, e⟩, rfl⟩ := ns_put hput
    have h0 : ns ≠ [] := by
      rintro rfl
      simp [indexablesFromNamespaceName, dropBackslash] at hi
    have hok := hns d hd ns hnm
    have hmem : (sc, p) ∈ (indexablesFromNamespaceName ns).1 := by
      have := List.mem_zipIdx hi
      have h3 := this.2.2
      rw [h3]
      exact List.getElem_mem _
    have hlen : i < ns.length + 1 := by
      have h3 := (List.mem_zipIdx hi).2.1
      have h4 : (indexablesFromNamespaceName ns).1.length ≤ ns.length + 1 := by
        rw [indexables_eq hok h0, nsLevels_length]
        exact splitB_length _ _
      omega
    obtain ⟨hkey', hlev⟩ := levels_of_ns hok h0 sc p
    obtain ⟨pre', hl, rfl⟩ := hlev.mp hmem
    rw [hkey'] at e ⊢
    refine ⟨d, hd, ns, hnm, h0, pre', p, i, hl, ⟨t, ht, e⟩, readString_write ?_⟩
    unfold Str
    have := natDigits_length i
    have hi2 : (itoa (i : Int)).length ≤ i + 1 := by
      unfold itoa
      rw [if_neg (by omega)]
      simpa using this
    have := hok.len
    simp only [List.length_append, List.length_cons]
    omega
  have hc : ∀ e ∈ s.comDB.db, entryKey (nsCollection (joinB 92 pre)) [] <+: e.1 → entryKey cNamCom [] <+: e.1 := by
    intro e _ h
    obtain ⟨r', hr⟩ := nsCollection_key (joinB 92 pre) []
    rw [hr] at h
    exact List.IsPrefix.trans ⟨r', by simp [entryKey]⟩ h
  have hlow : ∀ n, sep ∉ n → ∀ t ∈ env.tokenise n, sep ∉ env.lower t := fun n h t ht => he.lower _ (hso.tok n h t ht)
  have hhead : ∀ (ns : Bytes) (i : Nat), sep ∉ ns → (splitB sep (92 :: ns ++ sep :: itoa i)).headD [] = 92 :: ns := by
    intro ns i hn
    rw [splitB_append _ _ _ (by simp [hn]; decide)]
    rfl
  rw [search_collection hp0 hp1 hb hkey, search_eq _ _ _ _ _ _ (by
    intro e hm hp
    obtain ⟨_, _, _, _, _, _, _, _, _, _, hr⟩ := hent e hm (hc e hm hp)
    exact ⟨_, _, hr⟩), runStop_all]
  refine ⟨_, rfl, ?_, ?_⟩
  · intro u d hu ns hnm h0 part hl ⟨w, hw', t, ht, hwt⟩
    have hdm : d ∈ docs h := latest_mem hu
    have hok := hns d hdm ns hnm
    obtain ⟨hkey', hlev⟩ := levels_of_ns hok h0 (joinB 92 pre) part
    have hmem := hlev.mpr ⟨pre, hl, rfl⟩
    obtain ⟨i, hi, hget⟩ := List.mem_iff_getElem.mp hmem
    have hz : ((joinB 92 pre, part), i) ∈ (indexablesFromNamespaceName ns).1.zipIdx := by
      rw [List.mem_zipIdx_iff_getElem?, List.getElem?_eq_getElem hi, hget]
    have hput : BOp.put (entryKey (nsCollection (joinB 92 pre)) (env.lower t ++ sep :: (92 :: ns ++ sep :: itoa i)))
        (writeString (92 :: ns ++ sep :: itoa i)) ∈ completionOps env d := by
      simp only [completionOps, List.mem_append, List.mem_flatMap]
      refine .inl ⟨ns, hnm, ?_⟩
      simp only [namespaceOps, List.mem_flatMap]
      refine ⟨_, hz, ?_⟩
      simp only [indexNameOps, List.mem_append, List.mem_map, completionKeys, List.map_map]
      exact .inl ⟨t, ht, by simp only [Function.comp, hkey']⟩
    obtain ⟨v', hv'⟩ := ci.complete u d hu _ _ hput
    have hm := (mem_iff_get ci.sorted _ _).mpr hv'
    have hpc : entryKey (nsCollection (joinB 92 pre)) [] <+:
        entryKey (nsCollection (joinB 92 pre)) (env.lower t ++ sep :: (92 :: ns ++ sep :: itoa i)) :=
      ⟨env.lower t ++ sep :: (92 :: ns ++ sep :: itoa i), by simp [entryKey]⟩
    obtain ⟨d', hd', ns', hnm', h0', pre', p', i', hl', ⟨t', ht', e⟩, hread⟩ := hent _ hm (hc _ hm hpc)
    have hok' := hns d' hd' ns' hnm'
    obtain ⟨l1, l2, l3, l4, l5⟩ := level_ok hok' h0' hl'
    obtain ⟨-, -, -, m4, m5⟩ := level_ok hok h0 hl
    simp only at e
    have hsame : 92 :: ns = 92 :: ns' := by
      have hpp : pre = pre' := by
        rcases nsCollection_inj hp0 l1 hp1 l2 hp2 l3 (hw.backslash _ m4 t ht) (hw.backslash _ l4 t' ht') (w := env.lower t)
          (k := 92 :: ns' ++ sep :: itoa i') (by
            rw [← e]; unfold entryKey
            rw [List.prefix_append_right_inj, List.cons_prefix_cons]
            exact ⟨rfl, List.prefix_append _ _⟩) with ⟨e2, e3⟩ | ⟨e2, -⟩
        · rcases nsCollection_inj l1 hp0 l2 hp1 l3 hp2 (hw.backslash _ l4 t' ht') (hw.backslash _ m4 t ht) (w := env.lower t')
            (k := 92 :: ns ++ sep :: itoa i) (by
              rw [e]; unfold entryKey
              rw [List.prefix_append_right_inj, List.cons_prefix_cons]
              exact ⟨rfl, List.prefix_append _ _⟩) with ⟨e4, e5⟩ | ⟨e4, -⟩
          · rw [e2, e4]
          · exact e4.symm
        · exact e2
      subst hpp
      have e2 := List.append_cancel_left e
      simp only [List.cons.injEq, true_and] at e2
      have e3 := (sep_inj (hlow _ m5 t ht) (hlow _ l5 t' ht') e2).2
      exact (sep_inj (by simp [hok.nosep]; decide) (by simp [hok'.nosep]; decide) e3).1
    refine List.mem_map.mpr ⟨92 :: ns' ++ sep :: itoa i', ?_, by rw [hhead _ _ hok'.nosep, hsame]⟩
    rw [mem_dedupFrom]
    refine ⟨List.mem_flatMap.mpr ⟨w, hw', List.mem_map.mpr ⟨_, List.mem_filter.mpr ⟨hm, ?_⟩, ?_⟩⟩, by simp⟩
    · rw [hasPrefix_iff]
      unfold entryKey
      rw [List.prefix_append_right_inj, List.cons_prefix_cons]
      exact ⟨rfl, hwt.trans (List.prefix_append _ _)⟩
    · simp [entryVal, hread]
  · intro r hr
    obtain ⟨v, hv, rfl⟩ := List.mem_map.mp hr
    rw [mem_dedupFrom] at hv
    obtain ⟨w, hw', hv⟩ := List.mem_flatMap.mp hv.1
    obtain ⟨e, he', hv⟩ := List.mem_map.mp hv
    obtain ⟨h1, h2⟩ := List.mem_filter.mp he'
    rw [hasPrefix_iff] at h2
    obtain ⟨d, hd, ns, hnm, h0, pre', p, i, hl, ⟨t, ht, e1⟩, hread⟩ := hent e h1 (hc e h1
      (List.IsPrefix.trans ⟨env.lower w, by simp [entryKey]⟩ h2))
    have hok := hns d hd ns hnm
    obtain ⟨l1, l2, l3, l4, l5⟩ := level_ok hok h0 hl
    have hval : v = 92 :: ns ++ sep :: itoa i := by rw [← hv]; simp [entryVal, hread]
    refine ⟨d, hd, ns, hnm, by rw [hval, hhead _ _ hok.nosep], ?_⟩
    rw [e1] at h2
    rcases nsCollection_inj hp0 l1 hp1 l2 hp2 l3 (hw.backslash _ hb w hw') (hw.backslash _ l4 t ht) h2 with ⟨e2, e3⟩ | ⟨e2, e3⟩
    · cases hsp : splitB 92 ns with
      | nil => exact absurd hsp (splitB_ne_nil _ _)
      | cons a post => exact ⟨a, ⟨post, by rw [hsp, e2]; rfl⟩, w, hw', a, hw.whole a, by rw [e3]; exact List.nil_prefix⟩
    · subst e2
      exact ⟨p, hl, w, hw', t, ht, prefix_sep (hlow _ hn w hw') e3⟩

namespace Demo

theorem words_ok : WordsOK Demo.env where
  whole n := by simp [Demo.env]
  backslash := by
    intro n hn t ht
    simp only [Demo.env, List.mem_singleton] at ht ⊢
    subst ht
    intro h
    unfold asciiLower at h
    obtain ⟨c, hc, e⟩ := List.mem_map.mp h
    split at e
    · rename_i hr
      have : (c + 32).toNat = 92 := by rw [e]; rfl
      rw [UInt8.toNat_add] at this
      have h32 : (32 : UInt8).toNat = 32 := rfl
      rw [h32] at this
      omega
    · exact hn (e ▸ hc)

/-- a file in a nested namespace -/
def deep : Doc where
  uri := uA
  hash := b!"d"
  symbols := []
  namespaces := [b!"Ab\\Cd\\Ef"]
  refs := []

end Demo

/-- The hypotheses of C48 are met and the answers are not empty. -/
example : ∃ s, run Demo.env Demo.root [.index Demo.deep] = some s ∧
    (∀ ns ∈ Demo.deep.namespaces, NsOK ns) ∧ SearchOK Demo.env [.index Demo.deep] ∧
    s.searchNamespaces Demo.env (nsKeyword [b!"Ab"] b!"c") = some ([b!"\\Ab\\Cd\\Ef"], true) ∧
    s.searchNamespaces Demo.env (nsKeyword [b!"Ab"] b!"e") = some ([], true) ∧
    s.searchNamespaces Demo.env b!"a" = some ([b!"\\Ab\\Cd\\Ef"], true) := by
  obtain ⟨s, h1, h2⟩ := Demo.observe (env := Demo.env) (root := Demo.root) (h := [.index Demo.deep])
    (fun s => [s.searchNamespaces Demo.env (nsKeyword [b!"Ab"] b!"c"),
      s.searchNamespaces Demo.env (nsKeyword [b!"Ab"] b!"e"), s.searchNamespaces Demo.env b!"a"])
    [some ([b!"\\Ab\\Cd\\Ef"], true), some ([], true), some ([b!"\\Ab\\Cd\\Ef"], true)] (by decide +kernel)
  simp only [List.cons.injEq, and_true] at h2
  refine ⟨s, h1, ?_, ⟨Demo.search_ok.tok, ?_⟩, h2⟩
  · simp only [Demo.deep, List.mem_singleton, forall_eq]
    exact ⟨by decide, .inr (by decide), by decide⟩
  · intro d hd x hx
    have : docs [.index Demo.deep] = [Demo.deep] := rfl
    rw [this, List.mem_singleton] at hd
    subst hd
    simp [Demo.deep] at hx

/-- With an empty keyword a nested namespace is listed once per level: results are repeated. -/
theorem C48_false_each_once :
    ∃ s, run Demo.env Demo.root [.index Demo.deep] = some s ∧
      ∃ results, s.searchNamespaces Demo.env [] = some (results, true) ∧ ¬ results.Nodup := by
  obtain ⟨s, h1, h2⟩ := Demo.observe (env := Demo.env) (root := Demo.root) (h := [.index Demo.deep])
    (fun s => s.searchNamespaces Demo.env [])
    (some ([b!"\\Ab\\Cd\\Ef", b!"\\Ab\\Cd\\Ef", b!"\\Ab\\Cd\\Ef"], true)) (by decide +kernel)
  exact ⟨s, h1, _, h2, by decide⟩

end Verif.Store
