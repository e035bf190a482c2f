import Verif.Uri.Lemmas

/-! Paths and URIs of files: properties C113 to C116. -/

namespace Verif.Uri

theorem editor_plain (c : UInt8) : ∀ d ∈ editorByte c, isCtl d = false ∧ d ≠ 63 ∧ d ≠ 35 := by
  refine forall_byte (P := fun c => ∀ d ∈ editorByte c, isCtl d = false ∧ d ≠ 63 ∧ d ≠ 35) ?_ c
  decide +kernel

theorem once_plain (c : UInt8) : ∀ d ∈ onceByte c, isCtl d = false ∧ d ≠ 63 ∧ d ≠ 35 := by
  unfold onceByte
  split
  · simp only [List.mem_singleton, forall_eq]; decide
  · exact editor_plain c

theorem flatMap_plain {f : UInt8 → Bytes} (hf : ∀ c, ∀ d ∈ f c, isCtl d = false ∧ d ≠ 63 ∧ d ≠ 35) (q : Bytes) :
    (∀ c ∈ q.flatMap f, isCtl c = false) ∧ 63 ∉ q.flatMap f ∧ 35 ∉ q.flatMap f := by
  refine ⟨fun d hd => ?_, fun hd => ?_, fun hd => ?_⟩ <;> obtain ⟨c, -, h⟩ := List.mem_flatMap.1 hd
  · exact (hf c d h).1
  · exact (hf c _ h).2.1 rfl
  · exact (hf c _ h).2.2 rfl

theorem editorURI_cons (q : Bytes) : editorURI (47 :: q) = b!"file://" ++ 47 :: q.flatMap editorByte := rfl

/-- Reading a file: the URI is parsed as a request, and the path that it stands for is decoded once more. -/
theorem uriToPath_of {t q : Bytes} (h1 : ∀ c ∈ t, isCtl c = false) (h2 : 63 ∉ t)
    (h : unescape .path (47 :: t) = some (47 :: q)) : uriToPath (b!"file://" ++ 47 :: t) =
      (unescape .query (47 :: q)).map fun p => if 58 ∈ p then replaceB 47 92 (trimPrefix p [47]) else p := by
  unfold uriToPath
  rw [parse_file h1 h2]
  unfold Url.setPath
  rw [h]
  simp

theorem unescape_slash {m : Mode} {t q : Bytes} (h : unescape m t = some q) : unescape m (47 :: t) = some (47 :: q) := by
  rw [unescape_plain m 47 t (by decide) (.inl (by decide)), h]
  rfl

theorem unescape_length (m : Mode) (n : Nat) : ∀ s r : Bytes, s.length ≤ n → unescape m s = some r →
    r.length ≤ s.length ∧ (37 ∈ s → r.length < s.length) := by
  induction n with
  | zero =>
    intro s r hs h
    cases s with
    | nil => cases h; simp
    | cons c s => simp at hs
  | succ n ih =>
    intro s r hs h
    cases s with
    | nil => cases h; simp
    | cons c s =>
      rw [unescape.eq_def] at h
      simp only at h
      simp only [List.length_cons] at hs
      split at h
      · next hc =>
        match s, h with
        | a :: b :: s, h =>
          simp only at h
          cases ha : unhex a <;> simp only [ha] at h
          · cases h
          cases hb : unhex b <;> simp only [hb] at h
          · cases h
          rw [Option.map_eq_some_iff] at h
          obtain ⟨r', h', rfl⟩ := h
          simp only [List.length_cons] at hs
          have := (ih s r' (by omega) h').1
          simp only [List.length_cons]
          exact ⟨by omega, fun _ => by omega⟩
        | [], h => cases h
        | [_], h => cases h
      · next hc =>
        rw [Option.map_eq_some_iff] at h
        obtain ⟨r', h', rfl⟩ := h
        have := ih s r' (by omega) h'
        simp only [List.length_cons, List.mem_cons]
        refine ⟨by omega, fun h => ?_⟩
        rcases h with h | h
        · exact absurd h.symm hc
        · have := this.2 h; omega

theorem unescape_self {s : Bytes} (h : unescape .query s = some s) : 37 ∉ s ∧ 43 ∉ s := by
  have h37 : 37 ∉ s := fun h' => Nat.lt_irrefl _ ((unescape_length .query _ s s (Nat.le_refl _) h).2 h')
  refine ⟨h37, ?_⟩
  induction s with
  | nil => simp
  | cons c s ih =>
    simp only [List.mem_cons, not_or] at h37
    rw [unescape.eq_def] at h
    simp only [Ne.symm h37.1, if_false] at h
    rw [Option.map_eq_some_iff] at h
    obtain ⟨r, hr, e⟩ := h
    simp only [List.cons.injEq] at e
    obtain ⟨e1, rfl⟩ := e
    simp only [List.mem_cons, not_or]
    refine ⟨?_, ih hr h37.2⟩
    rintro rfl
    simp at e1

theorem path_of_decoded {q : Bytes} :
    ((unescape .query (47 :: q)).map fun p => if 58 ∈ p then replaceB 47 92 (trimPrefix p [47]) else p) = some (47 :: q) ↔
      ∀ c ∈ (47 :: q : Bytes), c ∉ b!"+%:" := by
  have spec : (∀ c ∈ (47 :: q : Bytes), c ∉ b!"+%:") ↔ 37 ∉ (47 :: q : Bytes) ∧ 43 ∉ (47 :: q : Bytes) ∧ 58 ∉ (47 :: q : Bytes) := by
    constructor
    · intro h
      exact ⟨fun h' => h _ h' (by decide), fun h' => h _ h' (by decide), fun h' => h _ h' (by decide)⟩
    · rintro ⟨h1, h2, h3⟩ c hc he
      simp only [List.mem_cons, List.not_mem_nil, or_false] at he
      rcases he with rfl | rfl | rfl
      · exact h2 hc
      · exact h1 hc
      · exact h3 hc
  rw [spec]
  constructor
  · intro h
    rw [Option.map_eq_some_iff] at h
    obtain ⟨r, hr, e⟩ := h
    split at e
    · exfalso
      have : (47 : UInt8) ∈ replaceB 47 92 (trimPrefix r [47]) := by rw [e]; exact List.mem_cons_self ..
      unfold replaceB at this
      obtain ⟨c, -, hc⟩ := List.mem_map.1 this
      split at hc
      · exact absurd hc (by decide)
      · next hne => exact hne hc
    · next hne =>
      subst e
      have := unescape_self hr
      exact ⟨this.1, this.2, hne⟩
  · rintro ⟨h1, h2, h3⟩
    rw [unescape_none_plain h1 (.inl h2), Option.map_some, if_neg h3]

/-- C113: the server reads a file from the path that the editor's URI stands for, exactly if the path has none of the
characters `+`, `%` and `:`. -/
theorem C113_reads (q : Bytes) :
    uriToPath (editorURI (47 :: q)) = some (47 :: q) ↔ ∀ c ∈ (47 :: q : Bytes), c ∉ b!"+%:" := by
  obtain ⟨h1, h2, -⟩ := flatMap_plain editor_plain q
  rw [editorURI_cons, uriToPath_of h1 h2 (unescape_slash (unescape_editor .path q)), path_of_decoded]

/-- C113 for paths with a drive: `/c:/a/b` is the file `c:\a\b`. -/
theorem C113_drive (d : UInt8) (q : Bytes) (h : ∀ c ∈ d :: 58 :: q, c ∉ b!"+%") :
    uriToPath (editorURI (47 :: d :: 58 :: q)) = some ((d :: 58 :: q).map fun c => if c = 47 then 92 else c) := by
  obtain ⟨h1, h2, -⟩ := flatMap_plain editor_plain (d :: 58 :: q)
  have e1 : (37 : UInt8) ∉ 47 :: d :: 58 :: q := by
    intro hm
    rcases List.mem_cons.1 hm with hm | hm
    · exact absurd hm (by decide)
    · exact h _ hm (by decide)
  have e2 : (43 : UInt8) ∉ 47 :: d :: 58 :: q := by
    intro hm
    rcases List.mem_cons.1 hm with hm | hm
    · exact absurd hm (by decide)
    · exact h _ hm (by decide)
  rw [editorURI_cons, uriToPath_of h1 h2 (unescape_slash (unescape_editor .path _)), unescape_none_plain e1 (.inl e2),
    Option.map_some, if_pos (by simp)]
  simp [trimPrefix, replaceB]

/-! ### Files found in a directory -/

theorem flatMap_same {f g : UInt8 → Bytes} {q : Bytes} (h : ∀ c ∈ q, f c = g c) : q.flatMap f = q.flatMap g := by
  induction q with
  | nil => rfl
  | cons c q ih =>
    rw [List.flatMap_cons, List.flatMap_cons, h c (List.mem_cons_self ..), ih fun c hc => h c (List.mem_cons_of_mem _ hc)]

theorem mem_dropLast {α : Type} {l : List α} {x : α} (h : x ∈ l.dropLast) : x ∈ l := (List.dropLast_sublist l).subset h

theorem unescape_once (q : Bytes) : unescape .path (q.flatMap onceByte) = some q := by
  have := unescape_flatMap (m := .path) (f := onceByte) (g := fun c => [c]) q [] fun c _ s => by
    unfold onceByte
    split
    · next h => subst h; exact unescape_plain _ _ _ (by decide) (.inl (by decide))
    · exact unescape_editorByte _ c s
  rw [List.append_nil] at this
  rw [this]
  simp [unescape]

theorem unescape_path_byte (c : UInt8) (s : Bytes) :
    unescape .path (escapeByte .path c ++ s) = (unescape .path s).map ([c] ++ ·) := by
  rw [path_byte]
  split
  · next h =>
    refine unescape_plain _ _ _ ?_ (.inr (by decide))
    rintro rfl
    revert h
    decide
  · exact unescape_editorByte _ c s

theorem unescape_escape_path (q : Bytes) : unescape .path (escape .path q) = some q := by
  have := unescape_flatMap (m := .path) (f := escapeByte .path) (g := fun c => [c]) q [] fun c _ s => unescape_path_byte c s
  rw [List.append_nil] at this
  unfold escape
  rw [this]
  simp [unescape]

theorem valid_editorByte (c : UInt8) : validEncoded .path (editorByte c) = true := by
  refine forall_byte (P := fun c => validEncoded .path (editorByte c) = true) ?_ c
  decide +kernel

theorem validEncoded_flatMap (m : Mode) (f : UInt8 → Bytes) (q : Bytes) :
    validEncoded m (q.flatMap f) = q.all fun c => validEncoded m (f c) := by
  unfold validEncoded
  rw [List.all_flatMap]

theorem valid_once (q : Bytes) : validEncoded .path (47 :: q.flatMap onceByte) = true ↔ 32 ∉ q := by
  have : validEncoded .path (47 :: q.flatMap onceByte) = validEncoded .path (q.flatMap onceByte) := by
    unfold validEncoded
    rw [List.all_cons]
    simp [shouldEscape]
  rw [this, validEncoded_flatMap, List.all_eq_true]
  constructor
  · intro h hm
    have := h 32 hm
    revert this
    decide
  · intro h c hc
    unfold onceByte
    have hne : c ≠ 32 := fun e => h (e ▸ hc)
    rw [if_neg hne]
    exact valid_editorByte c

theorem once_editor {q : Bytes} (h : 32 ∉ q) : q.flatMap onceByte = q.flatMap editorByte := by
  refine flatMap_same fun c hc => ?_
  unfold onceByte
  have hne : c ≠ 32 := fun e => h (e ▸ hc)
  rw [if_neg hne]

theorem decode_listed {q : Bytes} (h1 : q.head? ≠ some 47) (h2 : q.getLast? ≠ some 47)
    (h3 : (q.takeWhile (· ≠ 47)).getLast? ≠ some 58) (h4 : 92 ∉ q) :
    decodeURIFromQuery (pathToURI (47 :: q)) =
      some (b!"file://" ++ if 32 ∈ q then escape .path (47 :: q) else 47 :: q.flatMap editorByte) := by
  obtain ⟨p1, p2, p3⟩ := flatMap_plain once_plain q
  unfold decodeURIFromQuery
  rw [pathToURI_listed h1 h2 h3 h4, decode_listed_query, Option.bind_some, urlParse_file p1 p2 p3,
    toBytes_setPath (unescape_slash (unescape_once q))]
  by_cases h : 32 ∈ q
  · rw [if_pos h, if_neg (fun h' => (valid_once q).1 h' h)]
  · rw [if_neg h, if_pos ((valid_once q).2 h), once_editor h]

theorem Listed.unfold {p : Bytes} (h : Listed p) : ∃ q : Bytes, p = 47 :: q ∧ q.head? ≠ some 47 ∧ q.getLast? ≠ some 47 ∧
    (q.takeWhile (· ≠ 47)).getLast? ≠ some 58 ∧ 92 ∉ q := by
  obtain ⟨q, rfl, h1, h2, h3⟩ := h.shape
  exact ⟨q, rfl, h1, h2, h3, fun hm => h.backslash (List.mem_cons_of_mem _ hm)⟩

theorem length_flatMap_le {f g : UInt8 → Bytes} {q : Bytes} (h : ∀ c ∈ q, (f c).length ≤ (g c).length) :
    (q.flatMap f).length ≤ (q.flatMap g).length := by
  induction q with
  | nil => simp
  | cons c q ih =>
    have := h c (List.mem_cons_self ..)
    have := ih fun c hc => h c (List.mem_cons_of_mem _ hc)
    simp only [List.flatMap_cons, List.length_append]
    omega

theorem length_flatMap_lt {f g : UInt8 → Bytes} {q : Bytes} (h : ∀ c ∈ q, (f c).length ≤ (g c).length) {d : UInt8}
    (hd : d ∈ q) (hlt : (f d).length < (g d).length) : (q.flatMap f).length < (q.flatMap g).length := by
  induction q with
  | nil => cases hd
  | cons c q ih =>
    have h0 := h c (List.mem_cons_self ..)
    have h1 := length_flatMap_le fun c hc => h c (List.mem_cons_of_mem _ hc)
    simp only [List.flatMap_cons, List.length_append]
    rcases List.mem_cons.1 hd with rfl | hd
    · omega
    · have := ih (fun c hc => h c (List.mem_cons_of_mem _ hc)) hd
      omega

theorem path_shorter (c : UInt8) : (escapeByte .path c).length ≤ (editorByte c).length ∧
    (kept c → (escapeByte .path c).length < (editorByte c).length) := by
  refine forall_byte (P := fun c => (escapeByte .path c).length ≤ (editorByte c).length ∧
    (kept c → (escapeByte .path c).length < (editorByte c).length)) ?_ c
  decide +kernel

/-- C114: a pass over a folder indexes a file under the URI that the editor uses for it, exactly if the path does not
have both a space and one of the characters `$&+,:;=@`. -/
theorem C114_same_uri (p : Bytes) (hp : Listed p) : decodeURIFromQuery (pathToURI p) = some (editorURI p) ↔
    ¬ (32 ∈ p ∧ ∃ c ∈ p, c ∈ b!"$&+,:;=@") := by
  obtain ⟨q, rfl, h1, h2, h3, h4⟩ := hp.unfold
  rw [decode_listed h1 h2 h3 h4, editorURI_cons, Option.some.injEq, List.append_cancel_left_eq]
  have e32 : 32 ∈ (47 :: q : Bytes) ↔ 32 ∈ q := by simp
  have ek : (∃ c ∈ (47 :: q : Bytes), c ∈ b!"$&+,:;=@") ↔ ∃ c ∈ q, kept c := by
    simp [kept]
  rw [e32, ek]
  by_cases h : 32 ∈ q
  · rw [if_pos h]
    have ec : escape .path (47 :: q) = 47 :: q.flatMap (escapeByte .path) := rfl
    rw [ec, List.cons_inj_right]
    constructor
    · rintro e ⟨-, c, hc, hk⟩
      have := length_flatMap_lt (fun c _ => (path_shorter c).1) hc ((path_shorter c).2 hk)
      rw [e] at this
      omega
    · intro hn
      refine flatMap_same fun c hc => ?_
      rw [path_byte, if_neg fun hk => hn ⟨h, c, hc, hk⟩]
  · simp [h]

theorem listed_path {q : Bytes} : ∃ t, (b!"file://" ++ if 32 ∈ q then escape .path (47 :: q) else 47 :: q.flatMap editorByte) =
    b!"file://" ++ 47 :: t ∧ unescape .path (47 :: t) = some (47 :: q) ∧ (∀ c ∈ t, isCtl c = false) ∧ 63 ∉ t := by
  by_cases h : 32 ∈ q
  · rw [if_pos h]
    refine ⟨q.flatMap (escapeByte .path), rfl, unescape_slash (unescape_escape_path q), ?_⟩
    have hb : ∀ c, ∀ d ∈ escapeByte .path c, isCtl d = false ∧ d ≠ 63 ∧ d ≠ 35 := by
      intro c
      refine forall_byte (P := fun c => ∀ d ∈ escapeByte .path c, isCtl d = false ∧ d ≠ 63 ∧ d ≠ 35) ?_ c
      decide +kernel
    have := flatMap_plain hb q
    exact ⟨this.1, this.2.1⟩
  · rw [if_neg h]
    have := flatMap_plain editor_plain q
    exact ⟨_, rfl, unescape_slash (unescape_editor .path q), this.1, this.2.1⟩

/-- C114: every file that a pass finds gets a URI, and it is read from where it was found, exactly if its path has none of
the characters `+`, `%` and `:`. -/
theorem C114_read_back (p : Bytes) (hp : Listed p) : ∃ uri, decodeURIFromQuery (pathToURI p) = some uri ∧
    (uriToPath uri = some p ↔ ∀ c ∈ p, c ∉ b!"+%:") := by
  obtain ⟨q, rfl, h1, h2, h3, h4⟩ := hp.unfold
  obtain ⟨t, e, hu, ht, h63⟩ := listed_path (q := q)
  refine ⟨_, decode_listed h1 h2 h3 h4, ?_⟩
  rw [e, uriToPath_of ht h63 hu, path_of_decoded]

/-- C114: different files get different URIs. -/
theorem C114_distinct (p p' : Bytes) (hp : Listed p) (hp' : Listed p')
    (h : decodeURIFromQuery (pathToURI p) = decodeURIFromQuery (pathToURI p')) : p = p' := by
  obtain ⟨q, rfl, h1, h2, h3, h4⟩ := hp.unfold
  obtain ⟨q', rfl, h1', h2', h3', h4'⟩ := hp'.unfold
  obtain ⟨t, e, hu, -, -⟩ := listed_path (q := q)
  obtain ⟨t', e', hu', -, -⟩ := listed_path (q := q')
  rw [decode_listed h1 h2 h3 h4, decode_listed h1' h2' h3' h4', Option.some.injEq, e, e', List.append_cancel_left_eq] at h
  rw [h, hu'] at hu
  exact (Option.some.inj hu).symm

/-! ### Files reported by the editor -/

theorem editor_of_plain {q : Bytes} (h : ∀ c ∈ q, ¬ kept c) : escape .path q = q.flatMap editorByte :=
  flatMap_same fun c hc => by rw [path_byte, if_neg (h c hc)]

theorem keeps_itself {c : UInt8} (h1 : c ∉ b!"!$&'()*+,:;=@[]?#%") (h2 : validEncoded .path [c] = true) :
    editorByte c = [c] := by
  revert h1 h2
  refine forall_byte (P := fun c => c ∉ b!"!$&'()*+,:;=@[]?#%" → validEncoded .path [c] = true → editorByte c = [c]) ?_ c
  decide +kernel

/-- C115: a file that the editor reports as created, changed or deleted is looked up under the URI that was reported, if
its path has no control characters and none of the characters `!$&'()*+,:;=@[]?#%`. -/
theorem C115_watched (q : Bytes) (h : ∀ c ∈ q, c ∉ b!"!$&'()*+,:;=@[]?#%" ∧ 32 ≤ c.toNat ∧ c.toNat ≠ 127) :
    decodeURIFromQuery (editorURI (47 :: q)) = some (editorURI (47 :: q)) := by
  have hn : ∀ x ∈ b!"!$&'()*+,:;=@[]?#%", x ∉ q := fun x hx hm => (h x hm).1 hx
  have hd : unescape .query (editorURI (47 :: q)) = some (b!"file://" ++ 47 :: q) := by
    rw [editorURI_cons, unescape_plains _ _ _ (by decide), unescape_slash (unescape_editor .query q)]
    rfl
  unfold decodeURIFromQuery
  rw [hd, Option.bind_some, urlParse_file (fun c hc => ?_) (hn 63 (by decide)) (hn 35 (by decide)),
    toBytes_setPath (unescape_slash (unescape_none_plain (hn 37 (by decide)) (.inr (by decide)))), editorURI_cons]
  · congr 2
    split
    · next hv =>
      congr 1
      unfold validEncoded at hv
      rw [List.all_cons, Bool.and_eq_true, List.all_eq_true] at hv
      conv => lhs; rw [← flatMap_single q]
      refine flatMap_same fun c hc => (keeps_itself (h c hc).1 ?_).symm
      unfold validEncoded
      rw [List.all_cons, List.all_nil, Bool.and_true]
      exact hv.2 c hc
    · change 47 :: escape .path q = _
      rw [editor_of_plain fun c hc hk => (h c hc).1 ?_]
      unfold kept at hk
      revert hk
      simp only [List.mem_cons, List.not_mem_nil, or_false]
      tauto
  · have := (h c hc).2
    simp only [isCtl, Bool.or_eq_false_iff, decide_eq_false_iff_not, Nat.not_lt, beq_eq_false_iff_ne]
    exact this

/-! ### The directory of an index -/

/-- C116: making the name of the directory for a folder's index fails exactly for a URI without a path. -/
theorem C116_no_panic (md5 : Bytes → Bytes) (uri : Bytes) :
    getURIID md5 uri = none ↔ ∃ u, urlParse uri = some u ∧ u.path = [] := by
  unfold getURIID
  cases hu : urlParse uri with
  | none => simp
  | some u =>
    simp only [Option.some.injEq, exists_eq_left']
    have key : ((if (splitB 47 u.path).getLast? = some [] then (splitB 47 u.path).dropLast else splitB 47 u.path).getLast? =
        none) ↔ u.path = [] := by
      constructor
      · intro h
        rw [List.getLast?_eq_none_iff] at h
        split at h
        · have hj := joinB_splitB 47 u.path
          next hl =>
          cases hs : splitB 47 u.path with
          | nil => exact absurd hs (splitB_ne_nil _ _)
          | cons a l =>
            cases l with
            | nil =>
              rw [hs] at hl hj
              simp only [List.getLast?_singleton, Option.some.injEq] at hl
              subst hl
              exact hj.symm
            | cons b l => rw [hs] at h; simp at h
        · exact absurd h (splitB_ne_nil _ _)
      · intro h
        rw [h]
        rfl
    rw [← key]
    split
    · next h => simp [h]
    · next h => simp [h]

/-- C116: the directory of a folder that the editor names by a file URI exists in this sense. -/
theorem C116_files (md5 : Bytes → Bytes) (q : Bytes) : (getURIID md5 (editorURI (47 :: q))).isSome := by
  obtain ⟨p1, p2, p3⟩ := flatMap_plain editor_plain q
  rw [Option.isSome_iff_ne_none]
  intro h
  obtain ⟨u, hu, he⟩ := (C116_no_panic md5 _).1 h
  rw [editorURI_cons, urlParse_file p1 p2 p3] at hu
  unfold Url.setPath at hu
  rw [unescape_slash (unescape_editor .path q), Option.map_some, Option.some.injEq] at hu
  subst hu
  cases he

/-- C116: folders share a directory only if the first eight digits of their hashes agree. -/
theorem C116_distinct (md5 : Bytes → Bytes) (hm : ∀ s, (md5 s).length = 32) (uri uri' id : Bytes)
    (hu : (urlParse uri).isSome) (hu' : (urlParse uri').isSome) (h : getURIID md5 uri = some id)
    (h' : getURIID md5 uri' = some id) : (md5 uri).take 8 = (md5 uri').take 8 := by
  have key : ∀ v, (urlParse v).isSome → getURIID md5 v = some id → ∃ x, id = x ++ (md5 v).take 8 := by
    intro v hv h
    unfold getURIID at h
    cases hp : urlParse v with
    | none => rw [hp] at hv; cases hv
    | some u =>
      simp only [hp] at h
      split at h
      · cases h
      · exact ⟨_, (Option.some.inj h).symm⟩
  obtain ⟨x, hx⟩ := key uri hu h
  obtain ⟨y, hy⟩ := key uri' hu' h'
  rw [hx] at hy
  exact (List.append_inj' hy (by simp [hm])).2

theorem firstRune_slash {part : Bytes} (h : 47 ∉ part) : 47 ∉ firstRune part := by
  unfold firstRune
  simp only
  split
  · decide
  · exact fun hm => h (List.mem_of_mem_take hm)

/-- C116: the name is one component of a path: it has no slash, and it is neither `.` nor `..`. -/
theorem C116_component (md5 : Bytes → Bytes) (hm : ∀ s, (md5 s).length = 32 ∧ ∀ c ∈ md5 s, isAlnum c) (uri id : Bytes)
    (h : getURIID md5 uri = some id) : 47 ∉ id ∧ id ≠ b!"." ∧ id ≠ b!".." ∧ id ≠ [] := by
  have hmd : ∀ s, 47 ∉ md5 s := fun s hs => by have := (hm s).2 _ hs; revert this; decide
  unfold getURIID at h
  cases hp : urlParse uri with
  | none =>
    simp only [hp, Option.some.injEq] at h
    subst h
    have := (hm uri).1
    refine ⟨hmd uri, ?_, ?_, ?_⟩ <;> intro e <;> rw [e] at this <;> simp at this
  | some u =>
    simp only [hp] at h
    split at h
    · cases h
    · next last hl =>
      simp only [Option.some.injEq] at h
      subst h
      have hmem : ∀ p ∈ (if (splitB 47 u.path).getLast? = some [] then (splitB 47 u.path).dropLast else splitB 47 u.path),
          47 ∉ p := by
        intro p hp
        refine splitB_no_sep 47 u.path p ?_
        split at hp
        · exact mem_dropLast hp
        · exact hp
      refine ⟨?_, ?_, ?_, ?_⟩
      · simp only [List.mem_append, List.mem_singleton, not_or]
        refine ⟨⟨⟨⟨hmem last (List.mem_of_getLast? hl), by decide⟩, ?_⟩, by decide⟩, fun hm => hmd uri (List.mem_of_mem_take hm)⟩
        intro hf
        obtain ⟨p, hp, hf⟩ := List.mem_flatMap.1 hf
        have hp' := hmem p (mem_dropLast (mem_dropLast hp))
        split at hf
        · cases hf
        · exact firstRune_slash hp' hf
      all_goals
        intro e
        have := congrArg (List.count 45) e
        simp at this

/-! ### Examples and witnesses -/

/-- `C113_reads`, `C115_watched`: a path with a space and a letter of two bytes. -/
example : editorURI b!"/w/a b/é.php" = b!"file:///w/a%20b/%C3%A9.php" ∧
    uriToPath b!"file:///w/a%20b/%C3%A9.php" = some b!"/w/a b/é.php" ∧
    decodeURIFromQuery b!"file:///w/a%20b/%C3%A9.php" = some b!"file:///w/a%20b/%C3%A9.php" := by decide +kernel

/-- `C113_drive`. -/
example : uriToPath b!"file:///c%3A/w/a.php" = some b!"c:\\w\\a.php" := by decide +kernel

/-- `C114_same_uri`, `C114_read_back`. -/
example : Listed b!"/w/a b/é(1).php" ∧ decodeURIFromQuery (pathToURI b!"/w/a b/é(1).php") =
    some b!"file:///w/a%20b/%C3%A9%281%29.php" := by
  refine ⟨⟨⟨b!"w/a b/é(1).php", rfl, ?_⟩, ?_⟩, ?_⟩ <;> decide +kernel

/-- C113: a plus sign in the URI of the editor is read as a space: another file is read. -/
theorem C113_needs_plain : uriToPath (editorURI b!"/w/a+b.php") = some b!"/w/a b.php" ∧
    uriToPath (editorURI b!"/w/100%.php") = none ∧ uriToPath (editorURI b!"/w/10:30.php") = some b!"w\\10:30.php" := by
  decide +kernel

/-- C114: a path with a space and a plus sign: the file is indexed under another URI than the editor's. -/
theorem C114_needs_no_space : decodeURIFromQuery (pathToURI b!"/w/a b/c@d.php") = some b!"file:///w/a%20b/c@d.php" ∧
    editorURI b!"/w/a b/c@d.php" = b!"file:///w/a%20b/c%40d.php" := by decide +kernel

/-- C114: with a drive, no file of the folder that the editor has opened has the folder's URI as a prefix. -/
theorem C114_needs_no_drive : decodeURIFromQuery (pathToURI b!"c:\\w\\a.php") = some b!"file:///c:/w/a.php" ∧
    editorURI b!"/c:/w" = b!"file:///c%3A/w" ∧ (editorURI b!"/c:/w").isPrefixOf b!"file:///c:/w/a.php" = false := by
  decide +kernel

/-- C115: a file whose name has parentheses is indexed under one URI by a pass and under another when the editor reports
that it has changed; the report for a name with a percent sign fails; that for a name with a question mark reaches
another file. -/
theorem C115_needs_plain :
    decodeURIFromQuery (pathToURI b!"/w/a(1).php") = some b!"file:///w/a%281%29.php" ∧
    decodeURIFromQuery (editorURI b!"/w/a(1).php") = some b!"file:///w/a(1).php" ∧
    decodeURIFromQuery (editorURI b!"/w/100%.php") = none ∧
    (decodeURIFromQuery (editorURI b!"/w/a.php?.php")).bind uriToPath = some b!"/w/a.php" := by decide +kernel

/-- C116: the directory for a folder, and the URI `file://`. -/
example : getURIID (fun _ => b!"0123456789abcdef0123456789abcdef") b!"file:///home/joe/work/proj" = some b!"proj-hj-01234567" ∧
    getURIID (fun _ => b!"0123456789abcdef0123456789abcdef") b!"file://" = none := by decide +kernel

end Verif.Uri
