import Verif.Whole.Folder
import Verif.Store.PropsOpen
import Verif.Uri.PropsUri
import Verif.Common.Tactics

/-! C134: which files of a folder are in the index after it was opened. -/

namespace Verif.Whole

open Verif.Encoding Verif.Storage Verif.Store
open Verif.Uri (editorURI Listed)

variable {env : Env} {root : Bytes} {h : List HOp} {s : Store}

/-! ### what is said about the disk -/

/-- The path of the file that is reached from the root directory through these names. -/
def pathOf (ns : List Bytes) : Bytes := ns.flatMap (47 :: ·)

mutual

/-- The entries of each directory have different names, which are not empty and have no slash. -/
def Entry.Proper : Entry → Prop
  | .file _ => True
  | .dir kids => kids.Proper

def Kids.Proper : Kids → Prop
  | .nil => True
  | .cons n e rest => n ≠ [] ∧ 47 ∉ n ∧ rest.get n = none ∧ e.Proper ∧ rest.Proper

end

/-- The disk has a file at the end of these names whose name ends in `.php`. -/
def PhpFile (disk : Entry) (ns : List Bytes) (content : Option Bytes) : Prop :=
  disk.at_ ns = some (.file content) ∧ b!".php" <:+ pathOf ns

/-- The path has none of the characters that the URIs of this server cannot carry (C113, C114). -/
def PlainPath (path : Bytes) : Prop :=
  (∀ c ∈ path, c ∉ b!"+%:\\") ∧ ¬ (32 ∈ path ∧ ∃ c ∈ path, c ∈ b!"$&,;=@")

instance (path : Bytes) : Decidable (PlainPath path) := by unfold PlainPath; infer_instance

/-! ### walking through a directory -/

theorem nodup_of_inj {α β} {f : α → β} {l : List α} (H : ∀ a ∈ l, ∀ b ∈ l, f a = f b → a = b) (hl : l.Nodup) :
    (l.map f).Nodup := by
  rw [List.Nodup, List.pairwise_map]
  exact List.Pairwise.imp_of_mem (fun ha hb hab e => hab (H _ ha _ hb e)) hl

theorem filterMap_same {α β} {f g : α → Option β} {l : List α} (H : ∀ a ∈ l, f a = g a) : l.filterMap f = l.filterMap g := by
  induction l with
  | nil => rfl
  | cons a l ih =>
    rw [List.filterMap_cons, List.filterMap_cons, H a (by simp), ih fun x hx => H x (by simp [hx])]

theorem kids_get_proper : ∀ {ks : Kids} {n : Bytes} {e : Entry}, ks.Proper → ks.get n = some e → n ≠ [] ∧ 47 ∉ n ∧ e.Proper
  | .nil, _, _, _, h => by simp [Kids.get] at h
  | .cons m x rest, n, e, hp, h => by
    rw [Kids.get] at h
    obtain ⟨h1, h2, -, h3, h4⟩ := hp
    split at h
    · rename_i hm; subst hm; cases h; exact ⟨h1, h2, h3⟩
    · exact kids_get_proper h4 h

theorem at_proper {e x : Entry} {ns : List Bytes} (hp : e.Proper) (h : e.at_ ns = some x) :
    x.Proper ∧ ∀ n ∈ ns, n ≠ [] ∧ 47 ∉ n := by
  induction ns generalizing e with
  | nil =>
    have : e = x := by cases e <;> simpa [Entry.at_] using h
    subst this
    exact ⟨hp, by simp⟩
  | cons n ns ih =>
    cases e with
    | file _ => simp [Entry.at_] at h
    | dir ks =>
      rw [Entry.at_, Option.bind_eq_some_iff] at h
      obtain ⟨e', h1, h2⟩ := h
      obtain ⟨a, b, c⟩ := kids_get_proper hp h1
      obtain ⟨d, f⟩ := ih c h2
      exact ⟨d, by simp only [List.forall_mem_cons]; exact ⟨⟨a, b⟩, f⟩⟩

theorem at_nil (e : Entry) : e.at_ [] = some e := by cases e <;> rfl

theorem at_append (e : Entry) (a b : List Bytes) : e.at_ (a ++ b) = (e.at_ a).bind fun x => x.at_ b := by
  induction a generalizing e with
  | nil => rw [at_nil]; rfl
  | cons n ns ih =>
    cases e with
    | file _ => rfl
    | dir ks =>
      rw [List.cons_append, Entry.at_, Entry.at_, Option.bind_assoc]
      congr 1
      funext x
      exact ih x

mutual

/-- The names through which the files are reached, in the order of the walk. -/
def namesEntry : Entry → List (List Bytes)
  | .file _ => [[]]
  | .dir kids => namesKids kids

def namesKids : Kids → List (List Bytes)
  | .nil => []
  | .cons n e rest => (namesEntry e).map (n :: ·) ++ namesKids rest

end

mutual

theorem list_names : ∀ (e : Entry) (path : Bytes), listEntry path e = (namesEntry e).map fun ns => path ++ pathOf ns
  | .file _, path => by simp [listEntry, namesEntry, pathOf]
  | .dir ks, path => by rw [listEntry, namesEntry]; exact kids_names ks path

theorem kids_names : ∀ (ks : Kids) (path : Bytes), listKids path ks = (namesKids ks).map fun ns => path ++ pathOf ns
  | .nil, _ => rfl
  | .cons n e rest, path => by
    rw [listKids, namesKids, List.map_append, List.map_map, list_names e, kids_names rest]
    congr 1
    apply List.map_congr_left
    intro ns _
    simp [pathOf]

end

mutual

theorem mem_names : ∀ (e : Entry), e.Proper → ∀ ns, ns ∈ namesEntry e ↔ ∃ c, e.at_ ns = some (.file c)
  | .file c, _, ns => by
    cases ns with
    | nil => simp [namesEntry, Entry.at_]
    | cons n ns => simp [namesEntry, Entry.at_]
  | .dir ks, hp, ns => by
    rw [namesEntry, mem_kids ks hp]
    cases ns with
    | nil => simp [Entry.at_]
    | cons n ns =>
      simp only [Entry.at_, Option.bind_eq_some_iff, List.cons.injEq]
      constructor
      · rintro ⟨_, _, e, c, ⟨rfl, rfl⟩, h1, h2⟩; exact ⟨c, e, h1, h2⟩
      · rintro ⟨c, e, h1, h2⟩; exact ⟨_, _, e, c, ⟨rfl, rfl⟩, h1, h2⟩

theorem mem_kids : ∀ (ks : Kids), ks.Proper → ∀ ns, ns ∈ namesKids ks ↔
    ∃ n rest e c, ns = n :: rest ∧ ks.get n = some e ∧ e.at_ rest = some (.file c)
  | .nil, _, ns => by simp [namesKids, Kids.get]
  | .cons m x r, hp, ns => by
    obtain ⟨-, -, hf, hx, hr⟩ := hp
    rw [namesKids, List.mem_append, mem_kids r hr, List.mem_map]
    constructor
    · rintro (⟨rest, h, rfl⟩ | ⟨n, rest, e, c, rfl, h1, h2⟩)
      · obtain ⟨c, hc⟩ := (mem_names x hx rest).mp h
        exact ⟨m, rest, x, c, rfl, by simp [Kids.get], hc⟩
      · refine ⟨n, rest, e, c, rfl, ?_, h2⟩
        rw [Kids.get, if_neg]
        · exact h1
        · rintro rfl; rw [hf] at h1; cases h1
    · rintro ⟨n, rest, e, c, rfl, h1, h2⟩
      rw [Kids.get] at h1
      split at h1
      · rename_i hm; subst hm; cases h1
        exact .inl ⟨rest, (mem_names _ hx rest).mpr ⟨c, h2⟩, rfl⟩
      · exact .inr ⟨n, rest, e, c, rfl, h1, h2⟩

end

mutual

theorem nodup_names : ∀ (e : Entry), e.Proper → (namesEntry e).Nodup
  | .file _, _ => by simp [namesEntry]
  | .dir ks, hp => by rw [namesEntry]; exact nodup_kids ks hp

theorem nodup_kids : ∀ (ks : Kids), ks.Proper → (namesKids ks).Nodup
  | .nil, _ => by simp [namesKids]
  | .cons n e rest, hp => by
    obtain ⟨-, -, hf, he, hr⟩ := hp
    rw [namesKids]
    refine List.nodup_append.mpr ⟨nodup_of_inj (fun a _ b _ hab => (List.cons.inj hab).2) (nodup_names e he),
      nodup_kids rest hr, ?_⟩
    intro a ha b hb hab
    subst hab
    obtain ⟨x, -, rfl⟩ := List.mem_map.mp ha
    obtain ⟨m, _, y, _, e1, h1, -⟩ := (mem_kids rest hr _).mp hb
    rw [← (List.cons.inj e1).1, hf] at h1
    cases h1

end

theorem split_pathOf {ns : List Bytes} (hne : ns ≠ []) (h : ∀ n ∈ ns, 47 ∉ n) : splitB 47 ((pathOf ns).drop 1) = ns := by
  induction ns with
  | nil => exact absurd rfl hne
  | cons n ns ih =>
    have e : (pathOf (n :: ns)).drop 1 = n ++ pathOf ns := rfl
    rw [e]
    cases ns with
    | nil => simpa [pathOf] using splitB_of_no_sep 47 n (h n (by simp))
    | cons m ns =>
      have e2 : pathOf (m :: ns) = 47 :: (pathOf (m :: ns)).drop 1 := rfl
      rw [e2, splitB_append _ _ _ (h n (by simp)), ih (by simp) fun x hx => h x (by simp [hx])]

theorem pathOf_inj {a b : List Bytes} (ha : ∀ n ∈ a, 47 ∉ n) (hb : ∀ n ∈ b, 47 ∉ n) (e : pathOf a = pathOf b) : a = b := by
  cases a with
  | nil =>
    cases b with
    | nil => rfl
    | cons _ _ => cases e
  | cons x a =>
    cases b with
    | nil => cases e
    | cons y b => rw [← split_pathOf (by simp) ha, ← split_pathOf (by simp) hb, e]

theorem look_pathOf {disk : Entry} {ns : List Bytes} (hne : ns ≠ []) (h : ∀ n ∈ ns, 47 ∉ n) :
    look disk (pathOf ns) = disk.at_ ns := by unfold look; rw [split_pathOf hne h]

theorem pathOf_append (a b : List Bytes) : pathOf (a ++ b) = pathOf a ++ pathOf b := List.flatMap_append ..

/-- C134: what is found in a folder: exactly the files in it, at any depth, each once. -/
theorem C134_found {disk : Entry} (hp : disk.Proper) {bs : List Bytes} (hb : bs ≠ []) {e : Entry}
    (he : disk.at_ bs = some e) : ∃ l, listFiles disk (pathOf bs) = some l ∧ l.Nodup ∧
      ∀ p, p ∈ l ↔ ∃ ns c, disk.at_ (bs ++ ns) = some (.file c) ∧ p = pathOf (bs ++ ns) := by
  obtain ⟨hep, hbn⟩ := at_proper hp he
  refine ⟨listEntry (pathOf bs) e, ?_, ?_, ?_⟩
  · unfold listFiles
    rw [look_pathOf hb fun n hn => (hbn n hn).2, he]
    rfl
  · rw [list_names]
    refine nodup_of_inj ?_ (nodup_names e hep)
    intro a ha b hb hab
    obtain ⟨ca, hca⟩ := (mem_names e hep a).mp ha
    obtain ⟨cb, hcb⟩ := (mem_names e hep b).mp hb
    exact pathOf_inj (fun n hn => ((at_proper hep hca).2 n hn).2) (fun n hn => ((at_proper hep hcb).2 n hn).2)
      (List.append_cancel_left hab)
  · intro p
    rw [list_names, List.mem_map]
    constructor
    · rintro ⟨ns, hns, rfl⟩
      obtain ⟨c, hc⟩ := (mem_names e hep ns).mp hns
      exact ⟨ns, c, by rw [at_append, he]; exact hc, (pathOf_append _ _).symm⟩
    · rintro ⟨ns, c, hc, rfl⟩
      rw [at_append, he] at hc
      exact ⟨ns, (mem_names e hep ns).mpr ⟨c, hc⟩, (pathOf_append _ _).symm⟩

/-! ### from the files to the index -/

theorem listed_pathOf {ns : List Bytes} (hne : ns ≠ []) (h : ∀ n ∈ ns, n ≠ [] ∧ 47 ∉ n) (hc : ∀ n ∈ ns.head?, 58 ∉ n)
    (hb : 92 ∉ pathOf ns) : Listed (pathOf ns) where
  backslash := hb
  shape := by
    refine ⟨(pathOf ns).drop 1, ?_, ?_, ?_, ?_⟩
    · cases ns with
      | nil => exact absurd rfl hne
      | cons n ns => rfl
    · cases ns with
      | nil => exact absurd rfl hne
      | cons n ns =>
        obtain ⟨h1, h2⟩ := h n (by simp)
        cases n with
        | nil => exact absurd rfl h1
        | cons c n =>
          have : (pathOf ((c :: n) :: ns)).drop 1 = c :: (n ++ pathOf ns) := rfl
          rw [this, List.head?_cons]
          intro e
          cases e
          exact h2 (by simp)
    · rcases List.eq_nil_or_concat ns with rfl | ⟨init, m, rfl⟩
      · exact absurd rfl hne
      · obtain ⟨h1, h2⟩ := h m (by simp)
        rw [List.concat_eq_append, pathOf_append]
        have e1 : (pathOf init ++ pathOf [m]).drop 1 <:+ pathOf init ++ pathOf [m] := List.drop_suffix _ _
        have e2 : m <:+ (pathOf init ++ pathOf [m]).drop 1 := by
          cases init with
          | nil => simp [pathOf]
          | cons x init => exact ⟨x ++ pathOf init ++ [47], by simp [pathOf]⟩
        obtain ⟨pre, e3⟩ := e2
        rw [← e3, List.getLast?_append]
        cases hm : m.getLast? with
        | none => exact absurd (List.getLast?_eq_none_iff.mp hm) h1
        | some x =>
          rw [Option.some_or]
          intro e
          cases e
          exact h2 (List.mem_of_getLast? hm)
    · cases ns with
      | nil => exact absurd rfl hne
      | cons n ns =>
        have : ((pathOf (n :: ns)).drop 1).takeWhile (· ≠ 47) = n := by
          have e : (pathOf (n :: ns)).drop 1 = n ++ pathOf ns := rfl
          have hn : ∀ c ∈ n, (decide (c ≠ 47)) = true := by
            intro c hc
            have := (h n (by simp)).2
            simp only [ne_eq, decide_not, Bool.not_eq_true', decide_eq_false_iff_not]
            rintro rfl
            exact this hc
          rw [e, List.takeWhile_append_of_pos hn]
          cases ns with
          | nil => simp [pathOf]
          | cons m ns => simp [pathOf]
        rw [this]
        intro e
        exact hc n (by simp) (List.mem_of_getLast? e)

/-- The documents of the files of a folder. -/
def FolderDoc (disk : Entry) (load : Bytes → Bytes → Doc) (bs : List Bytes) (d : Doc) : Prop :=
  ∃ ns c, PhpFile disk (bs ++ ns) (some c) ∧ d = load (editorURI (pathOf (bs ++ ns))) c

theorem plain_colon {bs : List Bytes} (h : PlainPath (pathOf bs)) : ∀ n ∈ bs, 58 ∉ n := by
  intro n hn hm
  exact h.1 58 (List.mem_flatMap.mpr ⟨n, hn, List.mem_cons_of_mem _ hm⟩) (by decide)

/-- The documents that are compared with the index are those of the PHP files of the folder. -/
theorem documents_folder {disk : Entry} (hp : disk.Proper) {bs : List Bytes} (hb : bs ≠ []) {e : Entry}
    (he : disk.at_ bs = some e) (load : Bytes → Bytes → Doc) (hload : ∀ u c, (load u c).uri = u)
    (hplain : ∀ ns c, PhpFile disk (bs ++ ns) c → PlainPath (pathOf (bs ++ ns))) (w : Server.WS)
    (hw : editorURI (pathOf bs) ∈ w.stores)
    (hother : ∀ f ∈ w.stores, f ≠ editorURI (pathOf bs) → ¬ f <+: editorURI (pathOf bs) ∧ ¬ editorURI (pathOf bs) <+: f) :
    ∃ l, listFiles disk (pathOf bs) = some l ∧
      (∀ d, d ∈ documents disk load ((jobs l).filterMap (routed w (editorURI (pathOf bs)))) ↔ FolderDoc disk load bs d) ∧
      ((documents disk load ((jobs l).filterMap (routed w (editorURI (pathOf bs))))).map Doc.uri).Nodup := by
  obtain ⟨l, hl, hnd, hmem⟩ := C134_found hp hb he
  -- what happens to one of the paths
  have one : ∀ p ∈ l, b!".php" <:+ p → ∃ ns c, p = pathOf (bs ++ ns) ∧ PhpFile disk (bs ++ ns) c ∧ Listed p ∧
      Uri.decodeURIFromQuery (Uri.pathToURI p) = some (editorURI p) ∧
      routed w (editorURI (pathOf bs)) (Uri.pathToURI p) = some (editorURI p) ∧
      Uri.uriToPath (editorURI p) = some p ∧ readFile disk p = c := by
    intro p hpl hs
    obtain ⟨ns, c, hc, rfl⟩ := (hmem p).mp hpl
    have hphp : PhpFile disk (bs ++ ns) c := ⟨hc, hs⟩
    have hpn := hplain ns c hphp
    have hnames := (at_proper hp hc).2
    have hne : bs ++ ns ≠ [] := by simp [hb]
    have hli : Listed (pathOf (bs ++ ns)) := listed_pathOf hne hnames
      (fun n hn => plain_colon hpn n (List.mem_of_mem_head? hn)) fun hm => hpn.1 92 hm (by decide)
    have hdec : Uri.decodeURIFromQuery (Uri.pathToURI (pathOf (bs ++ ns))) = some (editorURI (pathOf (bs ++ ns))) := by
      refine (Uri.C114_same_uri _ hli).mpr ?_
      rintro ⟨h1, x, hx, h2⟩
      refine hpn.2 ⟨h1, x, hx, ?_⟩
      have := hpn.1 x hx
      simp only [List.mem_cons, List.not_mem_nil, or_false] at h2 this ⊢
      tauto
    obtain ⟨q, hq⟩ : ∃ q, pathOf (bs ++ ns) = 47 :: q := by
      obtain ⟨q, hq, -⟩ := hli.shape
      exact ⟨q, hq⟩
    refine ⟨ns, c, rfl, hphp, hli, hdec, ?_, ?_, ?_⟩
    · unfold routed
      rw [hdec, Option.filter_some, if_pos]
      simp only [decide_eq_true_eq]
      have hpre : editorURI (pathOf bs) <+: editorURI (pathOf (bs ++ ns)) := by
        rw [pathOf_append]
        unfold editorURI
        rw [List.flatMap_append, ← List.append_assoc]
        exact List.prefix_append _ _
      unfold Server.WS.getStore
      rw [List.find?_eq_some_iff_append]
      obtain ⟨l1, l2, hsplit, hnot⟩ := List.eq_append_cons_of_mem hw
      refine ⟨by simpa using hpre, l1, l2, hsplit, ?_⟩
      intro f hf
      have hfm : f ∈ w.stores := by rw [hsplit]; simp [hf]
      have hfn : f ≠ editorURI (pathOf bs) := fun e => hnot (e ▸ hf)
      simp only [List.isPrefixOf_iff_prefix, Bool.not_eq_true', Bool.eq_false_iff, ne_eq]
      intro hfp
      rcases List.prefix_or_prefix_of_prefix hfp hpre with h1 | h1
      · exact (hother f hfm hfn).1 h1
      · exact (hother f hfm hfn).2 h1
    · rw [hq]
      refine (Uri.C113_reads q).mpr ?_
      rw [← hq]
      intro x hx hm
      refine hpn.1 x hx ?_
      simp only [List.mem_cons, List.not_mem_nil, or_false] at hm ⊢
      tauto
    · unfold readFile
      rw [look_pathOf hne fun n hn => (hnames n hn).2, hc]
  have huris : (jobs l).filterMap (routed w (editorURI (pathOf bs))) =
      (l.filter fun p => (b!".php").isSuffixOf p).map editorURI := by
    unfold jobs
    rw [List.filterMap_map, ← List.filterMap_eq_map]
    refine filterMap_same fun p hpm => ?_
    obtain ⟨hm, hs⟩ := List.mem_filter.mp hpm
    obtain ⟨_, _, _, _, _, _, hr, _⟩ := one p hm (by simpa using hs)
    exact hr
  refine ⟨l, hl, ?_, ?_⟩
  · intro d
    rw [huris]
    simp only [documents, List.mem_filterMap, List.mem_map, List.mem_filter, List.isSuffixOf_iff_suffix]
    constructor
    · rintro ⟨u, ⟨p, ⟨hm, hs⟩, rfl⟩, hd⟩
      obtain ⟨ns, c, rfl, hphp, -, -, -, hu, hr⟩ := one p hm hs
      rw [hu, Option.bind_some, hr] at hd
      cases c with
      | none => cases hd
      | some c => exact ⟨ns, c, hphp, (Option.some.inj hd).symm⟩
    · rintro ⟨ns, c, hphp, rfl⟩
      have hm : pathOf (bs ++ ns) ∈ l := (hmem _).mpr ⟨ns, _, hphp.1, rfl⟩
      obtain ⟨ns', c', e1, hphp', -, -, -, hu, hr⟩ := one _ hm hphp.2
      have : c' = some c := by
        have := pathOf_inj (fun n hn => ((at_proper hp hphp.1).2 n hn).2) (fun n hn => ((at_proper hp hphp'.1).2 n hn).2) e1
        have h2 := hphp'.1
        rw [← this, hphp.1] at h2
        cases h2
        rfl
      refine ⟨_, ⟨_, ⟨hm, hphp.2⟩, rfl⟩, ?_⟩
      rw [hu, Option.bind_some, hr, this]
      rfl
  · rw [huris]
    unfold documents
    rw [List.filterMap_map, List.Nodup, List.pairwise_map, List.pairwise_filterMap]
    refine List.Pairwise.imp_of_mem ?_ (hnd.filter _)
    intro p p' hpm hpm' hne d hd d' hd' e
    obtain ⟨hm, hs⟩ := List.mem_filter.mp hpm
    obtain ⟨hm', hs'⟩ := List.mem_filter.mp hpm'
    obtain ⟨_, c, _, _, hli, hdec, _, hu, hr⟩ := one p hm (by simpa using hs)
    obtain ⟨_, c', _, _, hli', hdec', _, hu', hr'⟩ := one p' hm' (by simpa using hs')
    obtain ⟨x, -, rfl⟩ := Option.map_eq_some_iff.mp hd
    obtain ⟨x', -, rfl⟩ := Option.map_eq_some_iff.mp hd'
    rw [hload, hload] at e
    exact hne (Uri.C114_distinct p p' hli hli' (by rw [hdec, hdec', e]))

/-- C134: whatever happened to the index before, opening a folder of the disk succeeds, and afterwards the index is the one
of a history after which the files known are exactly the files of the folder, at any depth, whose names end in `.php`
and that can be read, each under the URI that the editor uses for it and with the content it has on the disk. -/
theorem C134_open (he : EnvOK env) (older : Bytes → Option Bool) (version : Bytes) (stubs : List Doc) (w : Server.WS)
    {disk : Entry} (hp : disk.Proper) {bs : List Bytes} (hb : bs ≠ []) {e : Entry} (hat : disk.at_ bs = some e)
    (load : Bytes → Bytes → Doc) (hload : ∀ u c, (load u c).uri = u) (hbase : PlainPath (pathOf bs))
    (hplain : ∀ ns c, PhpFile disk (bs ++ ns) c → PlainPath (pathOf (bs ++ ns)))
    (hw : editorURI (pathOf bs) ∈ w.stores)
    (hother : ∀ f ∈ w.stores, f ≠ editorURI (pathOf bs) → ¬ f <+: editorURI (pathOf bs) ∧ ¬ editorURI (pathOf bs) <+: f)
    (hok : ∀ files, (∀ d ∈ files, FolderDoc disk load bs d) → HistOK env (h ++ (stubs ++ files).map .index))
    (hs : run env root h = some s) (hn : (stubs.map Doc.uri).Nodup) (hst : ∀ d ∈ stubs, ¬ OnDisk d.uri)
    (hhash : ∀ d1 d2, (d1 ∈ docs h ∨ d1 ∈ stubs ∨ FolderDoc disk load bs d1) → (d2 ∈ stubs ∨ FolderDoc disk load bs d2) →
      d1.uri = d2.uri → d1.hash = d2.hash → d1 = d2) :
    ∃ s' h', openFromDisk env older version stubs w disk load (editorURI (pathOf bs)) s = some s' ∧
      run env root h' = some s' ∧ HistOK env h' ∧
      (∀ u d, OnDisk u → (latest h' u = some d ↔
        ∃ ns c, PhpFile disk (bs ++ ns) (some c) ∧ u = editorURI (pathOf (bs ++ ns)) ∧ d = load u c)) ∧
      (∀ d ∈ stubs, latest h' d.uri = some d) ∧
      (∀ u, ¬ OnDisk u → u ∉ stubs.map Doc.uri →
        latest h' u = if older s.version = some true then none else latest h u) := by
  obtain ⟨l, hl, hmem, hnd⟩ := documents_folder hp hb hat load hload hplain w hw hother
  have hdisk : ∀ p, OnDisk (editorURI p) := fun p => List.prefix_append _ _
  have hf : ∀ d, FolderDoc disk load bs d → OnDisk d.uri := by
    rintro d ⟨ns, c, -, rfl⟩
    rw [hload]
    exact hdisk _
  obtain ⟨s', h', h1, h2, h3, h4, h5, h6⟩ := C129_open he older version stubs _ (hok _ fun d hd => (hmem d).mp hd) hs hn hnd
    hst (fun d hd => hf d ((hmem d).mp hd)) (by
      intro d1 d2 m1 m2 e1 e2
      refine hhash d1 d2 ?_ ?_ e1 e2
      · rcases m1 with m | m | m
        · exact .inl m
        · exact .inr (.inl m)
        · exact .inr (.inr ((hmem _).mp m))
      · rcases List.mem_append.mp m2 with m | m
        · exact .inl m
        · exact .inr ((hmem _).mp m))
  refine ⟨s', h', ?_, h2, h3, ?_, fun d hd => h4 d (List.mem_append_left _ hd), h6⟩
  · obtain ⟨q, hq⟩ : ∃ q, pathOf bs = 47 :: q := by
      cases bs with
      | nil => exact absurd rfl hb
      | cons n ns => exact ⟨_, rfl⟩
    have hread : Uri.uriToPath (editorURI (pathOf bs)) = some (pathOf bs) := by
      rw [hq]
      refine (Uri.C113_reads q).mpr ?_
      rw [← hq]
      intro x hx hm
      refine hbase.1 x hx ?_
      simp only [List.mem_cons, List.not_mem_nil, or_false] at hm ⊢
      tauto
    unfold openFromDisk
    rw [hread, Option.bind_some, hl, Option.bind_some]
    exact h1
  · intro u d hu
    constructor
    · intro hd
      by_cases hm : u ∈ (documents disk load ((jobs l).filterMap (routed w (editorURI (pathOf bs))))).map Doc.uri
      · obtain ⟨d', hd', rfl⟩ := List.mem_map.mp hm
        rw [h4 d' (List.mem_append_right _ hd')] at hd
        cases hd
        obtain ⟨ns, c, hphp, rfl⟩ := (hmem _).mp hd'
        exact ⟨ns, c, hphp, hload _ _, by rw [hload]⟩
      · rw [h5 u hu hm] at hd
        cases hd
    · rintro ⟨ns, c, hphp, rfl, rfl⟩
      have := h4 (load (editorURI (pathOf (bs ++ ns))) c)
        (List.mem_append_right _ ((hmem _).mpr ⟨ns, c, hphp, rfl⟩))
      rwa [hload] at this

namespace Demo

/-- `/w/src/a.php`, `/w/src/read me.txt`, `/w/c.php`, which cannot be read, and `/v/d.php`. -/
def disk : Entry :=
  .dir (.cons b!"w" (.dir (.cons b!"src" (.dir (.cons b!"a.php" (.file (some b!"<?php 1;")) (.cons b!"read me.txt"
    (.file (some b!"x")) .nil))) (.cons b!"c.php" (.file none) .nil)))
    (.cons b!"v" (.dir (.cons b!"d.php" (.file (some b!"<?php 2;")) .nil)) .nil))

/-- Every file declares a function; the hash is the content itself. -/
def load (u c : Bytes) : Doc := ⟨u, c, [Store.Demo.fn u b!"f" 1], [], []⟩

def aDoc : Doc := load b!"file:///w/src/a.php" b!"<?php 1;"

theorem disk_proper : disk.Proper := by simp [disk, Entry.Proper, Kids.Proper, Kids.get]

theorem disk_php {ns : List Bytes} {c : Option Bytes} (h : PhpFile disk ([b!"w"] ++ ns) c) :
    ns = [b!"src", b!"a.php"] ∧ c = some b!"<?php 1;" ∨ ns = [b!"c.php"] ∧ c = none := by
  have hm := (mem_names disk disk_proper _).mpr ⟨c, h.1⟩
  have e : namesEntry disk = [[b!"w", b!"src", b!"a.php"], [b!"w", b!"src", b!"read me.txt"], [b!"w", b!"c.php"],
    [b!"v", b!"d.php"]] := by decide +kernel
  rw [e] at hm
  simp only [List.mem_cons, List.not_mem_nil, or_false, List.singleton_append, List.cons.injEq] at hm
  rcases hm with ⟨-, rfl⟩ | ⟨-, rfl⟩ | ⟨-, rfl⟩ | ⟨h1, -⟩
  · left
    refine ⟨rfl, ?_⟩
    have h1 := h.1
    rw [show disk.at_ ([b!"w"] ++ [b!"src", b!"a.php"]) = some (.file (some b!"<?php 1;")) from by rfl] at h1
    cases h1
    rfl
  · exact absurd h.2 (by decide +kernel)
  · right
    refine ⟨rfl, ?_⟩
    have h1 := h.1
    rw [show disk.at_ ([b!"w"] ++ [b!"c.php"]) = some (.file none) from by rfl] at h1
    cases h1
    rfl
  · exact absurd h1 (by decide)

theorem aDoc_ok : DocOK Store.Demo.env aDoc :=
  Store.Demo.doc_ok (Store.Demo.uri_ok (by decide) 112 (by decide) (by unfold rangeChar; decide)) (by simp [Str]) _ _ (by simp) (by
    intro x hx
    rw [List.mem_singleton.mp hx]
    exact Store.Demo.fn_ok _ (by decide) (by decide) (by decide))

end Demo

/-- Non-vacuity of `C134_open`: a folder with a readable and an unreadable PHP file and a text file, next to another open
folder; the index has a file that is gone. Afterwards `a.php` is known and nothing else of the disk. -/
example : Demo.disk.Proper ∧ (∃ e, Demo.disk.at_ [b!"w"] = some e) ∧ PlainPath (pathOf [b!"w"]) ∧
    (∀ ns c, PhpFile Demo.disk ([b!"w"] ++ ns) c → PlainPath (pathOf ([b!"w"] ++ ns))) ∧
    (∀ files, (∀ d ∈ files, FolderDoc Demo.disk Demo.load [b!"w"] d) →
      HistOK Store.Demo.env ([.index Store.Demo.a1] ++ ([] ++ files).map .index)) ∧
    (∀ d1 d2, (d1 ∈ docs [.index Store.Demo.a1] ∨ d1 ∈ [] ∨ FolderDoc Demo.disk Demo.load [b!"w"] d1) →
      (d2 ∈ [] ∨ FolderDoc Demo.disk Demo.load [b!"w"] d2) → d1.uri = d2.uri → d1.hash = d2.hash → d1 = d2) ∧
    PhpFile Demo.disk ([b!"w"] ++ [b!"src", b!"a.php"]) (some b!"<?php 1;") ∧
    ∃ s s' h', run Store.Demo.env Store.Demo.root [.index Store.Demo.a1] = some s ∧
      openFromDisk Store.Demo.env (fun _ => some false) b!"v0.0.17" [] ⟨[b!"file:///v", b!"file:///w"], []⟩ Demo.disk Demo.load
        b!"file:///w" s = some s' ∧ run Store.Demo.env Store.Demo.root h' = some s' ∧
      latest h' b!"file:///w/src/a.php" = some Demo.aDoc ∧ latest h' Store.Demo.uA = none := by
  have hfd : ∀ d, FolderDoc Demo.disk Demo.load [b!"w"] d → d = Demo.aDoc := by
    rintro d ⟨ns, c, hphp, rfl⟩
    rcases Demo.disk_php hphp with ⟨rfl, e⟩ | ⟨-, e⟩
    · cases e
      exact congrArg (fun u => Demo.load u b!"<?php 1;") (by decide +kernel)
    · cases e
  have h1 : Demo.disk.at_ [b!"w"] = some (.dir (.cons b!"src" (.dir (.cons b!"a.php" (.file (some b!"<?php 1;"))
      (.cons b!"read me.txt" (.file (some b!"x")) .nil))) (.cons b!"c.php" (.file none) .nil))) := by rfl
  have h2 : ∀ ns c, PhpFile Demo.disk ([b!"w"] ++ ns) c → PlainPath (pathOf ([b!"w"] ++ ns)) := by
    intro ns c hphp
    rcases Demo.disk_php hphp with ⟨rfl, -⟩ | ⟨rfl, -⟩ <;> decide +kernel
  have h3 : ∀ files, (∀ d ∈ files, FolderDoc Demo.disk Demo.load [b!"w"] d) →
      HistOK Store.Demo.env ([.index Store.Demo.a1] ++ ([] ++ files).map .index) := by
    intro files hf
    have hd : docs ([.index Store.Demo.a1] ++ ([] ++ files).map .index) = Store.Demo.a1 :: files := by
      rw [docs_append, List.nil_append, docs_indexes]; rfl
    refine ⟨?_, ?_, keeps_calm (by
      intro o ho
      simp only [List.nil_append, List.cons_append, List.mem_cons, List.mem_map] at ho
      rcases ho with rfl | ⟨_, _, rfl⟩ <;> trivial) _⟩
    · rw [hd]
      simp only [List.mem_cons]
      rintro d (rfl | hm)
      · exact Store.Demo.a1_ok
      · rw [hfd d (hf d hm)]; exact Demo.aDoc_ok
    · rw [hd]
      intro d1 m1 d2 m2 c1 c2 k1 k2 _ _
      simp only [List.mem_cons] at m1 m2
      have hno : ∀ d ∈ files, ∀ c, Sym.claCon c ∉ d.symbols := by
        intro d hm c hc
        rw [hfd d (hf d hm)] at hc
        simp [Demo.aDoc, Demo.load, Store.Demo.fn] at hc
      rcases m1 with rfl | m1
      · rcases m2 with rfl | m2
        · rfl
        · exact absurd k2 (hno _ m2 _)
      · exact absurd k1 (hno _ m1 _)
  have h4 : ∀ d1 d2, (d1 ∈ docs [.index Store.Demo.a1] ∨ d1 ∈ [] ∨ FolderDoc Demo.disk Demo.load [b!"w"] d1) →
      (d2 ∈ [] ∨ FolderDoc Demo.disk Demo.load [b!"w"] d2) → d1.uri = d2.uri → d1.hash = d2.hash → d1 = d2 := by
    intro d1 d2 m1 m2 e _
    have h2 : d2 = Demo.aDoc := by
      rcases m2 with m | m
      · cases m
      · exact hfd _ m
    rcases m1 with m | m | m
    · have : d1 = Store.Demo.a1 := by simpa [docs] using m
      rw [this, h2] at e
      exact absurd e (by decide +kernel)
    · cases m
    · rw [hfd _ m, h2]
  have h5 : PhpFile Demo.disk ([b!"w"] ++ [b!"src", b!"a.php"]) (some b!"<?php 1;") := ⟨by rfl, by decide +kernel⟩
  have hbase : PlainPath (pathOf [b!"w"]) := by decide +kernel
  refine ⟨Demo.disk_proper, ⟨_, h1⟩, hbase, h2, h3, h4, h5, ?_⟩
  have hok0 := h3 [] (by simp)
  obtain ⟨s, hs, -⟩ := run_inv (root := Store.Demo.root) Store.Demo.env_ok hok0
  have hs : run Store.Demo.env Store.Demo.root [.index Store.Demo.a1] = some s := hs
  have hu : editorURI (pathOf [b!"w"]) = b!"file:///w" := by decide +kernel
  obtain ⟨s', h', a, b, -, c, -, -⟩ := C134_open Store.Demo.env_ok (fun _ => some false) b!"v0.0.17" []
    ⟨[b!"file:///v", b!"file:///w"], []⟩ Demo.disk_proper (by simp) h1 Demo.load (fun _ _ => rfl) hbase h2
    (by rw [hu]; simp) (by rw [hu]; decide +kernel) h3 hs (by simp) (by simp) h4
  rw [hu] at a
  refine ⟨s, s', h', hs, a, b, (c _ _ (by decide +kernel)).mpr ⟨_, _, h5, by decide +kernel, rfl⟩, ?_⟩
  rw [Option.eq_none_iff_forall_not_mem]
  intro d hd
  obtain ⟨ns, c', hphp, e, -⟩ := (c _ d (by decide +kernel)).mp hd
  rcases Demo.disk_php hphp with ⟨rfl, -⟩ | ⟨rfl, -⟩ <;> exact absurd e (by decide +kernel)

/-- C134, why "a folder that exists": opening one that does not ends the server. -/
theorem C134_needs_folder (older : Bytes → Option Bool) (version : Bytes) (stubs : List Doc) (w : Server.WS) (disk : Entry)
    (load : Bytes → Bytes → Doc) (uri base : Bytes) (hu : Uri.uriToPath uri = some base) (hno : look disk base = none) :
    openFromDisk env older version stubs w disk load uri s = none := by
  unfold openFromDisk listFiles
  rw [hu, Option.bind_some, hno]
  rfl

end Verif.Whole
