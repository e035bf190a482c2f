import Verif.Whole.Model
import Verif.Whole.Spec
import Verif.Store.PropsLookup
import Verif.Common.Tactics

/-! The lookups of the queries are those of the store; the store holds what the current files declare. -/

namespace Verif.Whole

open Verif.Encoding Verif.Storage Verif.Store Verif.Query

variable {env : Env} {root : Bytes} {h : List HOp} {s : Store}

/-- One key with one separator. -/
theorem one_prefix {q n u : Bytes} (hn : sep ∉ n) (hu : sep ∉ u) : q ++ [sep] <+: n ++ sep :: u ↔ n = q := by
  by_cases hq : sep ∈ q
  · refine ⟨fun hp => ?_, fun e => absurd (e ▸ hq) hn⟩
    obtain ⟨q1, q2, rfl, h1⟩ := List.eq_append_cons_of_mem hq
    rw [List.append_assoc, List.cons_append, sep_prefix h1 hn] at hp
    obtain ⟨-, t, rfl⟩ := hp
    simp at hu
  · exact name_prefix hq hn

theorem two_prefix {c m n q u : Bytes} (hn : sep ∉ n) (hq : sep ∉ q) (hu : sep ∉ u) :
    c ++ sep :: (m ++ [sep]) <+: n ++ sep :: (q ++ sep :: u) ↔ n = c ∧ q = m := by
  by_cases hc : sep ∈ c
  · refine ⟨fun hp => ?_, fun e => absurd (e.1 ▸ hc) hn⟩
    obtain ⟨c1, c2, rfl, h1⟩ := List.eq_append_cons_of_mem hc
    rw [List.append_assoc, List.cons_append, sep_prefix h1 hn,
      show c2 ++ sep :: (m ++ [sep]) = (c2 ++ sep :: m) ++ [sep] by simp, one_prefix hq hu] at hp
    rw [hp.2] at hq
    simp at hq
  · rw [sep_prefix hc hn, one_prefix hq hu, eq_comm]

/-- A scan of a part of a collection is a part of the scan of the collection. -/
theorem scan_all {α} (K : KindSpec α) (he : EnvOK env) (hok : HistOK env h) (hs : run env root h = some s) :
    ∃ xs : List α, scanAll s K.coll K.read = xs.map K.st ∧ xs.Nodup ∧ (∀ a, a ∈ xs ↔ Live env (latest h) (K.con a)) ∧
      ∀ p, scanDecode s.db (entryKey K.coll p) K.read =
        some ((xs.filter fun a => hasPrefix p ((K.con a).key env)).map K.st) := by
  obtain ⟨s', h1, inv, rb, -⟩ := run_inv (root := root) he hok
  rw [hs] at h1
  cases h1
  have hD := disjoint_of_ok he.lower hok.docs hok.consts
  have hdl : ∀ u d, latest h u = some d → DocOK env d := fun u d hu => hok.docs d (inv.live u d hu).1
  obtain ⟨xs, h1, h2, h3⟩ := entries_live K inv hD []
  have hlive : ∀ a, a ∈ xs ↔ Live env (latest h) (K.con a) := fun a => by
    rw [h3, liveK_iff he.lower hdl]; simp
  have hn := symColls_nosep _ K.mem
  have key : ∀ p, scanDecode s.db (entryKey K.coll p) K.read =
      some ((xs.filter fun a => hasPrefix p ((K.con a).key env)).map K.st) := by
    intro p
    have e : s.db.db.filter (fun e => hasPrefix (entryKey K.coll p) e.1)
        = (xs.filter fun a => hasPrefix p ((K.con a).key env)).map
            (fun a => ((K.con a).dbKey env, (K.con a).serialise)) := by
      have : s.db.db.filter (fun e => hasPrefix (entryKey K.coll p) e.1) =
          (s.db.db.filter (fun e => hasPrefix (entryKey K.coll []) e.1)).filter
            (fun e => hasPrefix (entryKey K.coll p) e.1) := by
        rw [List.filter_filter]
        refine List.filter_congr fun e _ => ?_
        cases hb : hasPrefix (entryKey K.coll p) e.1 with
        | false => rfl
        | true =>
          rw [hasPrefix_iff] at hb
          have : hasPrefix (entryKey K.coll []) e.1 = true := by
            rw [hasPrefix_iff]
            refine List.IsPrefix.trans ⟨p, ?_⟩ hb
            simp [entryKey]
          rw [this]; rfl
      rw [this, h1, List.filter_map]
      congr 1
      refine List.filter_congr fun a _ => ?_
      rw [Bool.eq_iff_iff]
      simp only [Function.comp_def, hasPrefix_iff]
      rw [show (K.con a).dbKey env = entryKey K.coll ((K.con a).key env) by rw [Sym.dbKey, K.con_coll]]
      rw [entryKey_prefix hn hn]
      simp
    unfold scanDecode LevelDB.prefixStream
    rw [LevelDB.stream_deliver _ _ _ _ _ (Nat.lt_succ_self _), deliver_all, e]
    rw [scan_foldl K.read _ _ K.st, List.nil_append]
    intro a ha
    have hl := (h3 a).mp (List.mem_filter.mp ha).1
    obtain ⟨u, d, -, -, -, -, hsok⟩ := hl.1.ok (fun u d h => ⟨(inv.live u d h).2, hok.docs d (inv.live u d h).1⟩)
    exact K.reads a hsok.wf
  refine ⟨xs, ?_, ?_, hlive, key⟩
  · unfold scanAll
    rw [key []]
    have : (xs.filter fun a => hasPrefix [] ((K.con a).key env)) = xs := by
      rw [List.filter_eq_self]; intro a _; rw [hasPrefix_iff]; exact List.nil_prefix
    rw [this]; rfl
  · exact (List.pairwise_map.mp h2).imp fun hne e => hne (by rw [e])

theorem live_ok (he : EnvOK env) (hok : HistOK env h) {x : Sym} (hx : Live env (latest h) x) :
    ∃ u, UriOK u ∧ SymOK env u x := by
  obtain ⟨s, h1, inv, rb, -⟩ := run_inv (root := []) he hok
  have hdl : ∀ u d, latest h u = some d → DocOK env d := fun u d hu => hok.docs d (inv.live u d hu).1
  obtain ⟨u, d, -, -, -, hu, hsok⟩ := ((liveK_iff he.lower hdl _).mpr hx).ok
    (fun u d hu => ⟨(inv.live u d hu).2, hdl u d hu⟩)
  exact ⟨u, hu, hsok⟩

theorem live_nosep (he : EnvOK env) (hok : HistOK env h) {x : Sym} (hx : Live env (latest h) x) :
    x.NameOK ∧ sep ∉ x.location.uri := by
  obtain ⟨u, hu, hs⟩ := live_ok he hok hx
  exact ⟨hs.name, by rw [hs.uri]; exact hu.1⟩

/-- A scan of a kind and its declarations. -/
theorem mem_scanAll {α} (K : KindSpec α) (he : EnvOK env) (hok : HistOK env h) (hs : run env root h = some s) (a : α) :
    a ∈ scanAll s K.coll K.read ↔ ∃ x, Live env (latest h) (K.con x) ∧ K.st x = a := by
  obtain ⟨xs, h1, -, h3, -⟩ := scan_all K he hok hs
  rw [h1, List.mem_map]
  exact exists_congr fun x => and_congr_left fun _ => h3 x

theorem stored_location (x : Sym) : x.stored.location = x.location := by cases x <;> rfl

theorem locationOf_eq (x : Sym) : locationOf x = x.location := by cases x <;> rfl

/-- Everything a request can lead to is a declaration of the current files, in its stored form. -/
theorem mem_decls (he : EnvOK env) (hok : HistOK env h) (hs : run env root h = some s) (y : Sym) :
    y ∈ decls s ↔ ∃ x, Live env (latest h) x ∧ x.stored = y ∧ ∀ g, x ≠ .gloVar g := by
  have k1 := mem_scanAll kCla he hok hs
  have k2 := mem_scanAll kInt he hok hs
  have k3 := mem_scanAll kTra he hok hs
  have k4 := mem_scanAll kFn he hok hs
  have k5 := mem_scanAll kCon he hok hs
  have k6 := mem_scanAll kDef he hok hs
  have k7 := mem_scanAll kMet he hok hs
  have k8 := mem_scanAll kClaCon he hok hs
  have k9 := mem_scanAll kPro he hok hs
  simp only [kCla, kInt, kTra, kFn, kCon, kDef, kMet, kClaCon, kPro] at k1 k2 k3 k4 k5 k6 k7 k8 k9
  simp only [decls, List.mem_append, List.mem_map, k1, k2, k3, k4, k5, k6, k7, k8, k9]
  constructor
  · intro hy
    rcases hy with ((((((((⟨a, ⟨x, hx, rfl⟩, rfl⟩ | ⟨a, ⟨x, hx, rfl⟩, rfl⟩) | ⟨a, ⟨x, hx, rfl⟩, rfl⟩) |
      ⟨a, ⟨x, hx, rfl⟩, rfl⟩) | ⟨a, ⟨x, hx, rfl⟩, rfl⟩) | ⟨a, ⟨x, hx, rfl⟩, rfl⟩) | ⟨a, ⟨x, hx, rfl⟩, rfl⟩) |
      ⟨a, ⟨x, hx, rfl⟩, rfl⟩) | ⟨a, ⟨x, hx, rfl⟩, rfl⟩) <;>
      exact ⟨_, hx, rfl, fun g e => by cases e⟩
  · rintro ⟨x, hx, rfl, hg⟩
    cases x with
    | cla c => exact .inl (.inl (.inl (.inl (.inl (.inl (.inl (.inl ⟨_, ⟨c, hx, rfl⟩, rfl⟩)))))))
    | int c => exact .inl (.inl (.inl (.inl (.inl (.inl (.inl (.inr ⟨_, ⟨c, hx, rfl⟩, rfl⟩)))))))
    | tra c => exact .inl (.inl (.inl (.inl (.inl (.inl (.inr ⟨_, ⟨c, hx, rfl⟩, rfl⟩))))))
    | fn c => exact .inl (.inl (.inl (.inl (.inl (.inr ⟨_, ⟨c, hx, rfl⟩, rfl⟩)))))
    | con c => exact .inl (.inl (.inl (.inl (.inr ⟨_, ⟨c, hx, rfl⟩, rfl⟩))))
    | def_ c => exact .inl (.inl (.inl (.inr ⟨_, ⟨c, hx, rfl⟩, rfl⟩)))
    | met c => exact .inl (.inl (.inr ⟨_, ⟨c, hx, rfl⟩, rfl⟩))
    | claCon c => exact .inl (.inr ⟨_, ⟨c, hx, rfl⟩, rfl⟩)
    | pro c => exact .inr ⟨_, ⟨c, hx, rfl⟩, rfl⟩
    | gloVar g => exact absurd rfl (hg g)

theorem get_num {x : Sym} (hx : x ∈ decls s) : (decls s)[num s x]? = some x := by
  unfold num
  rw [List.getElem?_eq_getElem (List.idxOf_lt_length_of_mem hx), List.getElem_idxOf]

theorem get_num_live (he : EnvOK env) (hok : HistOK env h) (hs : run env root h = some s) {x : Sym}
    (hx : Live env (latest h) x) (hg : ∀ g, x ≠ .gloVar g) : (decls s)[num s x.stored]? = some x.stored :=
  get_num ((mem_decls he hok hs _).mpr ⟨x, hx, rfl, hg⟩)

end Verif.Whole
