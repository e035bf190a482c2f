import Verif.Store.Search

/-! Keyword searches of one kind of symbol along a history. -/

namespace Verif.Store

open Verif.Encoding Verif.Storage

/-- "Look up, filter, append, check the limit" on a list of symbols. -/
def collect {α} (valid : α → Bool) (limit : Option Int) : Found α → List α → Found α × Bool
  | f, [] => (f, true)
  | f, x :: xs => if (addFound valid limit f x).2 then ((addFound valid limit f x).1, false)
      else collect valid limit (addFound valid limit f x).1 xs

theorem collect_none {α} (valid : α → Bool) (f : Found α) (xs : List α) :
    collect valid none f xs = (⟨f.results ++ xs.filter valid, f.count⟩, true) := by
  induction xs generalizing f with
  | nil => simp [collect]
  | cons x xs ih =>
    by_cases hv : valid x
    · simp [collect, addFound, limitReached, hv, ih]
    · simp [collect, addFound, hv, ih]

/-- With a limit that is not yet reached. -/
theorem collect_some {α} (valid : α → Bool) (l : Int) (f : Found α) (hc : (f.count : Int) < l) (xs : List α) :
    (collect valid (some l) f xs).1.results = f.results ++ (xs.filter valid).take (l - f.count).toNat ∧
    ((collect valid (some l) f xs).2 = true ↔ (xs.filter valid).length < (l - f.count).toNat) := by
  induction xs generalizing f with
  | nil => simp [collect]; omega
  | cons x xs ih =>
    by_cases hv : valid x
    · have ha : addFound valid (some l) f x =
          (⟨f.results ++ [x], f.count + 1⟩, decide ((f.count + 1 : Int) ≥ l)) := by
        simp [addFound, limitReached, hv]
      simp only [collect, ha, List.filter_cons, hv, if_true]
      by_cases hl : (f.count + 1 : Int) ≥ l
      · have : (l - f.count).toNat = 1 := by omega
        simp [hl, this]
      · rw [if_neg (by simpa using hl)]
        obtain ⟨h1, h2⟩ := ih ⟨f.results ++ [x], f.count + 1⟩ (by simp only; omega)
        simp only at h1 h2
        have e : (l - f.count).toNat = (l - (f.count + 1 : Nat)).toNat + 1 := by omega
        refine ⟨?_, ?_⟩
        · rw [h1, e]; simp
        · rw [h2, e, List.length_cons]; omega
    · have ha : addFound valid (some l) f x = (f, false) := by simp [addFound, hv]
      simp only [collect, ha, List.filter_cons, hv, if_false, Bool.false_eq_true]
      exact ih f hc

/-- A searchable kind. -/
structure SearchKind (α : Type) extends KindSpec α where
  icoll : Bytes
  iname : Env → α → Bytes
  icoll_nosep : sep ∉ icoll
  icoll_doc : icoll ≠ cDocCom
  icoll_nam : icoll ≠ cNamCom
  indexable : ∀ env a, (con a).indexable env = some (icoll, iname env a)
  only : ∀ env (x : Sym) n, x.indexable env = some (icoll, n) → x.coll = coll

theorem searchName_indexable (env : Env) (x : Sym) : x.searchName env = (x.indexable env).map (·.2) := by
  cases x <;> simp [Sym.searchName, Sym.indexable]

theorem serialise_ne_nil (x : Sym) : x.serialise.length ≠ 0 := by
  cases x <;>
    simp [Sym.serialise, Class.serialise, Interface.serialise, Trait.serialise, Function.serialise,
      Const.serialise, Method.serialise, ClassConst.serialise, Property.serialise, GlobalVariable.serialise,
      writeLocation, writeString, writeInt_length]

theorem nsCollection_key (scope r : Bytes) : ∃ r', entryKey (nsCollection scope) r = entryKey cNamCom r' := by
  unfold nsCollection
  split
  · exact ⟨r, rfl⟩
  · exact ⟨92 :: scope ++ sep :: r, by simp [entryKey]⟩

theorem put_completion {α} (K : SearchKind α) {env : Env} {d : Doc} {r v : Bytes}
    (h : BOp.put (entryKey K.icoll r) v ∈ completionOps env d) :
    ∃ a, K.con a ∈ d.keyed env ∧ (∃ t ∈ env.tokenise (K.iname env a), r = env.lower t ++ sep :: (K.con a).key env) ∧
      v = writeString ((K.con a).key env) := by
  simp only [completionOps, List.mem_append, List.mem_flatMap] at h
  rcases h with ⟨n, -, h⟩ | ⟨x, hx, h⟩
  · simp only [namespaceOps, List.mem_flatMap, indexNameOps, List.mem_append, List.mem_map, List.mem_singleton] at h
    obtain ⟨p, -, h⟩ := h
    rcases h with ⟨k, ⟨r0, -, rfl⟩, h⟩ | h
    · simp only [BOp.put.injEq] at h
      obtain ⟨r', e⟩ := nsCollection_key p.1.1 r0
      rw [e] at h
      exact absurd ((entryKey_inj (by decide) K.icoll_nosep).mp h.1).1.symm K.icoll_nam
    · simp only [BOp.put.injEq] at h
      exact absurd ((entryKey_inj K.icoll_nosep (by decide)).mp h.1).1 K.icoll_doc
  · cases hi : x.indexable env with
    | none => rw [hi] at h; simp at h
    | some p =>
      obtain ⟨c, n⟩ := p
      rw [hi] at h
      simp only [indexNameOps, List.mem_append, List.mem_map, List.mem_singleton, completionKeys,
        List.map_map] at h
      rcases h with ⟨t, ht, h⟩ | h
      · simp only [BOp.put.injEq, Function.comp] at h
        have hcn : sep ∉ c := by
          have := hi
          revert this
          cases x <;> simp [Sym.indexable] <;> rintro rfl - <;> decide
        obtain ⟨e1, e2⟩ := (entryKey_inj hcn K.icoll_nosep).mp h.1
        subst e1
        obtain ⟨a, rfl⟩ := K.con_surj x (K.only env x n hi)
        rw [K.indexable] at hi
        cases hi
        exact ⟨a, hx, ⟨t, ht, e2.symm⟩, h.2.symm⟩
      · simp only [BOp.put.injEq] at h
        exact absurd ((entryKey_inj K.icoll_nosep (by decide)).mp h.1).1 K.icoll_doc

theorem completion_put {α} (K : SearchKind α) {env : Env} {d : Doc} {a : α} {t : Bytes} (ha : K.con a ∈ d.keyed env)
    (ht : t ∈ env.tokenise (K.iname env a)) :
    BOp.put (entryKey K.icoll (env.lower t ++ sep :: (K.con a).key env)) (writeString ((K.con a).key env))
      ∈ completionOps env d := by
  simp only [completionOps, List.mem_append, List.mem_flatMap]
  refine .inr ⟨K.con a, ha, ?_⟩
  rw [K.indexable]
  simp only [indexNameOps, List.mem_append, List.mem_map, completionKeys, List.map_map]
  exact .inl ⟨t, ht, rfl⟩

theorem readString_write {v : Bytes} (h : Str v) : readString (writeString v) = some (v, []) := by
  have := readString_reads v h []
  rwa [List.append_nil] at this

theorem prefix_sep {c : UInt8} {p a r : Bytes} (h : c ∉ p) (hp : p <+: a ++ c :: r) : p <+: a := by
  induction p generalizing a with
  | nil => exact List.nil_prefix
  | cons x p ih =>
    cases a with
    | nil =>
      rw [List.nil_append, List.cons_prefix_cons] at hp
      exact absurd (by simp [hp.1]) h
    | cons y a =>
      rw [List.cons_append, List.cons_prefix_cons] at hp
      rw [List.cons_prefix_cons]
      exact ⟨hp.1, ih (fun h' => h (by simp [h'])) hp.2⟩

/-- What a keyword search of one kind returns, for every filter and limit. -/
theorem search_kind {α} (K : SearchKind α) {env : Env} {root : Bytes} {h : List HOp} {s : Store}
    (he : EnvOK env) (hok : HistOK env h) (hs : run env root h = some s) (kw : Bytes) :
    ∃ xs : List α, (xs.map fun a => (K.con a).key env).Nodup ∧
      (∀ a ∈ xs, Live env (latest h) (K.con a)) ∧
      (SearchOK env h → sep ∉ kw →
        (∀ a, Live env (latest h) (K.con a) → Matches env kw (K.iname env a) → a ∈ xs) ∧
        ∀ a ∈ xs, ∃ d ∈ docs h, ∃ a', K.con a' ∈ d.symbols ∧ (K.con a').key env = (K.con a).key env ∧
          Matches env kw (K.iname env a')) ∧
      ∀ (skipEmpty : Bool) (valid : α → Bool) (limit : Option Int) (f : Found α),
        searchCompletions env s.comDB K.icoll kw (lookupFound s K.coll K.read skipEmpty valid limit) f
          = some (collect valid limit f (xs.map K.st)) := by
  obtain ⟨s', h1, inv, -, -⟩ := run_inv (root := root) he hok
  rw [hs] at h1
  cases h1
  have ci := run_cinv hs
  have hD := disjoint_of_ok he.lower hok.docs hok.consts
  have hdl : ∀ u d, latest h u = some d → DocOK env d := fun u d hu => hok.docs d (inv.live u d hu).1
  -- every entry of the collection
  have hent : ∀ e ∈ s.comDB.db, entryKey K.icoll [] <+: e.1 → ∃ d ∈ docs h, ∃ a, K.con a ∈ d.keyed env ∧
      (∃ t ∈ env.tokenise (K.iname env a), e.1 = entryKey K.icoll (env.lower t ++ sep :: (K.con a).key env)) ∧
      readString e.2 = some ((K.con a).key env, []) := by
    rintro ⟨k, v⟩ hm ⟨r, rfl⟩
    have hk : entryKey K.icoll [] ++ r = entryKey K.icoll r := by simp [entryKey]
    simp only [hk] at hm ⊢
    obtain ⟨d, hd, hput⟩ := ci.sound _ _ ((mem_iff_get ci.sorted _ _).mp hm)
    obtain ⟨a, ha, ⟨t, ht, rfl⟩, rfl⟩ := put_completion K hput
    exact ⟨d, hd, a, ha, ⟨t, ht, rfl⟩,
      readString_write ((hok.docs d hd).syms _ (mem_keyed.mp ha).1).key⟩
  -- the values met
  let vs := dedupFrom [] (hits env s.comDB K.icoll (env.tokenise kw))
  -- which of them are alive
  have hlive : ∀ v : Bytes, s.db.get (entryKey K.coll v) = none ∨
      ∃ a, LiveK env (latest h) (K.con a) ∧ (K.con a).key env = v ∧
        s.db.get (entryKey K.coll v) = some (K.con a).serialise := by
    intro v
    cases hg : s.db.get (entryKey K.coll v) with
    | none => exact .inl rfl
    | some b =>
      obtain ⟨x, hx, hk, rfl⟩ := (get_live inv hD K.mem).mp hg
      have := (entryKey_inj (coll_nosep x) (symColls_nosep _ K.mem)).mp hk
      obtain ⟨a, rfl⟩ := K.con_surj x this.1
      exact .inr ⟨a, hx, this.2, rfl⟩
  have build : ∀ vs : List Bytes, ∃ xs : List α,
      (xs.map fun a => (K.con a).key env).Sublist vs ∧ (∀ a ∈ xs, LiveK env (latest h) (K.con a)) ∧
      (∀ a, LiveK env (latest h) (K.con a) → (K.con a).key env ∈ vs → a ∈ xs) ∧
      ∀ (skipEmpty : Bool) (valid : α → Bool) (limit : Option Int) (f : Found α),
        runStop (lookupFound s K.coll K.read skipEmpty valid limit) f vs
          = some (collect valid limit f (xs.map K.st)) := by
    intro vs
    induction vs with
    | nil => exact ⟨[], List.Sublist.refl _, by simp, by simp, fun _ _ _ _ => rfl⟩
    | cons v vs ih =>
      obtain ⟨xs, x1, x2, x3, x4⟩ := ih
      rcases hlive v with hn | ⟨a, ha, hk, hg⟩
      · refine ⟨xs, List.Sublist.cons _ x1, x2, ?_, ?_⟩
        · intro a ha hm
          rcases List.mem_cons.mp hm with e | hm
          · exfalso
            have : s.db.get (entryKey K.coll ((K.con a).key env)) = some (K.con a).serialise :=
              (get_live inv hD K.mem).mpr ⟨K.con a, ha, by rw [Sym.dbKey, K.con_coll], rfl⟩
            rw [e, hn] at this
            cases this
          · exact x3 a ha hm
        · intro se valid limit f
          simp only [runStop, lookupFound, hn]
          exact x4 se valid limit f
      · refine ⟨a :: xs, ?_, ?_, ?_, ?_⟩
        · rw [List.map_cons, hk]; exact List.Sublist.cons_cons _ x1
        · intro b hb
          rcases List.mem_cons.mp hb with rfl | hb
          · exact ha
          · exact x2 b hb
        · intro b hb hm
          rcases List.mem_cons.mp hm with e | hm
          · have : (K.con b).dbKey env = (K.con a).dbKey env := by
              rw [Sym.dbKey, Sym.dbKey, K.con_coll, K.con_coll, e, hk]
            rw [K.con_inj _ _ (liveK_inj inv hD hb ha this)]
            simp
          · simp [x3 b hb hm]
        · intro se valid limit f
          obtain ⟨u, d, -, -, -, -, hsok⟩ := ha.ok (fun u d hu => ⟨(inv.live u d hu).2, hdl u d hu⟩)
          obtain ⟨rest, hr⟩ := K.reads a hsok.wf
          have hne : ((K.con a).serialise.length == 0) = false := by
            simpa using serialise_ne_nil (K.con a)
          have hl : lookupFound s K.coll K.read se valid limit f v = some (addFound valid limit f (K.st a)) := by
            simp only [lookupFound, hg, hne, Bool.and_false, Bool.false_eq_true, if_false, hr, Option.map_some]
          simp only [runStop, hl, List.map_cons, collect]
          cases hb : addFound valid limit f (K.st a) with
          | mk f' b =>
            cases b with
            | true => simp
            | false => simp only [Bool.false_eq_true, if_false]; exact x4 se valid limit f'
  obtain ⟨xs, x1, x2, x3, x4⟩ := build vs
  refine ⟨xs, x1.nodup (dedupFrom_nodup _ _), ?_, ?_, ?_⟩
  · intro a ha
    exact (liveK_iff he.lower hdl _).mp (x2 a ha)
  · intro hso hkw
    refine ⟨?_, ?_⟩
    case refine_2 =>
      intro a ha
      have hv := x1.subset (List.mem_map.mpr ⟨a, ha, rfl⟩)
      rw [mem_dedupFrom] at hv
      obtain ⟨w, hw, hv⟩ := List.mem_flatMap.mp hv.1
      obtain ⟨e, he', hv⟩ := List.mem_map.mp hv
      obtain ⟨h1, h2⟩ := List.mem_filter.mp he'
      rw [hasPrefix_iff] at h2
      obtain ⟨d, hd, a', ha', ⟨t, ht, e1⟩, hr⟩ := hent e h1 (List.IsPrefix.trans ⟨env.lower w, by simp [entryKey]⟩ h2)
      rw [e1] at h2
      have h3 := ((entryKey_prefix K.icoll_nosep K.icoll_nosep).mp h2).2
      refine ⟨d, hd, a', (mem_keyed.mp ha').1, ?_, w, hw, t, ht, prefix_sep ?_ h3⟩
      · rw [← hv]; simp [entryVal, hr]
      · exact he.lower _ (hso.tok _ hkw w hw)
    intro a ha ⟨w, hw, t, ht, hwt⟩
    have hla := (liveK_iff he.lower hdl _).mpr ha
    refine x3 a hla ?_
    rw [mem_dedupFrom]
    refine ⟨?_, by simp⟩
    obtain ⟨u, d, hu, hlast⟩ := hla
    have hkeyed := (lastBy_mem hlast).1
    obtain ⟨v', hv'⟩ := ci.complete u d hu _ _ (completion_put K hkeyed ht)
    have hmem := (mem_iff_get ci.sorted _ _).mpr hv'
    obtain ⟨d', hd', a', ha', ⟨t', ht', e⟩, hread⟩ := hent _ hmem ⟨env.lower t ++ sep :: (K.con a).key env, by
      simp [entryKey]⟩
    have nm : ∀ d ∈ docs h, ∀ a t, K.con a ∈ d.keyed env → t ∈ env.tokenise (K.iname env a) → sep ∉ env.lower t := by
      intro d hd a t ha ht
      refine he.lower _ (hso.tok _ ?_ t ht)
      refine hso.names d hd _ (mem_keyed.mp ha).1 _ ?_
      rw [searchName_indexable, K.indexable]; rfl
    have e2 := ((entryKey_inj K.icoll_nosep K.icoll_nosep).mp e).2
    have e3 := (sep_inj (nm d (inv.live u d hu).1 a t hkeyed ht) (nm d' hd' a' t' ha' ht') e2).2
    rw [e3]
    refine List.mem_flatMap.mpr ⟨w, hw, List.mem_map.mpr ⟨_, List.mem_filter.mpr ⟨hmem, ?_⟩, ?_⟩⟩
    · rw [hasPrefix_iff]
      refine (entryKey_prefix K.icoll_nosep K.icoll_nosep).mpr ⟨rfl, ?_⟩
      exact hwt.trans (List.prefix_append _ _)
    · simp [entryVal, hread]
  · intro se valid limit f
    rw [search_eq]
    · exact x4 se valid limit f
    · intro e hm hp
      obtain ⟨_, _, a, _, _, hr⟩ := hent e hm hp
      exact ⟨_, _, hr⟩

/-! ### the searchable kinds -/

def sCla : SearchKind Class where
  toKindSpec := kCla
  icoll := cClaCom
  iname _ c := c.name.original
  icoll_nosep := by decide
  icoll_doc := by decide
  icoll_nam := by decide
  indexable _ _ := rfl
  only env x n h := by cases x <;> simp only [Sym.indexable, Option.some.injEq, Prod.mk.injEq, reduceCtorEq] at h <;> first | rfl | exact absurd h.1 (by decide)

def sInt : SearchKind Interface where
  toKindSpec := kInt
  icoll := cIntCom
  iname _ c := c.name.original
  icoll_nosep := by decide
  icoll_doc := by decide
  icoll_nam := by decide
  indexable _ _ := rfl
  only env x n h := by cases x <;> simp only [Sym.indexable, Option.some.injEq, Prod.mk.injEq, reduceCtorEq] at h <;> first | rfl | exact absurd h.1 (by decide)

def sTra : SearchKind Trait where
  toKindSpec := kTra
  icoll := cTraCom
  iname _ c := c.name.original
  icoll_nosep := by decide
  icoll_doc := by decide
  icoll_nam := by decide
  indexable _ _ := rfl
  only env x n h := by cases x <;> simp only [Sym.indexable, Option.some.injEq, Prod.mk.injEq, reduceCtorEq] at h <;> first | rfl | exact absurd h.1 (by decide)

def sFn : SearchKind Function where
  toKindSpec := kFn
  icoll := cFunCom
  iname _ c := c.name.original
  icoll_nosep := by decide
  icoll_doc := by decide
  icoll_nam := by decide
  indexable _ _ := rfl
  only env x n h := by cases x <;> simp only [Sym.indexable, Option.some.injEq, Prod.mk.injEq, reduceCtorEq] at h <;> first | rfl | exact absurd h.1 (by decide)

def sCon : SearchKind Const where
  toKindSpec := kCon
  icoll := cConCom
  iname _ c := c.name.original
  icoll_nosep := by decide
  icoll_doc := by decide
  icoll_nam := by decide
  indexable _ _ := rfl
  only env x n h := by cases x <;> simp only [Sym.indexable, Option.some.injEq, Prod.mk.injEq, reduceCtorEq] at h <;> first | rfl | exact absurd h.1 (by decide)

def sDef : SearchKind Const where
  toKindSpec := kDef
  icoll := cDefCom
  iname _ c := c.name.original
  icoll_nosep := by decide
  icoll_doc := by decide
  icoll_nam := by decide
  indexable _ _ := rfl
  only env x n h := by cases x <;> simp only [Sym.indexable, Option.some.injEq, Prod.mk.injEq, reduceCtorEq] at h <;> first | rfl | exact absurd h.1 (by decide)

def sMet : SearchKind Method where
  toKindSpec := kMet
  icoll := cMetCom
  iname _ c := c.name
  icoll_nosep := by decide
  icoll_doc := by decide
  icoll_nam := by decide
  indexable _ _ := rfl
  only env x n h := by cases x <;> simp only [Sym.indexable, Option.some.injEq, Prod.mk.injEq, reduceCtorEq] at h <;> first | rfl | exact absurd h.1 (by decide)

def sClaCon : SearchKind ClassConst where
  toKindSpec := kClaCon
  icoll := cClaConCom
  iname _ c := c.name
  icoll_nosep := by decide
  icoll_doc := by decide
  icoll_nam := by decide
  indexable _ _ := rfl
  only env x n h := by cases x <;> simp only [Sym.indexable, Option.some.injEq, Prod.mk.injEq, reduceCtorEq] at h <;> first | rfl | exact absurd h.1 (by decide)

def sPro : SearchKind Property where
  toKindSpec := kPro
  icoll := cProCom
  iname env c := if c.name.length = 0 then [] else env.dropRune c.name
  icoll_nosep := by decide
  icoll_doc := by decide
  icoll_nam := by decide
  indexable _ _ := rfl
  only env x n h := by cases x <;> simp only [Sym.indexable, Option.some.injEq, Prod.mk.injEq, reduceCtorEq] at h <;> first | rfl | exact absurd h.1 (by decide)

end Verif.Store
