import Verif.Show.Spec
import Verif.Encoding.Props
import Verif.Decl.PropsParams
import Verif.Common.Tactics

namespace Verif.Show
open Verif.Types (Ty Union unionIsEmpty unionToBytes add merge hasFQN)
open Verif.Encoding (GoInt TypeString TypeComposite)
open Verif.Analyser (Node Tok Ctx PType)
open Verif.Decl (Env)

theorem joinS_eq (sep : Bytes) (ps : List Bytes) : joinS sep ps = sep.intercalate ps := by
  induction ps with
  | nil => rfl
  | cons p ps ih =>
    cases ps with
    | nil => simp [joinS, List.intercalate]
    | cons q qs => rw [joinS, ih]; simp [List.intercalate]

theorem joinB_eq (sep : UInt8) (ps : List Bytes) : joinB sep ps = [sep].intercalate ps := by
  induction ps with
  | nil => rfl
  | cons p ps ih =>
    cases ps with
    | nil => simp [joinB, List.intercalate]
    | cons q qs => rw [joinB, ih]; simp [List.intercalate]

theorem ofType_toType (t : Ty) (h : LevelFits t) : ofType (toType t) = t := by
  obtain ⟨f, o, l⟩ := t
  unfold ofType toType goInt
  simp only [Ty.mk.injEq, true_and]
  obtain ⟨h1, h2⟩ := h
  rw [BitVec.toInt_ofInt]
  simp only at h1 h2
  rw [Int.bmod_eq_of_le] <;> omega

theorem ofType_map (u : Union) (h : ∀ t ∈ u, LevelFits t) : (u.map toType).map ofType = u := by
  rw [List.map_map]
  conv => rhs; rw [← List.map_id u]
  exact List.map_congr_left fun t ht => ofType_toType t (h t ht)

theorem add_nodup (u : Union) (t : Ty) (h : (u.map Ty.fqn).Nodup) : ((add u t).map Ty.fqn).Nodup := by
  unfold add
  split
  · exact h
  · rename_i hn
    rw [List.map_append, List.nodup_append]
    refine ⟨h, by simp, fun a ha b hb hab => ?_⟩
    simp only [List.map_cons, List.map_nil, List.mem_singleton] at hb
    apply hn
    obtain ⟨s, hs, hsa⟩ := List.mem_map.1 ha
    exact List.any_eq_true.2 ⟨s, hs, by simp [hsa, hab, hb]⟩

theorem merge_nodup (u v : Union) (h : (u.map Ty.fqn).Nodup) : ((merge u v).map Ty.fqn).Nodup := by
  unfold merge
  induction v generalizing u with
  | nil => exact h
  | cons t v ih => exact ih _ (add_nodup u t h)

/-- The printed form of types without duplicates. -/
theorem typesShown (u : Union) (named : Bytes → Nat → Prop) (hn : (u.map Ty.fqn).Nodup)
    (hm : ∀ t ∈ u, named t.fqn t.arrayLevel.toNat) (hc : ∀ n l, named n l → n ∈ u.map Ty.fqn) :
    TypesShown named (unionToBytes u) := by
  refine ⟨(u.filter fun t => !t.isEmpty).map fun t => (t.fqn, t.arrayLevel.toNat), ?_, fun t ht => ?_, fun n l h h0 h1 => ?_,
    fun t ht => ?_, ?_⟩
  · rw [List.map_map]
    exact hn.sublist (List.Sublist.map _ List.filter_sublist)
  · obtain ⟨s, hs, rfl⟩ := List.mem_map.1 ht
    exact hm s (List.mem_filter.1 hs).1
  · obtain ⟨t, ht, rfl⟩ := List.mem_map.1 (hc n l h)
    rw [List.map_map]
    exact List.mem_map.2 ⟨t, List.mem_filter.2 ⟨ht, by simp [Ty.isEmpty, h0, h1]⟩, rfl⟩
  · obtain ⟨s, hs, rfl⟩ := List.mem_map.1 ht
    have he := (List.mem_filter.1 hs).2
    simp only [Ty.isEmpty, Bool.not_eq_true', Bool.or_eq_false_iff, beq_eq_false_iff_ne] at he
    exact he
  · unfold unionToBytes
    rw [joinB_eq, List.map_map]
    rfl

theorem intercalate_eq_nil {sep : Bytes} (hs : sep ≠ []) {l : List Bytes} (h : sep.intercalate l = [])
    (hl : ∀ x ∈ l, x ≠ []) : l = [] := by
  cases l with
  | nil => rfl
  | cons a l =>
    exfalso
    have ha := hl a List.mem_cons_self
    rw [← joinS_eq] at h
    cases l with
    | nil => exact ha h
    | cons b l =>
      rw [joinS] at h
      exact ha (List.append_eq_nil_iff.1 (List.append_eq_nil_iff.1 h).1).1

/-- Types are printed exactly if there are any. -/
theorem noTypes_iff (u : Union) : unionIsEmpty u = true ↔ unionToBytes u = [] := by
  unfold unionIsEmpty unionToBytes
  constructor
  · intro h
    have hf : u.filter (fun t => !t.isEmpty) = [] := by
      refine List.filter_eq_nil_iff.2 fun t ht => ?_
      rcases Bool.or_eq_true _ _ ▸ h with h | h
      · simp only [beq_iff_eq, List.length_eq_zero_iff] at h; subst h; cases ht
      · simpa using List.all_eq_true.1 h t ht
    rw [hf]; rfl
  · intro h
    rw [joinB_eq] at h
    have := intercalate_eq_nil (by decide) h fun x hx => by
      obtain ⟨t, ht, rfl⟩ := List.mem_map.1 hx
      have he := (List.mem_filter.1 ht).2
      simp only [Ty.isEmpty, Bool.not_eq_true', Bool.or_eq_false_iff, beq_eq_false_iff_ne] at he
      unfold Ty.toBytes
      exact fun hc => he.1 (List.append_eq_nil_iff.1 hc).1
    have hf := List.map_eq_nil_iff.1 this
    refine Bool.or_eq_true _ _ ▸ .inr (List.all_eq_true.2 fun t ht => ?_)
    by_contra hc
    have := List.filter_eq_nil_iff.1 hf t ht
    simp at this
    exact hc this

/-! ### types with their depths -/

theorem brackets_suffixes (k : Nat) : brackets k = Types.suffixes k := by
  induction k with
  | zero => rfl
  | succ k ih =>
    rw [Types.suffixes, ← ih]
    unfold brackets
    rw [List.replicate_succ', List.flatten_append]
    rfl

theorem depth_tyOf (q : Bytes) : Depth q (Analyser.tyOf q).arrayLevel.toNat := by
  rintro base k rfl h0 h1 h2
  unfold Analyser.tyOf
  rw [brackets_suffixes, Types.newTypeString_spec base h2 h0 h1 k]
  simp

theorem mem_add_cases {u : Union} {x t : Ty} (h : t ∈ add u x) : t ∈ u ∨ t = x := by
  unfold add at h
  split at h
  · exact .inl h
  · rcases List.mem_append.1 h with h | h
    · exact .inl h
    · exact .inr (List.mem_singleton.1 h)

theorem mem_merge_cases {u v : Union} {t : Ty} (h : t ∈ merge u v) : t ∈ u ∨ t ∈ v := by
  unfold merge at h
  induction v generalizing u with
  | nil => exact .inl h
  | cons x v ih =>
    rcases ih h with h | h
    · rcases mem_add_cases h with h | rfl
      · exact .inl h
      · exact .inr List.mem_cons_self
    · exact .inr (List.mem_cons_of_mem _ h)

/-- What the types of a text are, with their depths. -/
theorem named_of_mem (env : Env) (text : Bytes) (t : Ty) (h : t ∈ Decl.typesFromPhpDoc env text) :
    Named env text t.fqn t.arrayLevel.toNat := by
  have loop : ∀ (ps : List Bytes) (u : Union), t ∈ ps.foldl (Decl.docPart env) u → t ∈ u ∨
      ∃ part ∈ ps, Rpc.trimSpace part ≠ [] ∧ Decl.TypeRefers env (Rpc.trimSpace part) t.fqn ∧
        (Rpc.trimSpace part ≠ b!"self" → Depth (Rpc.trimSpace part) t.arrayLevel.toNat) := by
    intro ps
    induction ps with
    | nil => exact fun u h => .inl h
    | cons p ps ih =>
      intro u h
      rcases ih _ h with h | ⟨q, hq, hh⟩
      · have hstep : t ∈ u ∨ (Rpc.trimSpace p ≠ [] ∧ Decl.TypeRefers env (Rpc.trimSpace p) t.fqn ∧
            (Rpc.trimSpace p ≠ b!"self" → Depth (Rpc.trimSpace p) t.arrayLevel.toNat)) := by
          unfold Decl.docPart at h
          simp only at h
          split at h
          · exact .inl h
          · next h0 =>
            split at h
            · next hs =>
              cases hc : env.cls with
              | none => rw [hc] at h; exact .inl h
              | some c =>
                rw [hc] at h
                rcases mem_add_cases h with h | rfl
                · exact .inl h
                · exact .inr ⟨h0, ⟨fun _ => ⟨c, hc, rfl⟩, fun hn => absurd hs hn⟩, fun hn => absurd hs hn⟩
            · next hs =>
              rcases mem_add_cases h with h | rfl
              · exact .inl h
              · exact .inr ⟨h0, ⟨fun hn => absurd hn hs, fun _ => rfl⟩, fun _ => depth_tyOf _⟩
        rcases hstep with h | h
        · exact .inl h
        · exact .inr ⟨p, List.mem_cons_self, h⟩
      · exact .inr ⟨q, List.mem_cons_of_mem _ hq, hh⟩
  rcases loop _ _ h with h | h
  · cases h
  · exact h

theorem named_names {env : Env} {text n : Bytes} {l : Nat} (h : Named env text n l) : Decl.Names env text n := by
  obtain ⟨p, hp, h0, h1, -⟩ := h
  exact ⟨p, hp, h0, h1⟩

theorem named_join (env : Env) (ls : List Bytes) (n : Bytes) (l : Nat) (h : Named env (joinB 124 ls) n l) :
    ∃ text ∈ ls, Named env text n l := by
  unfold Named at h ⊢
  cases ls with
  | nil =>
    obtain ⟨p, hp, h0, -⟩ := h
    simp only [joinB, splitB, List.mem_singleton] at hp
    subst hp
    exact absurd Decl.trimSpace_nil h0
  | cons a ls =>
    rw [Decl.splitB_join _ (by simp)] at h
    obtain ⟨part, hp, h⟩ := h
    obtain ⟨t, ht, hp⟩ := List.mem_flatMap.1 hp
    exact ⟨t, ht, part, hp, h⟩

theorem tagNamed_of (env : Env) (tag : Node) (n : Bytes) (l : Nat) (h : Named env (Decl.joinedTypes env tag.kids) n l) :
    TagNamed env tag n l := by
  obtain ⟨text, ht, hn⟩ := named_join env _ n l h
  obtain ⟨k, hk, ht⟩ := List.mem_flatMap.1 ht
  refine ⟨text, ⟨k, hk, ?_⟩, hn⟩
  unfold Decl.typeTexts at ht
  split_ifs at ht with h1 h2 h3
  · exact absurd ht (by simp)
  · exact .inl ⟨(Decl.typ_iff _ _).1 h1, by simpa [Decl.processTypeNode] using ht⟩
  · right
    unfold Decl.processTypeUnionNode at ht
    obtain ⟨q, hq, rfl⟩ := List.mem_map.1 ht
    obtain ⟨hq, hty⟩ := List.mem_filter.1 hq
    exact ⟨(Decl.typ_iff _ _).1 h3, q, hq, (Decl.typ_iff _ _).1 (by simpa using hty), rfl⟩
  · exact absurd ht (by simp)

theorem tagNamed_names {env : Env} {tag : Node} {n : Bytes} {l : Nat} (h : TagNamed env tag n l) :
    Decl.TagNames env tag n := by
  obtain ⟨t, ht, h⟩ := h
  exact ⟨t, ht, named_names h⟩

theorem declaredAs_type {env : Env} {type : Option Node} {n : Bytes} {l : Nat} (h : DeclaredAs env type n l) :
    Decl.DeclaredType env type n := by
  obtain ⟨t, ht, hn, -⟩ := h
  exact ⟨t, ht, hn⟩

theorem declaredAs_of (env : Env) (type : Option Node) (t : Ty) (h : t ∈ (type.map (Decl.declaredType env)).toList) :
    DeclaredAs env type t.fqn t.arrayLevel.toNat := by
  cases type with
  | none => cases h
  | some x =>
    simp only [Option.map_some, Option.toList_some, List.mem_singleton] at h
    subst h
    exact ⟨x, rfl, rfl, depth_tyOf _⟩

/-! ### parameters -/

/-- The types of a parameter of a function with the doc comment `doc`. -/
theorem param_types (env : Env) (doc : Option Node) (e : Node) (type : Option Node) (var : Tok)
    (value : Option (List Node)) (tag : Option Node) (hw : Decl.ParamWritten e type var value)
    (hvar : env.ctx.tokText var ≠ []) (ht : TagFor env.ctx doc (env.ctx.tokText var) tag) :
    TypesShown (fun n l => DeclaredAs env type n l ∨ ∃ k, tag = some k ∧ TagNamed env k n l)
      (unionToBytes (match doc.map (Decl.newPhpDoc env) with
        | some d => (Decl.newParameter env e).applyDoc env d
        | none => Decl.newParameter env e).types) := by
  obtain ⟨-, hty, hname, -⟩ := Decl.newParameter_spec env e type var value hw
  have hnd : ((type.map (Decl.declaredType env)).toList.map Ty.fqn).Nodup := by cases type <;> simp
  cases doc with
  | none =>
    change tag = none at ht
    subst ht
    simp only [Option.map_none, hty]
    refine typesShown _ _ hnd (fun t h => .inl (declaredAs_of env type t h)) fun n l h => ?_
    rcases h with h | ⟨k, hk, -⟩
    · exact (Decl.mem_declared env type n).2 (declaredAs_type h)
    · cases hk
  | some d =>
    simp only [Option.map_some]
    cases tag with
    | none =>
      change Decl.NoParamTag _ _ _ at ht
      have e1 : ((Decl.newParameter env e).applyDoc env (Decl.newPhpDoc env d)).types =
          (type.map (Decl.declaredType env)).toList := by
        unfold Decl.Param.applyDoc
        rw [hname, Decl.findParamTag_none env d _ hvar ht, hty]
      rw [e1]
      refine typesShown _ _ hnd (fun t h => .inl (declaredAs_of env type t h)) fun n l h => ?_
      rcases h with h | ⟨k, hk, -⟩
      · exact (Decl.mem_declared env type n).2 (declaredAs_type h)
      · cases hk
    | some k =>
      change Decl.ParamTag _ _ _ _ at ht
      have e1 : ((Decl.newParameter env e).applyDoc env (Decl.newPhpDoc env d)).types =
          merge (type.map (Decl.declaredType env)).toList
            (Decl.typesFromPhpDoc env (Decl.joinedTypes env k.kids)) := by
        unfold Decl.Param.applyDoc
        rw [hname, Decl.findParamTag_some env d k _ hvar ht, hty]
        rfl
      rw [e1]
      refine typesShown _ _ (merge_nodup _ _ hnd) (fun t h => ?_) fun n l h => ?_
      · rcases mem_merge_cases h with h | h
        · exact .inl (declaredAs_of env type t h)
        · exact .inr ⟨k, rfl, tagNamed_of env k _ _ (named_of_mem env _ t h)⟩
      · rw [Types.C25_merge, Decl.C82_named]
        rcases h with h | ⟨k', hk, h⟩
        · exact .inl ((Decl.mem_declared env type n).2 (declaredAs_type h))
        · cases hk
          exact .inr ((Decl.names_joinedTypes env k n).2 (tagNamed_names h))

theorem shown_pieces (u : Union) (sep : Bytes) :
    (if unionIsEmpty u then [] else unionToBytes u ++ sep) = if unionToBytes u = [] then [] else unionToBytes u ++ sep := by
  by_cases h : unionIsEmpty u = true
  · rw [if_pos h, if_pos ((noTypes_iff u).1 h)]
  · rw [if_neg h, if_neg fun hc => h ((noTypes_iff u).2 hc)]

theorem shown_pieces' (u : Union) (pre : Bytes) :
    (if unionIsEmpty u then [] else pre ++ unionToBytes u) = if unionToBytes u = [] then [] else pre ++ unionToBytes u := by
  by_cases h : unionIsEmpty u = true
  · rw [if_pos h, if_pos ((noTypes_iff u).1 h)]
  · rw [if_neg h, if_neg fun hc => h ((noTypes_iff u).2 hc)]

theorem validDoc_doc (env : Env) (n : Node) (doc : Option Node) (hd : Decl.DocApplies env n doc) :
    env.validDoc n = doc.map (Decl.newPhpDoc env) := by
  cases doc with
  | none => exact Decl.validDoc_none env n hd
  | some d => exact Decl.validDoc_of env n d hd

/-- A parameter, as hovering shows it. -/
theorem paramText_reads (uri : Bytes) (env : Env) (doc : Option Node) (e : Node) (p : Decl.Param)
    (hp : p = match doc.map (Decl.newPhpDoc env) with
        | some d => (Decl.newParameter env e).applyDoc env d
        | none => Decl.newParameter env e) (hl : ∀ t ∈ p.types, LevelFits t) (desc : Bytes) :
    ParamReads env doc e (paramText { toParameter uri p with description := desc }) := by
  intro type var value tag hw hvar ht
  have hrec : Decl.Recorded env.ctx e p := by
    have := Decl.recorded_doc env e (doc.map (Decl.newPhpDoc env))
    subst hp
    cases doc <;> exact this
  obtain ⟨r1, -, -, r4, r5⟩ := hrec type var value hw
  refine ⟨_, param_types env doc e type var value tag hw hvar ht, ?_⟩
  rw [← hp]
  unfold paramText noTypes typesText toParameter
  simp only
  rw [ofType_map _ hl, shown_pieces, r1, r4, r5]
  cases value <;> simp

/-- A parameter, as signature help shows it. -/
theorem paramLabel_reads (uri : Bytes) (env : Env) (doc : Option Node) (e : Node) (p : Decl.Param)
    (hp : p = match doc.map (Decl.newPhpDoc env) with
        | some d => (Decl.newParameter env e).applyDoc env d
        | none => Decl.newParameter env e) (hl : ∀ t ∈ p.types, LevelFits t) (desc : Bytes)
    (hv : ∀ type var v, Decl.ParamWritten e type var (some v) → Decl.textOf env.ctx v ≠ []) :
    ParamReads env doc e (paramLabel { toParameter uri p with description := desc }) := by
  intro type var value tag hw hvar ht
  have hrec : Decl.Recorded env.ctx e p := by
    have := Decl.recorded_doc env e (doc.map (Decl.newPhpDoc env))
    subst hp
    cases doc <;> exact this
  obtain ⟨r1, -, -, r4, r5⟩ := hrec type var value hw
  refine ⟨_, param_types env doc e type var value tag hw hvar ht, ?_⟩
  rw [← hp]
  unfold paramLabel noTypes typesText toParameter
  simp only
  rw [ofType_map _ hl, shown_pieces, r1, r5]
  cases value with
  | none => simp [Decl.textOf]
  | some v => simp [hv type var v hw]

/-! ### return types and descriptions -/

theorem fold_returns_nodup (env : Env) (ts : List Decl.Tag) (u : Union) (h : (u.map Ty.fqn).Nodup) :
    ((ts.foldl (fun u t => merge u (Decl.typesFromPhpDoc env t.typeText)) u).map Ty.fqn).Nodup := by
  induction ts generalizing u with
  | nil => exact h
  | cons t ts ih => exact ih _ (merge_nodup _ _ h)

theorem fold_returns_mem (env : Env) (ts : List Decl.Tag) (u : Union) (t : Ty)
    (h : t ∈ ts.foldl (fun u t => merge u (Decl.typesFromPhpDoc env t.typeText)) u) :
    t ∈ u ∨ ∃ g ∈ ts, t ∈ Decl.typesFromPhpDoc env g.typeText := by
  induction ts generalizing u with
  | nil => exact .inl h
  | cons g ts ih =>
    rcases ih _ h with h | ⟨g', hg, h⟩
    · rcases mem_merge_cases h with h | h
      · exact .inl h
      · exact .inr ⟨g, List.mem_cons_self, h⟩
    · exact .inr ⟨g', List.mem_cons_of_mem _ hg, h⟩

/-- The return types of a record under a doc comment. -/
theorem returns_shown (env : Env) (doc : Option Node) (s : Decl.FunctionRec) (hs : s.returns = []) :
    TypesShown (Returned env doc) (unionToBytes (match doc.map (Decl.newPhpDoc env) with
      | some d => s.applyDoc env d
      | none => s).returns) := by
  cases doc with
  | none =>
    simp only [Option.map_none, hs]
    refine typesShown _ _ (by simp) (fun t h => by cases h) fun n l h => ?_
    obtain ⟨d, k, hd, -⟩ := h
    cases hd
  | some d =>
    simp only [Option.map_some]
    have hmem := Decl.applyDoc_returns env s d
    unfold Decl.FunctionRec.applyDoc at hmem ⊢
    simp only [hs] at hmem ⊢
    refine typesShown _ _ (fold_returns_nodup env _ _ (by simp)) (fun t h => ?_) fun n l h => ?_
    · rcases fold_returns_mem env _ _ t h with h | ⟨g, hg, h⟩
      · cases h
      · obtain ⟨hg, hgn⟩ := List.mem_filter.1 hg
        obtain ⟨k, hk, hp⟩ := List.mem_filterMap.1 hg
        obtain ⟨hk, hdt⟩ := List.mem_filter.1 hk
        have hname : Decl.getTagName env k.kids = b!"@return" := by
          rw [← (Decl.parseTag_types hp).1]; simpa using hgn
        obtain ⟨g', hg', hty⟩ := Decl.return_read env k hname
        rw [hp] at hg'
        cases hg'
        rw [hty] at h
        exact ⟨d, k, rfl, hk, ⟨(Decl.isDocTag_iff k).1 hdt, (Decl.getTagName_eq env _ _ (by decide)).1 hname⟩,
          tagNamed_of env k _ _ (named_of_mem env _ t h)⟩
    · obtain ⟨d', k, hd, hk, htag, h⟩ := h
      cases hd
      exact (hmem n trivial).2 ⟨k, hk, htag, tagNamed_names h⟩

/-- The description of a record under a doc comment. -/
theorem description_is (env : Env) (doc : Option Node) :
    DescriptionIs env doc (((doc.map (Decl.newPhpDoc env)).map Decl.Doc.description).getD []) := by
  cases doc with
  | none => rfl
  | some d =>
    exact ⟨fun x hx => OnlyPhrase.last' env d x hx, fun h => NoPhrase.last' env d h⟩
where
  OnlyPhrase.last' (env : Env) (d x : Node) (hx : Decl.OnlyPhrase Decl.docDescription d.kids x) :
      Decl.lastOf (Decl.description? env) d.kids [] = Rpc.trimSpace (env.strip (env.ctx.nodeText x)) :=
    hx.last (Decl.readDescription env) []
  NoPhrase.last' (env : Env) (d : Node) (h : Decl.NoPhrase Decl.docDescription d.kids) :
      Decl.lastOf (Decl.description? env) d.kids [] = [] :=
    h.last (Decl.readDescription env) []

end Verif.Show
