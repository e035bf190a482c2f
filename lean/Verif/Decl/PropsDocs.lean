import Verif.Decl.PropsModifiers

/-! C81, C82: types from doc comments. -/

namespace Verif.Decl
open Verif.Analyser (Node PType TokType Tok Ctx tyOf)
open Verif.Types (Ty Union add merge)

theorem mem_add (u : Union) (t : Ty) (n : Bytes) : n ∈ (add u t).map Ty.fqn ↔ n ∈ u.map Ty.fqn ∨ n = t.fqn := by
  unfold add
  split
  · next h =>
    rw [Types.hasFQN_iff] at h
    exact ⟨.inl, fun hh => hh.elim id fun e => e ▸ h⟩
  · simp

/-- What one part adds. -/
theorem mem_docPart (env : Env) (u : Union) (part n : Bytes) : n ∈ (docPart env u part).map Ty.fqn ↔
    n ∈ u.map Ty.fqn ∨ (Rpc.trimSpace part ≠ [] ∧ TypeRefers env (Rpc.trimSpace part) n) := by
  unfold docPart TypeRefers
  simp only
  split
  · next h => simp [h]
  · next h0 =>
    split
    · next h =>
      cases hc : env.cls with
      | none => simp [h]
      | some c => simp only [mem_add, h]; simp
    · next h => rw [mem_add]; simp [h, h0, resolve]

/-- C82: the types of a text in a doc comment, such as `A|B[]|null`, are exactly the types that its parts name: each part
stands, without the space around it, for the class of that name, and `self` for the class around. -/
theorem C82_named (env : Env) (text n : Bytes) : n ∈ (typesFromPhpDoc env text).map Ty.fqn ↔ Names env text n := by
  have loop : ∀ (ps : List Bytes) (u : Union), n ∈ (ps.foldl (docPart env) u).map Ty.fqn ↔ n ∈ u.map Ty.fqn ∨
      ∃ part ∈ ps, Rpc.trimSpace part ≠ [] ∧ TypeRefers env (Rpc.trimSpace part) n := by
    intro ps
    induction ps with
    | nil => simp
    | cons p ps ih =>
      intro u
      rw [List.foldl_cons, ih, mem_docPart, or_assoc]
      simp
  unfold typesFromPhpDoc
  rw [loop]
  simp [Names]

theorem splitB_join (l : List Bytes) (hl : l ≠ []) : splitB 124 (joinB 124 l) = l.flatMap (splitB 124) := by
  induction l with
  | nil => exact absurd rfl hl
  | cons a l ih =>
    cases l with
    | nil => simp [joinB]
    | cons b l =>
      rw [joinB]
      · have app : ∀ (a r : Bytes), splitB 124 (a ++ 124 :: r) = splitB 124 a ++ splitB 124 r := by
          intro a r
          induction a with
          | nil => simp [splitB]
          | cons c a iha =>
            by_cases hc : c = 124
            · subst hc
              simp [splitB, iha]
            · simp only [List.cons_append, splitB, hc, if_false, iha]
              cases hs : splitB 124 a with
              | nil => exact absurd hs (splitB_ne_nil _ _)
              | cons x xs => simp
        rw [app, ih (by simp)]
        simp

theorem trimSpace_nil : Rpc.trimSpace [] = [] := by decide +kernel

/-- The types named by texts that are joined with `|`. -/
theorem names_join (env : Env) (l : List Bytes) (n : Bytes) :
    Names env (joinB 124 l) n ↔ ∃ text ∈ l, Names env text n := by
  unfold Names
  cases l with
  | nil => simp [joinB, splitB, trimSpace_nil]
  | cons a l =>
    rw [splitB_join _ (by simp)]
    constructor
    · rintro ⟨part, hp, h⟩
      obtain ⟨t, ht, hp⟩ := List.mem_flatMap.1 hp
      exact ⟨t, ht, part, hp, h⟩
    · rintro ⟨t, ht, part, hp, h⟩
      exact ⟨part, List.mem_flatMap.2 ⟨t, ht, hp⟩, h⟩

theorem names_nil (env : Env) (n : Bytes) : ¬ Names env [] n := by
  rintro ⟨part, hp, h, -⟩
  rw [show splitB 124 [] = [[]] from rfl, List.mem_singleton] at hp
  exact h (by rw [hp]; exact trimSpace_nil)

/-- The types of a tag. -/
theorem names_joinedTypes (env : Env) (tag : Node) (n : Bytes) :
    Names env (joinedTypes env tag.kids) n ↔ TagNames env tag n := by
  unfold joinedTypes
  rw [names_join]
  unfold TagNames TypeWritten
  constructor
  · rintro ⟨text, ht, hn⟩
    obtain ⟨k, hk, ht⟩ := List.mem_flatMap.1 ht
    refine ⟨text, ⟨k, hk, ?_⟩, hn⟩
    unfold typeTexts at ht
    split_ifs at ht with h1 h2 h3
    · exact absurd ht (by simp)
    · exact .inl ⟨(typ_iff _ _).1 h1, by simpa [processTypeNode] using ht⟩
    · right
      unfold processTypeUnionNode at ht
      obtain ⟨q, hq, rfl⟩ := List.mem_map.1 ht
      obtain ⟨hq, hty⟩ := List.mem_filter.1 hq
      exact ⟨(typ_iff _ _).1 h3, q, hq, (typ_iff _ _).1 (by simpa using hty), rfl⟩
    · exact absurd ht (by simp)
  · rintro ⟨text, ⟨k, hk, h⟩, hn⟩
    refine ⟨text, List.mem_flatMap.2 ⟨k, hk, ?_⟩, hn⟩
    unfold typeTexts
    rcases h with ⟨h, rfl⟩ | ⟨h, q, hq, hty, rfl⟩
    · rw [if_pos ((typ_iff _ _).2 h), if_neg (fun he => names_nil env n ?_)]
      · exact List.mem_singleton.2 rfl
      · unfold processTypeNode at he
        rwa [he] at hn
    · have hu := (typ_iff _ _).2 h
      rw [if_neg (by rw [hu]; decide), if_pos hu]
      unfold processTypeUnionNode
      exact List.mem_map.2 ⟨q, List.mem_filter.2 ⟨hq, by simpa using (typ_iff _ _).2 hty⟩, rfl⟩

theorem getTagName_eq (env : Env) (ks : List Node) (name : Bytes) (hname : name ≠ []) :
    getTagName env ks = name ↔ ∃ pre t post, ks = pre ++ .tok t :: post ∧ t.type = .docTagName ∧ env.ctx.tokText t = name ∧
      ∀ q ∈ pre, ¬ IsToken .docTagName q := by
  induction ks with
  | nil =>
    constructor
    · intro h; exact absurd h.symm hname
    · rintro ⟨pre, t, post, h, -⟩; exact absurd h.symm (by simp)
  | cons k ks ih =>
    by_cases hk : IsToken .docTagName k
    · obtain ⟨t, rfl, ht⟩ := hk
      have : getTagName env (.tok t :: ks) = env.ctx.tokText t := by
        unfold getTagName
        rw [List.filterMap_cons_some (tokText_of ht)]
        rfl
      rw [this]
      constructor
      · intro h; exact ⟨[], t, ks, rfl, ht, h, nofun⟩
      · rintro ⟨pre, t', post, h, -, hn, hpre⟩
        cases pre with
        | nil => cases h; exact hn
        | cons p pre => cases h; exact absurd ⟨t, rfl, ht⟩ (hpre _ List.mem_cons_self)
    · have : getTagName env (k :: ks) = getTagName env ks := by
        unfold getTagName
        rw [List.filterMap_cons_none (tokText_none hk)]
      rw [this, ih]
      constructor
      · rintro ⟨pre, t, post, rfl, ht, hn, hpre⟩
        refine ⟨k :: pre, t, post, rfl, ht, hn, fun q hq => ?_⟩
        rcases List.mem_cons.1 hq with rfl | hq
        · exact hk
        · exact hpre q hq
      · rintro ⟨pre, t, post, h, ht, hn, hpre⟩
        cases pre with
        | nil => cases h; exact absurd ⟨t, rfl, ht⟩ hk
        | cons p pre =>
          cases h
          exact ⟨pre, t, post, rfl, ht, hn, fun q hq => hpre q (List.mem_cons_of_mem _ hq)⟩

theorem isDocTag_iff (k : Node) : isDocTag k = true ↔ ∃ i, IsPhrase (.docTag i) k := by
  unfold isDocTag
  cases k with
  | phr ty ks => cases ty <;> simp [typ?, IsPhrase]
  | tok t => simp [typ?, IsPhrase]
  | err t => simp [typ?, IsPhrase]

/-- What a tag that was read has from the text, whatever its sort: its name, and, except for `@deprecated`, its types. -/
theorem parseTag_types {env : Env} {k : Node} {t : Tag} (h : parseTag env k = some t) :
    t.tagName = getTagName env k.kids ∧
    (t.tagName = b!"@deprecated" ∨ t.tagName = b!"@method" ∨ t.typeText = joinedTypes env k.kids) := by
  unfold parseTag at h
  simp only at h
  split_ifs at h with h1 h2 h3 h4 h5 h6 h7
  all_goals cases h
  · exact ⟨rfl, .inr (.inr rfl)⟩
  · exact ⟨rfl, .inr (.inr rfl)⟩
  · exact ⟨rfl, .inr (.inr rfl)⟩
  · exact ⟨rfl, .inr (.inl h5)⟩
  · exact ⟨rfl, .inr (.inr rfl)⟩
  · exact ⟨rfl, .inl h7⟩

/-- The tags with a name, in order, are what is read from the tags of the comment with that name. -/
theorem tags_by_name (env : Env) (d : Node) (name : Bytes) (n : Bytes)
    (hr : ∀ k, getTagName env k.kids = name → ∃ t, parseTag env k = some t ∧ t.typeText = joinedTypes env k.kids)
    (hname : name ≠ []) :
    (∃ t ∈ (newPhpDoc env d).byName name, Names env t.typeText n) ↔
      ∃ k ∈ d.kids, IsTag env.ctx name k ∧ TagNames env k n := by
  unfold Doc.byName newPhpDoc
  constructor
  · rintro ⟨t, ht, hn⟩
    obtain ⟨ht, htn⟩ := List.mem_filter.1 ht
    obtain ⟨k, hk, hp⟩ := List.mem_filterMap.1 ht
    obtain ⟨hk, hd⟩ := List.mem_filter.1 hk
    have hname' : getTagName env k.kids = name := by
      rw [← (parseTag_types hp).1]; simpa using htn
    obtain ⟨t', ht', hty⟩ := hr k hname'
    rw [hp] at ht'
    cases ht'
    refine ⟨k, hk, ⟨(isDocTag_iff k).1 hd, (getTagName_eq env _ _ hname).1 hname'⟩, ?_⟩
    rwa [hty, names_joinedTypes] at hn
  · rintro ⟨k, hk, ⟨hd, htag⟩, hn⟩
    have hname' := (getTagName_eq env _ _ hname).2 htag
    obtain ⟨t, hp, hty⟩ := hr k hname'
    refine ⟨t, List.mem_filter.2 ⟨List.mem_filterMap.2 ⟨k, List.mem_filter.2 ⟨hk, (isDocTag_iff k).2 hd⟩, hp⟩, ?_⟩, ?_⟩
    · rw [(parseTag_types hp).1, hname']; simp
    · rwa [hty, names_joinedTypes]

theorem return_read (env : Env) (k : Node) (h : getTagName env k.kids = b!"@return") :
    ∃ t, parseTag env k = some t ∧ t.typeText = joinedTypes env k.kids :=
  ⟨returnTag env (getTagName env k.kids) k.kids, by unfold parseTag; simp only [h]; rfl, rfl⟩

theorem var_read (env : Env) (k : Node) (h : getTagName env k.kids = b!"@var") :
    ∃ t, parseTag env k = some t ∧ t.typeText = joinedTypes env k.kids :=
  ⟨varTag env (getTagName env k.kids) k.kids, by unfold parseTag; simp only [h]; rfl, rfl⟩

theorem validDoc_of (env : Env) (n d : Node) (h : DocApplies env n (some d)) : env.validDoc n = some (newPhpDoc env d) := by
  unfold Env.validDoc
  obtain ⟨hd, hl⟩ := h
  rw [hd]
  have : (newPhpDoc env d).range = env.ctx.range d := rfl
  simp only [this]
  exact if_pos (by omega)

theorem validDoc_none (env : Env) (n : Node) (h : DocApplies env n none) : env.validDoc n = none := by
  unfold Env.validDoc
  cases hd : env.doc with
  | none => rfl
  | some d =>
    have := h d hd
    simp only
    exact if_neg (by omega)

theorem merge_returns (env : Env) (ts : List Tag) (u : Union) (n : Bytes) :
    n ∈ ((ts.foldl (fun u t => merge u (typesFromPhpDoc env t.typeText)) u).map Ty.fqn) ↔
      n ∈ u.map Ty.fqn ∨ ∃ t ∈ ts, Names env t.typeText n := by
  induction ts generalizing u with
  | nil => simp
  | cons t ts ih =>
    rw [List.foldl_cons, ih, Types.C25_merge, C82_named, or_assoc]
    simp

theorem function_header_returns (env : Env) (hs : List Node) (s : FunctionRec) :
    (hs.foldl (functionHeaderStep env) s).returns = s.returns := by
  induction hs generalizing s with
  | nil => rfl
  | cons k hs ih =>
    rw [List.foldl_cons, ih]
    unfold functionHeaderStep
    split_ifs <;> rfl

theorem method_header_returns (env : Env) (hs : List Node) (s : FunctionRec) :
    (hs.foldl (methodHeaderStep env) s).returns = s.returns := by
  induction hs generalizing s with
  | nil => rfl
  | cons k hs ih =>
    rw [List.foldl_cons, ih]
    unfold methodHeaderStep
    split_ifs <;> rfl

theorem applyDoc_returns (env : Env) (s : FunctionRec) (d : Node) (n : Bytes) (hs : s.returns = []) :
    n ∈ (s.applyDoc env (newPhpDoc env d)).returns.map Ty.fqn ↔
      ∃ k ∈ d.kids, IsTag env.ctx b!"@return" k ∧ TagNames env k n := by
  unfold FunctionRec.applyDoc
  simp only
  rw [merge_returns, hs, ← tags_by_name env d b!"@return" n (return_read env) (by decide)]
  simp

/-- C81: the return types of a function or method are exactly the types that the `@return` tags of its doc comment
name. Its doc comment is the last one before it, if it ends on the line above. -/
theorem C81_documented (env : Env) (ks hs : List Node) (d : Node) (n : Bytes) :
    (OnlyPhrase .functionDeclarationHeader ks (.phr .functionDeclarationHeader hs) →
      DocApplies env (.phr .functionDeclaration ks) (some d) →
      (n ∈ (newFunction env (.phr .functionDeclaration ks)).returns.map Ty.fqn ↔
        ∃ k ∈ d.kids, IsTag env.ctx b!"@return" k ∧ TagNames env k n)) ∧
    (OnlyPhrase .methodDeclarationHeader ks (.phr .methodDeclarationHeader hs) →
      DocApplies env (.phr .methodDeclaration ks) (some d) →
      (n ∈ (newMethod env (.phr .methodDeclaration ks)).returns.map Ty.fqn ↔
        ∃ k ∈ d.kids, IsTag env.ctx b!"@return" k ∧ TagNames env k n)) := by
  constructor
  · intro h hd
    unfold newFunction
    rw [show (Node.phr PType.functionDeclaration ks).kids = ks from rfl, validDoc_of env _ d hd, declaration_header h]
    exact applyDoc_returns env _ d n (by rw [function_header_returns]; rfl)
  · intro h hd
    unfold newMethod
    rw [show (Node.phr PType.methodDeclaration ks).kids = ks from rfl, validDoc_of env _ d hd, declaration_header h]
    exact applyDoc_returns env _ d n (by rw [method_header_returns]; rfl)

/-- C81: without a doc comment on the line above, a function or method has no return types. -/
theorem C81_undocumented (env : Env) (ks hs : List Node) :
    (OnlyPhrase .functionDeclarationHeader ks (.phr .functionDeclarationHeader hs) →
      DocApplies env (.phr .functionDeclaration ks) none → (newFunction env (.phr .functionDeclaration ks)).returns = []) ∧
    (OnlyPhrase .methodDeclarationHeader ks (.phr .methodDeclarationHeader hs) →
      DocApplies env (.phr .methodDeclaration ks) none → (newMethod env (.phr .methodDeclaration ks)).returns = []) := by
  constructor
  · intro h hd
    unfold newFunction
    rw [show (Node.phr PType.functionDeclaration ks).kids = ks from rfl, validDoc_none env _ hd, declaration_header h]
    exact function_header_returns env hs emptyFunction
  · intro h hd
    unfold newMethod
    rw [show (Node.phr PType.methodDeclaration ks).kids = ks from rfl, validDoc_none env _ hd, declaration_header h]
    exact method_header_returns env hs emptyFunction

/-- C81 for properties: the types are those that the first `@var` tag names. -/
theorem C81_property (env : Env) (m : Modifiers) (es : List Node) (d : Node) (n : Bytes)
    (hd : DocApplies env (.phr .propertyElement es) (some d)) (pre post : List Node) (k : Node)
    (hk : d.kids = pre ++ k :: post) (ht : IsTag env.ctx b!"@var" k) (hpre : ∀ q ∈ pre, ¬ IsTag env.ctx b!"@var" q) :
    n ∈ (newProperty env m (.phr .propertyElement es)).types.map Ty.fqn ↔ TagNames env k n := by
  obtain ⟨hdk, htag⟩ := ht
  have hname := (getTagName_eq env _ _ (by decide)).2 htag
  obtain ⟨t, hp, hty⟩ := var_read env k hname
  have hv : ∃ rest, (newPhpDoc env d).byName b!"@var" = t :: rest := by
    unfold Doc.byName newPhpDoc
    rw [hk]
    simp only [List.filter_append, List.filterMap_append]
    have hnil : ((pre.filter isDocTag).filterMap (parseTag env)).filter (fun t => decide (t.tagName = b!"@var")) = [] := by
      refine List.filter_eq_nil_iff.2 fun t' ht' hh => ?_
      obtain ⟨q, hq, hp'⟩ := List.mem_filterMap.1 ht'
      obtain ⟨hq, hqd⟩ := List.mem_filter.1 hq
      refine hpre q hq ⟨(isDocTag_iff q).1 hqd, (getTagName_eq env _ _ (by decide)).1 ?_⟩
      rw [← (parseTag_types hp').1]
      simpa using hh
    rw [hnil, List.nil_append, List.filter_cons_of_pos ((isDocTag_iff k).2 hdk), List.filterMap_cons_some hp,
      List.filter_cons_of_pos (by rw [(parseTag_types hp).1, hname]; rfl)]
    exact ⟨_, rfl⟩
  obtain ⟨rest, hv⟩ := hv
  unfold newProperty
  rw [validDoc_of env _ d hd]
  unfold PropertyRec.applyDoc
  simp only [hv]
  rw [Types.C25_merge, C82_named, hty, names_joinedTypes]
  simp

example : OnlyPhrase .functionDeclarationHeader (part 3).kids (sub (part 3) 0) ∧
    DocApplies senv (part 3) (some (part 1)) ∧ IsTag senv.ctx b!"@return" (sub (part 1) 5) ∧
    TagNames senv (sub (part 1) 5) b!"\\App\\Baz" ∧
    (newFunction senv (part 3)).returns.map Ty.fqn = [b!"\\App\\Baz"] := by
  refine ⟨OnlyPhrase.of_filter rfl, ⟨rfl, by decide +kernel⟩, IsTag.of 1 _ _ rfl rfl (by decide +kernel), ?_, by decide +kernel⟩
  exact ⟨b!"Baz", ⟨_, List.mem_of_getElem? (i := 2) rfl, .inl ⟨⟨_, rfl⟩, by decide +kernel⟩⟩, b!"Baz", by decide +kernel, by decide +kernel,
    fun h => absurd h (by decide), fun _ => by decide +kernel⟩

example : DocApplies senv (part 5) none ∧ DocApplies senv0 (part 3) none := by
  refine ⟨fun d hd => ?_, fun d hd => by cases hd⟩
  cases hd
  decide +kernel

example : Names senv b!"Bar | null" b!"\\App\\Bar" ∧ Names senv b!"Bar | null" b!"null" ∧
    ¬ Names senv b!"Bar | null" b!"\\App\\Baz" := by
  simp only [← C82_named]
  decide +kernel

end Verif.Decl
