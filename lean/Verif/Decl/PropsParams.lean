import Verif.Decl.PropsDocs

/-! C80: parameters. C85: values of constants. -/

namespace Verif.Decl
open Verif.Analyser (Node PType TokType Tok Ctx tyOf)
open Verif.Types (Ty Union add merge)

/-- What the children before `=` do. -/
def paramBefore (env : Env) (p : Param) (k : Node) : Param :=
  match k with
  | .phr ty qs => if ty = .typeDeclaration then { p with types := add p.types (declaredType env (.phr ty qs)) } else p
  | .tok t => if t.type = .variableName then { p with name := env.ctx.tokText t, varRange := env.ctx.range (.tok t) } else p
  | .err _ => p

theorem paramLoop_before (env : Env) (ks rest : List Node) (p : Param) (h : ∀ k ∈ ks, ¬ IsToken .equals k) :
    paramLoop env (ks ++ rest) false false p = paramLoop env rest false false (ks.foldl (paramBefore env) p) := by
  induction ks generalizing p with
  | nil => rfl
  | cons k ks ih =>
    have h' := fun k' hk' => h k' (List.mem_cons_of_mem _ hk')
    have hk := h k List.mem_cons_self
    cases k with
    | phr ty qs =>
      rw [List.cons_append, paramLoop, ih _ h', List.foldl_cons]
      congr 2
    | tok t =>
      rw [List.cons_append, paramLoop, if_neg fun ht => hk ⟨t, rfl, ht⟩, if_neg (by simp), ih _ h', List.foldl_cons]
      congr 2
    | err t => rw [List.cons_append, paramLoop, ih _ h']; rfl

/-- The nodes of a value. -/
def Value (v : List Node) : Prop :=
  ∀ k ∈ v, ¬ IsToken .equals k ∧ ¬ IsToken .variableName k ∧ ¬ IsPhrase .typeDeclaration k ∧
    ¬ IsPhrase .identifier k ∧ ∀ t, k ≠ .err t

theorem textOf_cons (c : Ctx) (k : Node) (v : List Node) : textOf c (k :: v) = c.nodeText k ++ textOf c v := by
  simp [textOf]

theorem paramLoop_value (env : Env) (v : List Node) (p : Param) (skip : Bool) (h : Value v)
    (hs : skip = true → ∀ k, v.head? = some k → ¬ IsToken .whitespace k) :
    paramLoop env v true skip p =
      { p with hasValue := p.hasValue || !v.isEmpty, value := p.value ++ textOf env.ctx v } := by
  induction v generalizing p skip with
  | nil => simp [paramLoop, textOf]
  | cons k v ih =>
    have h' : Value v := fun k' hk' => h k' (List.mem_cons_of_mem _ hk')
    obtain ⟨h1, h2, h3, -, h4⟩ := h k List.mem_cons_self
    cases k with
    | phr ty qs =>
      rw [paramLoop, if_neg fun ht => h3 ⟨qs, by rw [ht]⟩, if_pos rfl, ih _ _ h' (by simp), textOf_cons]
      simp
    | tok t =>
      rw [paramLoop, if_neg fun ht => h1 ⟨t, rfl, ht⟩, if_neg fun ht => hs ht.1 _ rfl ⟨t, rfl, ht.2⟩,
        if_neg fun ht => h2 ⟨t, rfl, ht⟩, if_pos rfl, ih _ _ h' (by simp), textOf_cons]
      simp [Ctx.nodeText]
    | err t => exact absurd rfl (h4 t)

theorem paramLoop_space (env : Env) (ws v : List Node) (p : Param) (h : ∀ k ∈ ws, IsToken .whitespace k) :
    paramLoop env (ws ++ v) true true p = paramLoop env v true true p := by
  induction ws with
  | nil => rfl
  | cons k ws ih =>
    obtain ⟨t, rfl, ht⟩ := h k List.mem_cons_self
    rw [List.cons_append, paramLoop, if_neg (by rw [ht]; decide), if_pos ⟨rfl, ht⟩]
    exact ih fun k' hk' => h k' (List.mem_cons_of_mem _ hk')

/-- The children before `=` leave the fields that concern the value alone. -/
theorem paramBefore_keep (env : Env) (ks : List Node) (p : Param) :
    (ks.foldl (paramBefore env) p).hasValue = p.hasValue ∧ (ks.foldl (paramBefore env) p).value = p.value ∧
    (ks.foldl (paramBefore env) p).range = p.range ∧ (ks.foldl (paramBefore env) p).description = p.description := by
  induction ks generalizing p with
  | nil => exact ⟨rfl, rfl, rfl, rfl⟩
  | cons k ks ih =>
    rw [List.foldl_cons]
    obtain ⟨h1, h2, h3, h4⟩ := ih (paramBefore env p k)
    rw [h1, h2, h3, h4]
    unfold paramBefore
    repeat' split
    all_goals exact ⟨rfl, rfl, rfl, rfl⟩

theorem paramBefore_var_keep (env : Env) (ks : List Node) (p : Param) (h : ∀ k ∈ ks, ¬ IsToken .variableName k) :
    (ks.foldl (paramBefore env) p).name = p.name ∧ (ks.foldl (paramBefore env) p).varRange = p.varRange := by
  induction ks generalizing p with
  | nil => exact ⟨rfl, rfl⟩
  | cons k ks ih =>
    rw [List.foldl_cons]
    obtain ⟨h1, h2⟩ := ih (paramBefore env p k) fun k' hk' => h k' (List.mem_cons_of_mem _ hk')
    rw [h1, h2]
    cases k with
    | tok t =>
      unfold paramBefore
      simp only
      rw [if_neg fun ht => h _ List.mem_cons_self ⟨t, rfl, ht⟩]
      exact ⟨rfl, rfl⟩
    | phr ty qs => unfold paramBefore; simp only; split <;> exact ⟨rfl, rfl⟩
    | err t => exact ⟨rfl, rfl⟩

theorem paramBefore_var (env : Env) (ks : List Node) (p : Param) (t : Tok) (h : OnlyToken .variableName ks t) :
    (ks.foldl (paramBefore env) p).name = env.ctx.tokText t ∧
    (ks.foldl (paramBefore env) p).varRange = env.ctx.range (.tok t) := by
  obtain ⟨pre, post, rfl, ht, hn⟩ := h
  rw [List.foldl_append, List.foldl_cons]
  obtain ⟨h1, h2⟩ := paramBefore_var_keep env post (paramBefore env (pre.foldl (paramBefore env) p) (.tok t))
    fun k hk => hn k (List.mem_append_right _ hk)
  rw [h1, h2]
  unfold paramBefore
  simp only [ht, if_true]
  exact ⟨trivial, trivial⟩

theorem paramBefore_types_keep (env : Env) (ks : List Node) (p : Param) (h : NoPhrase .typeDeclaration ks) :
    (ks.foldl (paramBefore env) p).types = p.types := by
  induction ks generalizing p with
  | nil => rfl
  | cons k ks ih =>
    rw [List.foldl_cons, ih _ fun k' hk' => h k' (List.mem_cons_of_mem _ hk')]
    cases k with
    | tok t => unfold paramBefore; simp only; split <;> rfl
    | phr ty qs =>
      unfold paramBefore
      simp only
      rw [if_neg fun ht => h _ List.mem_cons_self ⟨qs, by rw [ht]⟩]
    | err t => rfl

theorem paramBefore_types (env : Env) (ks : List Node) (p : Param) (x : Node) (h : OnlyPhrase .typeDeclaration ks x) :
    (ks.foldl (paramBefore env) p).types = add p.types (declaredType env x) := by
  obtain ⟨pre, post, rfl, ⟨qs, rfl⟩, hn⟩ := h
  rw [List.foldl_append, List.foldl_cons, paramBefore_types_keep env post _ fun k hk => hn k (List.mem_append_right _ hk)]
  rw [show ∀ p, paramBefore env p (.phr .typeDeclaration qs) =
    { p with types := add p.types (declaredType env (.phr .typeDeclaration qs)) } from fun p => by simp [paramBefore]]
  simp only
  rw [paramBefore_types_keep env pre _ fun k hk => hn k (List.mem_append_left _ hk)]

/-- What `newParameter` makes of a parameter. -/
theorem newParameter_spec (env : Env) (e : Node) (type : Option Node) (var : Tok) (value : Option (List Node))
    (h : ParamWritten e type var value) :
    Recorded env.ctx e (newParameter env e) ∧ (newParameter env e).types = (type.map (declaredType env)).toList ∧
      (newParameter env e).name = env.ctx.tokText var ∧ (newParameter env e).description = [] := by
  have key : ∀ type var value, ParamWritten e type var value →
      ((newParameter env e).name = env.ctx.tokText var ∧ (newParameter env e).varRange = env.ctx.range (.tok var) ∧
      (newParameter env e).range = env.ctx.range e ∧ (newParameter env e).hasValue = value.isSome ∧
      (newParameter env e).value = textOf env.ctx (value.getD [])) ∧
      (newParameter env e).types = (type.map (declaredType env)).toList ∧ (newParameter env e).description = [] := by
    intro type var value hw
    obtain ⟨before, ⟨hno, hval⟩, hvar, htype⟩ := hw.parts
    have hty : ∀ p : Param, p.types = [] →
        (before.foldl (paramBefore env) p).types = (type.map (declaredType env)).toList := by
      intro p hp
      cases type with
      | none => rw [paramBefore_types_keep env before p htype, hp]; rfl
      | some t => rw [paramBefore_types env before p t htype, hp]; rfl
    unfold newParameter
    generalize hp0 : ({ range := env.ctx.range e, varRange := env.ctx.range e, description := [], hasValue := false, name := [], types := [], value := [] } : Param) = p0
    obtain ⟨k1, k2, k3, k4⟩ := paramBefore_keep env before p0
    obtain ⟨v1, v2⟩ := paramBefore_var env before p0 var hvar
    have t1 := hty p0 (by rw [← hp0])
    cases value with
    | none =>
      rw [show e.kids = before from hval, ← List.append_nil before, paramLoop_before env before [] p0 hno, paramLoop]
      rw [k1, k2, k3, k4, v1, v2, t1, ← hp0]
      exact ⟨⟨rfl, rfl, rfl, rfl, rfl⟩, rfl, rfl⟩
    | some v =>
      obtain ⟨eq, ws, he, heq, hws, hv0, hhead, hv⟩ := hval
      rw [he, paramLoop_before env before _ p0 hno, paramLoop, if_pos heq, paramLoop_space env ws v _ hws,
        paramLoop_value env v _ true hv fun _ => hhead]
      simp only [k1, k2, k3, k4, v1, v2, t1]
      rw [← hp0]
      refine ⟨⟨trivial, trivial, rfl, ?_, rfl⟩, trivial, rfl⟩
      cases v with
      | nil => exact absurd rfl hv0
      | cons _ _ => rfl
  obtain ⟨h1, h2, h3⟩ := key type var value h
  exact ⟨fun type var value hw => (key type var value hw).1, h2, h1.1, h3⟩

theorem param_read (env : Env) (k : Node) (h : getTagName env k.kids = b!"@param") :
    parseTag env k = some (paramOrPropTypeTag env (getTagName env k.kids) k.kids) := by
  unfold parseTag
  simp only [h]
  rfl

theorem lastOf_mem {α : Type} (f : Node → Option α) (ks : List Node) (d : α) :
    lastOf f ks d = d ∨ ∃ k ∈ ks, f k = some (lastOf f ks d) := by
  unfold lastOf
  cases h : (ks.filterMap f).getLast? with
  | none => exact .inl rfl
  | some a =>
    right
    obtain ⟨k, hk, hf⟩ := List.mem_filterMap.1 (List.mem_of_getLast? h)
    exact ⟨k, hk, by rw [hf]; rfl⟩

/-- A tag that does not mention a variable is not the tag of that variable. -/
theorem not_param_tag {env : Env} {q : Node} {t : Tag} {name : Bytes} (hname : name ≠ []) (hd : isDocTag q = true)
    (hp : parseTag env q = some t)
    (h : IsTag env.ctx b!"@param" q → ∀ t, .tok t ∈ q.kids → t.type = .variableName → env.ctx.tokText t ≠ name) :
    decide (t.tagName = b!"@param" ∧ t.name = name) = false := by
  by_contra hc
  simp only [Bool.not_eq_false, decide_eq_true_eq] at hc
  obtain ⟨h1, h2⟩ := hc
  have hn : getTagName env q.kids = b!"@param" := by rw [← (parseTag_types hp).1]; exact h1
  have htag : IsTag env.ctx b!"@param" q := ⟨(isDocTag_iff q).1 hd, (getTagName_eq env _ _ (by decide)).1 hn⟩
  rw [param_read env q hn] at hp
  cases hp
  rcases lastOf_mem (tokText? env.ctx .variableName) q.kids [] with he | ⟨k, hk, hf⟩
  · exact hname (h2.symm.trans he)
  · cases k with
    | tok t =>
      by_cases ht : t.type = .variableName
      · rw [show tokText? env.ctx .variableName (.tok t) = some (env.ctx.tokText t) from if_pos ht] at hf
        exact h htag t hk ht ((Option.some.inj hf).trans h2)
      · rw [show tokText? env.ctx .variableName (.tok t) = none from if_neg ht] at hf
        cases hf
    | phr _ _ => cases hf
    | err _ => cases hf

theorem findParamTag_some (env : Env) (d k : Node) (name : Bytes) (hname : name ≠ [])
    (h : ParamTag env.ctx d name k) :
    (newPhpDoc env d).findParamTag name = some (paramOrPropTypeTag env b!"@param" k.kids) := by
  obtain ⟨pre, post, hk, ⟨hd, htag⟩, ⟨v, hv, hvn⟩, hpre⟩ := h
  have hn := (getTagName_eq env _ _ (by decide)).2 htag
  unfold Doc.findParamTag newPhpDoc
  rw [hk]
  simp only [List.filter_append, List.filterMap_append, List.find?_append]
  have hnone : ((pre.filter isDocTag).filterMap (parseTag env)).find?
      (fun t => decide (t.tagName = b!"@param" ∧ t.name = name)) = none := by
    refine List.find?_eq_none.2 fun t ht => ?_
    obtain ⟨q, hq, hp⟩ := List.mem_filterMap.1 ht
    obtain ⟨hq, hqd⟩ := List.mem_filter.1 hq
    rw [not_param_tag hname hqd hp (hpre q hq)]
    decide
  rw [hnone, Option.none_or, List.filter_cons_of_pos ((isDocTag_iff k).2 hd),
    List.filterMap_cons_some (param_read env k hn), List.find?_cons_of_pos]
  · rw [hn]
  · rw [hn]
    simp only [paramOrPropTypeTag, decide_eq_true_eq]
    exact ⟨trivial, (hv.text _).trans hvn⟩

theorem findParamTag_none (env : Env) (d : Node) (name : Bytes) (hname : name ≠ [])
    (h : NoParamTag env.ctx d name) : (newPhpDoc env d).findParamTag name = none := by
  unfold Doc.findParamTag newPhpDoc
  refine List.find?_eq_none.2 fun t ht => ?_
  obtain ⟨q, hq, hp⟩ := List.mem_filterMap.1 ht
  obtain ⟨hq, hqd⟩ := List.mem_filter.1 hq
  rw [not_param_tag hname hqd hp (h q hq)]
  decide

theorem function_header_params (env : Env) (hs ls : List Node) (s : FunctionRec)
    (h : OnlyPhrase .parameterDeclarationList hs (.phr .parameterDeclarationList ls)) :
    (hs.foldl (functionHeaderStep env) s).params =
      s.params ++ (ls.filter fun k => typ? k = some .parameterDeclaration).map (newParameter env) := by
  have keep : ∀ (ks : List Node) (s : FunctionRec), (∀ k ∈ ks, ¬ IsPhrase .parameterDeclarationList k) →
      (ks.foldl (functionHeaderStep env) s).params = s.params := by
    intro ks
    induction ks with
    | nil => intros; rfl
    | cons k ks ih =>
      intro s hk
      rw [List.foldl_cons, ih _ fun k' h' => hk k' (List.mem_cons_of_mem _ h')]
      have := hk k List.mem_cons_self
      rw [← typ_iff] at this
      unfold functionHeaderStep
      split_ifs <;> rfl
  obtain ⟨pre, post, rfl, -, hn⟩ := h
  rw [List.foldl_append, List.foldl_cons, keep post _ fun k hk => hn k (List.mem_append_right _ hk)]
  rw [show ∀ s, functionHeaderStep env s (.phr .parameterDeclarationList ls) =
    { s with params := s.params ++ newParameters env (.phr .parameterDeclarationList ls) } from fun s => rfl]
  simp only
  rw [keep pre _ fun k hk => hn k (List.mem_append_left _ hk)]
  rfl

theorem method_header_params (env : Env) (hs ls : List Node) (s : FunctionRec)
    (h : OnlyPhrase .parameterDeclarationList hs (.phr .parameterDeclarationList ls)) :
    (hs.foldl (methodHeaderStep env) s).params =
      s.params ++ (ls.filter fun k => typ? k = some .parameterDeclaration).map (newParameter env) := by
  have keep : ∀ (ks : List Node) (s : FunctionRec), (∀ k ∈ ks, ¬ IsPhrase .parameterDeclarationList k) →
      (ks.foldl (methodHeaderStep env) s).params = s.params := by
    intro ks
    induction ks with
    | nil => intros; rfl
    | cons k ks ih =>
      intro s hk
      rw [List.foldl_cons, ih _ fun k' h' => hk k' (List.mem_cons_of_mem _ h')]
      have := hk k List.mem_cons_self
      rw [← typ_iff] at this
      unfold methodHeaderStep
      split_ifs <;> rfl
  obtain ⟨pre, post, rfl, -, hn⟩ := h
  rw [List.foldl_append, List.foldl_cons, keep post _ fun k hk => hn k (List.mem_append_right _ hk)]
  rw [show ∀ s, methodHeaderStep env s (.phr .parameterDeclarationList ls) =
    { s with params := s.params ++ newParameters env (.phr .parameterDeclarationList ls) } from fun s => rfl]
  simp only
  rw [keep pre _ fun k hk => hn k (List.mem_append_left _ hk)]
  rfl

/-- The parameters of a function or a method, before the doc comment is looked at and after. -/
theorem params_of (env : Env) (ks hs ls es : List Node)
    (hl : OnlyPhrase .parameterDeclarationList hs (.phr .parameterDeclarationList ls))
    (he : Listed .parameterDeclaration ls es) :
    (OnlyPhrase .functionDeclarationHeader ks (.phr .functionDeclarationHeader hs) →
      (newFunction env (.phr .functionDeclaration ks)).params = es.map fun e =>
        match env.validDoc (.phr .functionDeclaration ks) with
        | some d => (newParameter env e).applyDoc env d
        | none => newParameter env e) ∧
    (OnlyPhrase .methodDeclarationHeader ks (.phr .methodDeclarationHeader hs) →
      (newMethod env (.phr .methodDeclaration ks)).params = es.map fun e =>
        match env.validDoc (.phr .methodDeclaration ks) with
        | some d => (newParameter env e).applyDoc env d
        | none => newParameter env e) := by
  constructor
  · intro h
    unfold newFunction
    rw [show (Node.phr PType.functionDeclaration ks).kids = ks from rfl, declaration_header h]
    have hp := function_header_params env hs ls emptyFunction hl
    rw [he.filter] at hp
    cases env.validDoc (.phr .functionDeclaration ks) with
    | none => exact hp
    | some d =>
      simp only [FunctionRec.applyDoc, hp]
      simp [emptyFunction]
  · intro h
    unfold newMethod
    rw [show (Node.phr PType.methodDeclaration ks).kids = ks from rfl, declaration_header h]
    have hp := method_header_params env hs ls emptyFunction hl
    rw [he.filter] at hp
    cases env.validDoc (.phr .methodDeclaration ks) with
    | none => exact hp
    | some d =>
      simp only [FunctionRec.applyDoc, hp]
      simp [emptyFunction]

theorem applyDoc_keep (env : Env) (d : Doc) (p : Param) : (p.applyDoc env d).name = p.name ∧
    (p.applyDoc env d).varRange = p.varRange ∧ (p.applyDoc env d).range = p.range ∧
    (p.applyDoc env d).hasValue = p.hasValue ∧ (p.applyDoc env d).value = p.value := by
  unfold Param.applyDoc
  split <;> exact ⟨rfl, rfl, rfl, rfl, rfl⟩

theorem recorded_doc (env : Env) (e : Node) (doc : Option Doc) : Recorded env.ctx e
    (match doc with | some d => (newParameter env e).applyDoc env d | none => newParameter env e) := by
  intro type var value hw
  have := (newParameter_spec env e type var value hw).1 type var value hw
  cases doc with
  | none => exact this
  | some d =>
    obtain ⟨h1, h2, h3, h4, h5⟩ := applyDoc_keep env d (newParameter env e)
    simp only [h1, h2, h3, h4, h5]
    exact this

/-- C80: the parameters recorded for a function or a method are those that are declared, in that order, each with the
name and the default value that are written. -/
theorem C80_declared (env : Env) (ks hs ls es : List Node)
    (hl : OnlyPhrase .parameterDeclarationList hs (.phr .parameterDeclarationList ls))
    (he : Listed .parameterDeclaration ls es) :
    (OnlyPhrase .functionDeclarationHeader ks (.phr .functionDeclarationHeader hs) →
      List.Forall₂ (Recorded env.ctx) es (newFunction env (.phr .functionDeclaration ks)).params) ∧
    (OnlyPhrase .methodDeclarationHeader ks (.phr .methodDeclarationHeader hs) →
      List.Forall₂ (Recorded env.ctx) es (newMethod env (.phr .methodDeclaration ks)).params) := by
  obtain ⟨h1, h2⟩ := params_of env ks hs ls es hl he
  constructor
  · intro h; rw [h1 h]; exact forall₂_map_right _ (fun e => recorded_doc env e _) es
  · intro h; rw [h2 h]; exact forall₂_map_right _ (fun e => recorded_doc env e _) es

theorem mem_declared (env : Env) (type : Option Node) (n : Bytes) :
    n ∈ ((type.map (declaredType env)).toList).map Ty.fqn ↔ DeclaredType env type n := by
  cases type with
  | none => simp [DeclaredType]
  | some t => simp [DeclaredType, declaredType, resolve]

/-- The types of a parameter under a doc comment. -/
theorem types_doc (env : Env) (e : Node) (type : Option Node) (var : Tok) (value : Option (List Node))
    (hw : ParamWritten e type var value) (hvar : env.ctx.tokText var ≠ []) (d : Node) (n : Bytes) :
    (∀ k, ParamTag env.ctx d (env.ctx.tokText var) k →
      (n ∈ ((newParameter env e).applyDoc env (newPhpDoc env d)).types.map Ty.fqn ↔
        DeclaredType env type n ∨ TagNames env k n)) ∧
    (NoParamTag env.ctx d (env.ctx.tokText var) →
      (n ∈ ((newParameter env e).applyDoc env (newPhpDoc env d)).types.map Ty.fqn ↔ DeclaredType env type n)) := by
  obtain ⟨-, hty, hname, -⟩ := newParameter_spec env e type var value hw
  constructor
  · intro k hk
    unfold Param.applyDoc
    rw [hname, findParamTag_some env d k _ hvar hk]
    simp only
    rw [Types.C25_merge, C82_named, hty, mem_declared]
    exact or_congr Iff.rfl (names_joinedTypes env k n)
  · intro hk
    unfold Param.applyDoc
    rw [hname, findParamTag_none env d _ hvar hk]
    simp only
    rw [hty, mem_declared]

/-- C80: the types recorded for a parameter are the type that is declared in the code and those that the first `@param`
tag for that variable names; without a doc comment on the line above, or without such a tag, only the declared one. -/
theorem C80_types (env : Env) (ks hs ls es : List Node) (i : Nat) (e : Node) (type : Option Node) (var : Tok)
    (value : Option (List Node)) (n : Bytes)
    (h : OnlyPhrase .functionDeclarationHeader ks (.phr .functionDeclarationHeader hs))
    (hl : OnlyPhrase .parameterDeclarationList hs (.phr .parameterDeclarationList ls))
    (he : Listed .parameterDeclaration ls es) (hi : es[i]? = some e)
    (hw : ParamWritten e type var value) (hvar : env.ctx.tokText var ≠ []) :
    ∃ p, (newFunction env (.phr .functionDeclaration ks)).params[i]? = some p ∧
      (∀ d k, DocApplies env (.phr .functionDeclaration ks) (some d) → ParamTag env.ctx d (env.ctx.tokText var) k →
        (n ∈ p.types.map Ty.fqn ↔ DeclaredType env type n ∨ TagNames env k n)) ∧
      (∀ d, DocApplies env (.phr .functionDeclaration ks) (some d) → NoParamTag env.ctx d (env.ctx.tokText var) →
        (n ∈ p.types.map Ty.fqn ↔ DeclaredType env type n)) ∧
      (DocApplies env (.phr .functionDeclaration ks) none → (n ∈ p.types.map Ty.fqn ↔ DeclaredType env type n)) := by
  rw [(params_of env ks hs ls es hl he).1 h]
  refine ⟨_, by rw [List.getElem?_map, hi]; rfl, fun d k hd hk => ?_, fun d hd hk => ?_, fun hd => ?_⟩
  · rw [validDoc_of env _ d hd]
    exact (types_doc env e type var value hw hvar d n).1 k hk
  · rw [validDoc_of env _ d hd]
    exact (types_doc env e type var value hw hvar d n).2 hk
  · rw [validDoc_none env _ hd]
    simp only
    rw [(newParameter_spec env e type var value hw).2.1, mem_declared]

/-- C80 for methods, in the same way. -/
theorem C80_method_types (env : Env) (ks hs ls es : List Node) (i : Nat) (e : Node) (type : Option Node) (var : Tok)
    (value : Option (List Node)) (n : Bytes)
    (h : OnlyPhrase .methodDeclarationHeader ks (.phr .methodDeclarationHeader hs))
    (hl : OnlyPhrase .parameterDeclarationList hs (.phr .parameterDeclarationList ls))
    (he : Listed .parameterDeclaration ls es) (hi : es[i]? = some e)
    (hw : ParamWritten e type var value) (hvar : env.ctx.tokText var ≠ []) :
    ∃ p, (newMethod env (.phr .methodDeclaration ks)).params[i]? = some p ∧
      (∀ d k, DocApplies env (.phr .methodDeclaration ks) (some d) → ParamTag env.ctx d (env.ctx.tokText var) k →
        (n ∈ p.types.map Ty.fqn ↔ DeclaredType env type n ∨ TagNames env k n)) ∧
      (∀ d, DocApplies env (.phr .methodDeclaration ks) (some d) → NoParamTag env.ctx d (env.ctx.tokText var) →
        (n ∈ p.types.map Ty.fqn ↔ DeclaredType env type n)) ∧
      (DocApplies env (.phr .methodDeclaration ks) none → (n ∈ p.types.map Ty.fqn ↔ DeclaredType env type n)) := by
  rw [(params_of env ks hs ls es hl he).2 h]
  refine ⟨_, by rw [List.getElem?_map, hi]; rfl, fun d k hd hk => ?_, fun d hd hk => ?_, fun hd => ?_⟩
  · rw [validDoc_of env _ d hd]
    exact (types_doc env e type var value hw hvar d n).1 k hk
  · rw [validDoc_of env _ d hd]
    exact (types_doc env e type var value hw hvar d n).2 hk
  · rw [validDoc_none env _ hd]
    simp only
    rw [(newParameter_spec env e type var value hw).2.1, mem_declared]

/-- C80: the text of the default value is the text of the document from the beginning to the end of the value. -/
theorem C80_value_text (c : Ctx) (v : List Node) (a b : Nat) (h : Contiguous v a b) (hb : b ≤ c.text.length)
    (he : ∀ k ∈ v, ∀ t, k ≠ .err t) : textOf c v = c.slice a b := by
  induction h with
  | nil a => simp [textOf, Ctx.slice]
  | @cons k ks a b f l hf hl hfo hle hrest ih =>
    have hmono : ∀ {ks : List Node} {a b : Nat}, Contiguous ks a b → a ≤ b := by
      intro ks a b h
      induction h with
      | nil => exact Nat.le_refl _
      | cons _ _ _ hle _ ih => exact Nat.le_trans hle ih
    rw [textOf_cons, ih hb fun k' hk' => he k' (List.mem_cons_of_mem _ hk')]
    have hk : c.nodeText k = c.slice a (l.offset + l.length) := by
      cases k with
      | tok t =>
        cases hf
        cases hl
        rw [← hfo]
        rfl
      | phr ty qs => unfold Ctx.nodeText; simp only [hf, hl, hfo]
      | err t => exact absurd rfl (he _ List.mem_cons_self t)
    rw [hk]
    have hm := hmono hrest
    unfold Ctx.slice
    apply List.ext_getElem?
    intro i
    simp only [List.getElem?_append, List.getElem?_drop, List.getElem?_take, List.length_drop, List.length_take]
    split_ifs <;> first | rfl | (congr 1; omega)

theorem valueLoop_before (c : Ctx) (ks rest : List Node) (h : ∀ k ∈ ks, ¬ IsToken .equals k) :
    valueLoop c (ks ++ rest) false false [] = valueLoop c rest false false [] := by
  induction ks with
  | nil => rfl
  | cons k ks ih =>
    have ih := ih fun k' hk' => h k' (List.mem_cons_of_mem _ hk')
    have hk := h k List.mem_cons_self
    cases k with
    | phr ty qs => rw [List.cons_append, valueLoop, if_neg (by decide), ih]
    | tok t =>
      rw [List.cons_append, valueLoop, if_neg fun ht => hk ⟨t, rfl, ht⟩, if_neg (by simp), if_neg (by decide), ih]
    | err t => rw [List.cons_append, valueLoop, ih]

theorem valueLoop_space (c : Ctx) (ws v : List Node) (h : ∀ k ∈ ws, IsToken .whitespace k) :
    valueLoop c (ws ++ v) true true [] = valueLoop c v true true [] := by
  induction ws with
  | nil => rfl
  | cons k ws ih =>
    obtain ⟨t, rfl, ht⟩ := h k List.mem_cons_self
    rw [List.cons_append, valueLoop, if_neg (by rw [ht]; decide), if_pos ⟨rfl, ht⟩]
    exact ih fun k' hk' => h k' (List.mem_cons_of_mem _ hk')

theorem valueLoop_value (c : Ctx) (v : List Node) (acc : Bytes) (skip : Bool) (h : Value v)
    (hs : skip = true → ∀ k, v.head? = some k → ¬ IsToken .whitespace k) :
    valueLoop c v true skip acc = acc ++ textOf c v := by
  induction v generalizing acc skip with
  | nil => simp [valueLoop, textOf]
  | cons k v ih =>
    have h' : Value v := fun k' hk' => h k' (List.mem_cons_of_mem _ hk')
    obtain ⟨h1, -, -, -, h4⟩ := h k List.mem_cons_self
    cases k with
    | phr ty qs => rw [valueLoop, if_pos rfl, ih _ _ h' (by simp), textOf_cons, List.append_assoc]
    | tok t =>
      rw [valueLoop, if_neg fun ht => h1 ⟨t, rfl, ht⟩, if_neg fun ht => hs ht.1 _ rfl ⟨t, rfl, ht.2⟩, if_pos rfl,
        ih _ _ h' (by simp), textOf_cons, List.append_assoc]
      rfl
    | err t => exact absurd rfl (h4 t)

theorem valueLoop_of (c : Ctx) (ks before : List Node) (value : Option (List Node)) (h : HasValue ks before value) :
    valueLoop c ks false false [] = textOf c (value.getD []) := by
  obtain ⟨hno, hval⟩ := h
  cases value with
  | none =>
    rw [show ks = before from hval, ← List.append_nil before, valueLoop_before c before [] hno]
    rfl
  | some v =>
    obtain ⟨eq, ws, he, heq, hws, hv0, hhead, hv⟩ := hval
    rw [he, valueLoop_before c before _ hno, valueLoop, if_pos heq, valueLoop_space c ws v hws,
      valueLoop_value c v [] true hv fun _ => hhead]
    rfl

theorem beforeEquals_of (ks before : List Node) (value : Option (List Node)) (h : HasValue ks before value) :
    beforeEquals ks = before := by
  obtain ⟨hno, hval⟩ := h
  have hb : ∀ k ∈ before, (tokType? k != some .equals) = true := by
    intro k hk
    have := hno k hk
    rw [← tokType_iff] at this
    simpa using this
  unfold beforeEquals
  cases value with
  | none => rw [show ks = before from hval]; exact takeWhile_all hb
  | some v =>
    obtain ⟨eq, ws, he, heq, -⟩ := hval
    rw [he, List.takeWhile_append_of_pos hb, List.takeWhile_cons_of_neg (by simp [tokType?, heq]), List.append_nil]

/-- C85: what is recorded for a class constant is the name that is written before `=` and the text that is written
after it. -/
theorem C85_class_constant (env : Env) (m : Modifiers) (e name : Node) (before : List Node)
    (value : Option (List Node)) (hv : HasValue e.kids before value) (hn : OnlyPhrase .identifier before name) :
    (newClassConst env m e).name = env.ctx.nodeText name ∧
    (newClassConst env m e).nameRange = env.ctx.range name ∧
    (newClassConst env m e).range = env.ctx.range e ∧
    (newClassConst env m e).value = textOf env.ctx (value.getD []) := by
  refine ⟨?_, ?_, rfl, valueLoop_of _ _ _ _ hv⟩
  · show lastOf _ (beforeEquals e.kids) [] = _
    rw [beforeEquals_of _ _ _ hv]
    exact OnlyPhrase.last hn _ _
  · show lastRange env _ (beforeEquals e.kids) = _
    rw [beforeEquals_of _ _ _ hv]
    refine Eq.trans ?_ (OnlyPhrase.last hn env.ctx.range Analyser.zeroRng)
    unfold lastRange
    congr 1
    funext k
    simp

/-- C85: a constant is recorded under the name that is written, in the namespace of the file, with the text that is
written after `=`. -/
theorem C85_constant (env : Env) (n : Node) (before : List Node) (value : Option (List Node)) (name : Tok)
    (hv : HasValue (n.kids.filter fun k => tokType? k ≠ some .name) before value) (hn : OnlyToken .name n.kids name)
    (ho : Ordinary (env.ctx.tokText name)) :
    (newConst env n).name.fqn = Imports.inNamespace env.table.getNamespace (env.ctx.tokText name) ∧
    (newConst env n).value = textOf env.ctx (value.getD []) := by
  refine ⟨?_, ?_⟩
  · rw [← ordinary_name _ _ ho]
    show (Ty.setNamespace (lastOf _ n.kids _) _).fqn = _
    congr 2
    obtain ⟨pre, post, hk, ht, hno⟩ := hn
    rw [hk]
    refine lastOf_only _ ?_ fun k hk => ?_
    · rw [tokText_of ht]; rfl
    · rw [tokText_none (hno k hk)]; rfl
  · show valueLoop _ (n.kids.filter _) _ _ _ = _
    rw [← valueLoop_of _ _ _ _ hv]
    congr 2
    funext k
    simp

example : OnlyPhrase .parameterDeclarationList (sub (part 3) 0).kids (sub (sub (part 3) 0) 4) ∧
    Listed .parameterDeclaration (sub (sub (part 3) 0) 4).kids
      [sub (sub (sub (part 3) 0) 4) 0, sub (sub (sub (part 3) 0) 4) 3] ∧
    (∃ var, ParamWritten (sub (sub (sub (part 3) 0) 4) 0) (some (sub (sub (sub (sub (part 3) 0) 4) 0) 0)) var none ∧
      ParamTag senv.ctx (part 1) (senv.ctx.tokText var) (sub (part 1) 3) ∧ senv.ctx.tokText var = b!"$a") ∧
    (∃ var, ParamWritten (sub (sub (sub (part 3) 0) 4) 3) none var (some [sub (sub (sub (sub (part 3) 0) 4) 3) 4]) ∧
      senv.ctx.tokText var = b!"$b") ∧
    (newFunction senv (part 3)).params.map (fun p => (p.name, p.hasValue, p.value, p.types.map Ty.fqn)) =
      [(b!"$a", false, [], [b!"\\Lib\\Foo", b!"\\App\\Bar", b!"null"]), (b!"$b", true, b!"1 + 2", [])] := by
  refine ⟨OnlyPhrase.of_filter rfl, Listed.of_filter rfl, ⟨_, ⟨_, ⟨NoToken.of_filter rfl, rfl⟩, OnlyToken.of_filter rfl,
    OnlyPhrase.of_filter rfl⟩, ⟨(part 1).kids.take 3, (part 1).kids.drop 4, rfl, IsTag.of 0 _ _ rfl rfl (by decide +kernel),
      ⟨_, OnlyToken.of_filter rfl, by decide +kernel⟩, ?_⟩, by decide +kernel⟩, ⟨_, ⟨(sub (sub (sub (part 3) 0) 4) 3).kids.take 2,
      ⟨NoToken.of_filter rfl, _, [sub (sub (sub (sub (part 3) 0) 4) 3) 3], rfl, rfl, ?_, by decide, ?_, ?_⟩, OnlyToken.of_filter rfl, NoPhrase.of_filter rfl⟩, by decide +kernel⟩, by decide +kernel⟩
  · rintro q hq ⟨⟨i, ks, rfl⟩, -⟩
    exfalso
    rcases hq with _ | ⟨_, hq⟩
    rcases hq with _ | ⟨_, hq⟩
    rcases hq with _ | ⟨_, hq⟩
    cases hq
  · intro k hk
    obtain rfl := List.mem_singleton.1 hk
    exact ⟨_, rfl, rfl⟩
  · intro k hk
    cases hk
    rintro ⟨t, h, -⟩
    cases h
  · intro k hk
    obtain rfl := List.mem_singleton.1 hk
    refine ⟨?_, ?_, ?_, ?_, ?_⟩
    · rintro ⟨t, h, -⟩; cases h
    · rintro ⟨t, h, -⟩; cases h
    · rintro ⟨t, h⟩; cases h
    · rintro ⟨t, h⟩; cases h
    · intro t h; cases h
example : Contiguous [sValue] 91 96 ∧ 96 ≤ sctx.text.length ∧ textOf sctx [sValue] = b!"1 + 2" ∧ sctx.slice 91 96 = b!"1 + 2" :=
  ⟨.cons rfl rfl (by decide +kernel) (by decide +kernel) (.nil _), by decide +kernel, by decide +kernel, by decide +kernel⟩

example : HasValue (sub (sub sConsts 4) 0).kids ((sub (sub sConsts 4) 0).kids.take 2) (some [sub (sub (sub sConsts 4) 0) 4]) ∧
    OnlyPhrase .identifier ((sub (sub sConsts 4) 0).kids.take 2) (sub (sub (sub sConsts 4) 0) 0) ∧
    (newClassConst senv noModifiers (sub (sub sConsts 4) 0)).name = b!"X" ∧
    (newClassConst senv noModifiers (sub (sub sConsts 4) 0)).value = b!"1" :=
  ⟨HasValue.of 2 _ _ _ _ rfl rfl rfl rfl rfl rfl, OnlyPhrase.of_filter rfl, by decide +kernel, by decide +kernel⟩

example : (∃ t, OnlyToken .name (part 7).kids t ∧ Ordinary (senv.ctx.tokText t)) ∧
    HasValue ((part 7).kids.filter fun k => tokType? k ≠ some .name)
      (((part 7).kids.filter fun k => tokType? k ≠ some .name).take 1) (some [sub (part 7) 4]) ∧
    (newConst senv (part 7)).name.fqn = b!"\\App\\MAX" ∧ (newConst senv (part 7)).value = b!"7" :=
  ⟨⟨_, OnlyToken.of_filter rfl, by decide +kernel⟩, HasValue.of 1 _ _ _ _ rfl rfl rfl rfl rfl rfl, by decide +kernel, by decide +kernel⟩

end Verif.Decl
