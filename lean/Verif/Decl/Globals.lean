import Verif.Decl.Sample
import Verif.Decl.PropsParams

/-! Global variables that a file declares with `global $x`, and their types: those of a doc comment above, and those of
later assignments. -/

namespace Verif.Decl
open Verif.Analyser (Node PType TokType Tok Ctx)
open Verif.Types (Ty Union merge)

/-! ### Model -/

/-- `GlobalVariable` (`globalVariable.go:10-16`). -/
structure GlobalRec where
  range : Rng
  name : Bytes
  types : Union
  description : Bytes
  deriving DecidableEq, Repr

/-- `GlobalVariable.applyPhpDoc` (`globalVariable.go:61-70`); `phpDoc.Globals` are the `@global` tags
(`prefillTags`, `phpDocComment.go:381-391`). -/
def GlobalRec.applyDoc (env : Env) (s : GlobalRec) (d : Doc) : GlobalRec :=
  match (d.byName b!"@global").find? fun t => t.name = s.name with
  | some t => { s with types := merge s.types (typesFromPhpDoc env t.typeText), description := t.description }
  | none => s

/-- `newGlobalVariable` (`globalVariable.go:45-59`), the symbol. The variable it pushes is in `Analyser.newGlobalDeclaration`
and in `Infer`. -/
def newGlobalVariable (env : Env) (n : Node) : GlobalRec :=
  let s : GlobalRec := { range := env.ctx.range n, name := env.ctx.nodeText n, types := [], description := [] }
  match env.validDoc n with
  | some d => s.applyDoc env d
  | none => s

/-- The variables of a `global` statement: `newGlobalDeclaration` (`globalVariable.go:18-31`) and
`analyseVariableNameList` (`33-43`). -/
def globalNames (n : Node) : List Node :=
  (n.kids.filter fun k => typ? k = some .variableNameList).flatMap fun l =>
    l.kids.filter fun k => typ? k = some .simpleVariable

/-- The symbols that a `global` statement adds (`globalVariable.go:18-43`). -/
def newGlobalDeclaration (env : Env) (n : Node) : List GlobalRec := (globalNames n).map (newGlobalVariable env)

/-- `TypeComposite.IsEmpty` (`symbolType.go:275-287`), `TypeString.IsEmpty` (`87-89`). -/
def noTypes (u : Union) : Bool := u.all fun t => t.fqn == [] || t.fqn == [92]

/-- What an assignment to `$name` does to the global variables of the document so far (`assignment.go:73-79`): the first
one of that name (`getGlobalVariable`, `document.go:638-645`) gets the types of the assigned variable. The slice of types
is taken for a value: that the variable which `toVariable` (`globalVariable.go:106-115`) copies shares it is not modelled. -/
def assignGlobal (name : Bytes) (types : Union) : List GlobalRec → List GlobalRec
  | [] => []
  | g :: gs =>
    if g.name = name then (if noTypes types then g else { g with types := merge g.types types }) :: gs
    else g :: assignGlobal name types gs

/-- What happens to the global variables of a document while it is analysed, in order: a variable in a `global`
statement, and an assignment to a variable, with the types that the variable has then. -/
inductive GlobalEvent
  | declare (env : Env) (n : Node)
  | assign (name : Bytes) (types : Union)

/-- One event (`globalVariable.go:38-39`, `assignment.go:73-79`). -/
def globalStep (gs : List GlobalRec) : GlobalEvent → List GlobalRec
  | .declare env n => gs ++ [newGlobalVariable env n]
  | .assign name types => assignGlobal name types gs

/-- The global variables of the document, in the order in which they are declared. -/
def globalsOf (es : List GlobalEvent) : List GlobalRec := es.foldl globalStep []

/-! ### Specification -/

/-- `k` is the first `@global` tag of the doc comment `d` for the variable `name`. -/
def GlobalTag (c : Ctx) (d : Node) (name : Bytes) (k : Node) : Prop :=
  ∃ pre post, d.kids = pre ++ k :: post ∧ IsTag c b!"@global" k ∧
    (∃ t, OnlyToken .variableName k.kids t ∧ c.tokText t = name) ∧
    ∀ q ∈ pre, IsTag c b!"@global" q → ∀ t, .tok t ∈ q.kids → t.type = .variableName → c.tokText t ≠ name

/-- No `@global` tag of the doc comment `d` is for the variable `name`. -/
def NoGlobalTag (c : Ctx) (d : Node) (name : Bytes) : Prop :=
  ∀ q ∈ d.kids, IsTag c b!"@global" q → ∀ t, .tok t ∈ q.kids → t.type = .variableName → c.tokText t ≠ name

/-- The doc comment above the variable `v` of a `global` statement is readable: there is none, or none of its `@global`
tags is for the variable, or the first that is for it has only one variable in it. -/
def GlobalDocOK (env : Env) (v : Node) : Prop :=
  DocApplies env v none ∨ ∃ d, DocApplies env v (some d) ∧
    (NoGlobalTag env.ctx d (env.ctx.nodeText v) ∨ ∃ k, GlobalTag env.ctx d (env.ctx.nodeText v) k)

/-- The doc comment above the variable `v` of a `global` statement says that `n` is one of the types of the variable. -/
def GlobalDocumented (env : Env) (v : Node) (n : Bytes) : Prop :=
  ∃ d k, DocApplies env v (some d) ∧ GlobalTag env.ctx d (env.ctx.nodeText v) k ∧ TagNames env k n

/-- The variable `name` is in a `global` statement. -/
def DeclaredIn (es : List GlobalEvent) (name : Bytes) : Prop :=
  ∃ env v, .declare env v ∈ es ∧ env.ctx.nodeText v = name

/-- `n` is a type of the variable `v` of a `global` statement, which comes after `pre` and before `post`: its doc comment
says so, or it is the first such statement for this variable, and a value of the type is assigned to the variable later. -/
def GlobalHas (pre post : List GlobalEvent) (env : Env) (v : Node) (n : Bytes) : Prop :=
  GlobalDocumented env v n ∨
    (¬ DeclaredIn pre (env.ctx.nodeText v) ∧ ∃ types, .assign (env.ctx.nodeText v) types ∈ post ∧ n ∈ types.map Ty.fqn)

/-- A name of a type that is not empty. -/
def RealType (n : Bytes) : Prop := n ≠ [] ∧ n ≠ b!"\\"

/-- How many variables are declared. -/
def declaredCount : List GlobalEvent → Nat
  | [] => 0
  | .declare _ _ :: es => declaredCount es + 1
  | .assign _ _ :: es => declaredCount es

/-! ### Proofs -/

theorem global_read (env : Env) (k : Node) (h : getTagName env k.kids = b!"@global") :
    parseTag env k = some (globalTag env (getTagName env k.kids) k.kids) := by
  unfold parseTag; simp only [h]; rfl

theorem not_global_tag {env : Env} {q : Node} {t : Tag} {name : Bytes} (hname : name ≠ []) (hd : isDocTag q = true)
    (hp : parseTag env q = some t)
    (h : IsTag env.ctx b!"@global" q → ∀ t, .tok t ∈ q.kids → t.type = .variableName → env.ctx.tokText t ≠ name) :
    ¬ (t.tagName = b!"@global" ∧ t.name = name) := by
  rintro ⟨h1, h2⟩
  have hn : getTagName env q.kids = b!"@global" := by rw [← (parseTag_types hp).1]; exact h1
  have htag : IsTag env.ctx b!"@global" q := ⟨(isDocTag_iff q).1 hd, (getTagName_eq env _ _ (by decide)).1 hn⟩
  rw [global_read env q hn] at hp
  cases hp
  rcases lastOf_mem (tokText? env.ctx .variableName) q.kids [] with he | ⟨k, hk, hf⟩
  · exact hname (h2.symm.trans he)
  · cases k with
    | tok t =>
      by_cases ht : t.type = .variableName
      · rw [show tokText? env.ctx .variableName (.tok t) = some (env.ctx.tokText t) from if_pos ht] at hf
        exact h htag t hk ht ((Option.some.inj hf).trans h2)
      · rw [show tokText? env.ctx .variableName (.tok t) = none from if_neg ht] at hf
        cases hf
    | phr _ _ => cases hf
    | err _ => cases hf

theorem findGlobal_some (env : Env) (d k : Node) (name : Bytes) (hname : name ≠ []) (h : GlobalTag env.ctx d name k) :
    ((newPhpDoc env d).byName b!"@global").find? (fun t => t.name = name) = some (globalTag env b!"@global" k.kids) := by
  obtain ⟨pre, post, hk, ⟨hd, htag⟩, ⟨v, hv, hvn⟩, hpre⟩ := h
  have hn := (getTagName_eq env _ _ (by decide)).2 htag
  unfold Doc.byName newPhpDoc
  rw [hk]
  simp only [List.filter_append, List.filterMap_append, List.find?_append]
  have hnone : (((pre.filter isDocTag).filterMap (parseTag env)).filter fun t => decide (t.tagName = b!"@global")).find?
      (fun t => decide (t.name = name)) = none := by
    refine List.find?_eq_none.2 fun t ht => ?_
    obtain ⟨ht, htn⟩ := List.mem_filter.1 ht
    obtain ⟨q, hq, hp⟩ := List.mem_filterMap.1 ht
    obtain ⟨hq, hqd⟩ := List.mem_filter.1 hq
    intro hc
    exact not_global_tag hname hqd hp (hpre q hq) ⟨by simpa using htn, by simpa using hc⟩
  rw [hnone, Option.none_or, List.filter_cons_of_pos ((isDocTag_iff k).2 hd),
    List.filterMap_cons_some (global_read env k hn), hn, List.filter_cons_of_pos (by simp [globalTag]), List.find?_cons_of_pos]
  exact decide_eq_true ((hv.text _).trans hvn)

theorem findGlobal_none (env : Env) (d : Node) (name : Bytes) (hname : name ≠ []) (h : NoGlobalTag env.ctx d name) :
    ((newPhpDoc env d).byName b!"@global").find? (fun t => t.name = name) = none := by
  unfold Doc.byName newPhpDoc
  refine List.find?_eq_none.2 fun t ht => ?_
  obtain ⟨ht, htn⟩ := List.mem_filter.1 ht
  obtain ⟨q, hq, hp⟩ := List.mem_filterMap.1 ht
  obtain ⟨hq, hqd⟩ := List.mem_filter.1 hq
  intro hc
  exact not_global_tag hname hqd hp (h q hq) ⟨by simpa using htn, by simpa using hc⟩

theorem applies_one {env : Env} {v d d' : Node} (h : DocApplies env v (some d)) (h' : DocApplies env v (some d')) :
    newPhpDoc env d = newPhpDoc env d' := Option.some.inj (h.1.symm.trans h'.1)

theorem newGlobal_plain (env : Env) (v : Node) (h : DocApplies env v none) :
    newGlobalVariable env v = ⟨env.ctx.range v, env.ctx.nodeText v, [], []⟩ := by
  unfold newGlobalVariable
  rw [validDoc_none env _ h]

theorem newGlobal_untagged (env : Env) (v d : Node) (hname : env.ctx.nodeText v ≠ []) (hd : DocApplies env v (some d))
    (h : NoGlobalTag env.ctx d (env.ctx.nodeText v)) :
    newGlobalVariable env v = ⟨env.ctx.range v, env.ctx.nodeText v, [], []⟩ := by
  unfold newGlobalVariable
  rw [validDoc_of env _ d hd]
  simp only [GlobalRec.applyDoc]
  rw [findGlobal_none env d _ hname h]

theorem newGlobal_tagged (env : Env) (v d k : Node) (hname : env.ctx.nodeText v ≠ []) (hd : DocApplies env v (some d))
    (h : GlobalTag env.ctx d (env.ctx.nodeText v) k) :
    newGlobalVariable env v =
      ⟨env.ctx.range v, env.ctx.nodeText v, merge [] (typesFromPhpDoc env (joinedTypes env k.kids)), []⟩ := by
  unfold newGlobalVariable
  rw [validDoc_of env _ d hd]
  simp only [GlobalRec.applyDoc]
  rw [findGlobal_some env d k _ hname h]
  rfl

/-- What is recorded of a variable in a `global` statement. -/
theorem newGlobalVariable_spec (env : Env) (v : Node) (hname : env.ctx.nodeText v ≠ []) (hok : GlobalDocOK env v) :
    (newGlobalVariable env v).name = env.ctx.nodeText v ∧ (newGlobalVariable env v).range = env.ctx.range v ∧
    (newGlobalVariable env v).description = [] ∧
    ∀ n, n ∈ (newGlobalVariable env v).types.map Ty.fqn ↔ GlobalDocumented env v n := by
  rcases hok with h | ⟨d, hd, h | ⟨k, hk⟩⟩
  · rw [newGlobal_plain env v h]
    refine ⟨rfl, rfl, rfl, fun n => ?_⟩
    simp only [List.map_nil, List.not_mem_nil, false_iff]
    rintro ⟨d, k, hd, -⟩
    have := validDoc_of env _ d hd
    rw [validDoc_none env _ h] at this
    cases this
  · rw [newGlobal_untagged env v d hname hd h]
    refine ⟨rfl, rfl, rfl, fun n => ?_⟩
    simp only [List.map_nil, List.not_mem_nil, false_iff]
    rintro ⟨d', k, hd', hk, -⟩
    have h1 := findGlobal_some env d' k _ hname hk
    rw [← applies_one hd hd', findGlobal_none env d _ hname h] at h1
    cases h1
  · have hs := findGlobal_some env d k _ hname hk
    rw [newGlobal_tagged env v d k hname hd hk]
    refine ⟨rfl, rfl, rfl, fun n => ?_⟩
    have ht : ∀ k', n ∈ (merge [] (typesFromPhpDoc env (joinedTypes env k'.kids))).map Ty.fqn ↔ TagNames env k' n := by
      intro k'
      rw [Types.C25_merge, C82_named]
      simp only [List.map_nil, List.not_mem_nil, false_or]
      exact names_joinedTypes env k' n
    simp only
    rw [ht]
    constructor
    · exact fun h => ⟨d, k, hd, hk, h⟩
    · rintro ⟨d', k', hd', hk', h⟩
      have h1 := findGlobal_some env d' k' _ hname hk'
      rw [← applies_one hd hd', hs] at h1
      have h2 : joinedTypes env k.kids = joinedTypes env k'.kids := congrArg Tag.typeText (Option.some.inj h1)
      rw [← ht, ← h2, ht] at h
      exact h

/-! The global variables of a document. -/

theorem assignGlobal_length (name : Bytes) (types : Union) (gs : List GlobalRec) :
    (assignGlobal name types gs).length = gs.length := by
  induction gs with
  | nil => rfl
  | cons g gs ih => unfold assignGlobal; split <;> simp [ih]

/-- What an assignment does to one of the variables. -/
theorem assignGlobal_get (name : Bytes) (types : Union) (gs : List GlobalRec) (i : Nat) (g : GlobalRec) (hg : gs[i]? = some g) :
    ∃ g', (assignGlobal name types gs)[i]? = some g' ∧ g'.name = g.name ∧ g'.range = g.range ∧
      g'.description = g.description ∧
      ∀ n, RealType n → (n ∈ g'.types.map Ty.fqn ↔ n ∈ g.types.map Ty.fqn ∨
        (g.name = name ∧ (∀ j < i, ∀ q, gs[j]? = some q → q.name ≠ name) ∧ n ∈ types.map Ty.fqn)) := by
  induction gs generalizing i with
  | nil => cases hg
  | cons a gs ih =>
    unfold assignGlobal
    by_cases ha : a.name = name
    · rw [if_pos ha]
      cases i with
      | zero =>
        obtain rfl : a = g := by simpa using hg
        refine ⟨_, rfl, ?_⟩
        split
        · next he =>
          refine ⟨rfl, rfl, rfl, fun n hn => ⟨.inl, ?_⟩⟩
          rintro (h | ⟨-, -, h⟩)
          · exact h
          · obtain ⟨t, ht, rfl⟩ := List.mem_map.1 h
            have := List.all_eq_true.1 he t ht
            simp only [Bool.or_eq_true, beq_iff_eq] at this
            rcases this with h | h
            · exact absurd h hn.1
            · exact absurd h hn.2
        · refine ⟨rfl, rfl, rfl, fun n hn => ?_⟩
          simp only
          rw [Types.C25_merge]
          simp [ha]
      | succ i =>
        refine ⟨g, hg, rfl, rfl, rfl, fun n hn => ⟨.inl, ?_⟩⟩
        rintro (h | ⟨-, h, -⟩)
        · exact h
        · exact absurd ha (h 0 (by omega) a rfl)
    · rw [if_neg ha]
      cases i with
      | zero =>
        obtain rfl : a = g := by simpa using hg
        exact ⟨a, rfl, rfl, rfl, rfl, fun n hn => by simp [ha]⟩
      | succ i =>
        obtain ⟨g', h1, h2, h3, h4, h5⟩ := ih i hg
        refine ⟨g', h1, h2, h3, h4, fun n hn => (h5 n hn).trans ?_⟩
        refine or_congr Iff.rfl (and_congr Iff.rfl (and_congr ?_ Iff.rfl))
        constructor
        · intro h j hj q hq
          cases j with
          | zero => obtain rfl : a = q := by simpa using hq
                    exact ha
          | succ j => exact h j (by omega) q hq
        · exact fun h j hj q hq => h (j + 1) (by omega) q hq

theorem globalStep_names (gs : List GlobalRec) (name : Bytes) (types : Union) :
    (assignGlobal name types gs).map (·.name) = gs.map (·.name) := by
  induction gs with
  | nil => rfl
  | cons g gs ih =>
    unfold assignGlobal
    split
    · split <;> rfl
    · simp [ih]

theorem newGlobalVariable_name (env : Env) (v : Node) : (newGlobalVariable env v).name = env.ctx.nodeText v := by
  unfold newGlobalVariable
  split
  · simp only [GlobalRec.applyDoc]; split <;> rfl
  · rfl

/-- The names of the variables, in order. -/
theorem globalsOf_names (es : List GlobalEvent) :
    (globalsOf es).map (·.name) = es.filterMap fun
      | .declare env v => some (env.ctx.nodeText v)
      | .assign _ _ => none := by
  have gen : ∀ (es : List GlobalEvent) (gs : List GlobalRec), (es.foldl globalStep gs).map (·.name) = gs.map (·.name) ++
      es.filterMap fun | .declare env v => some (env.ctx.nodeText v) | .assign _ _ => none := by
    intro es
    induction es with
    | nil => simp
    | cons e es ih =>
      intro gs
      rw [List.foldl_cons, ih]
      cases e with
      | declare env v => simp [globalStep, newGlobalVariable_name]
      | assign name types => simp [globalStep, globalStep_names]
  exact gen es []

theorem declared_iff (es : List GlobalEvent) (name : Bytes) : DeclaredIn es name ↔ name ∈ (globalsOf es).map (·.name) := by
  rw [globalsOf_names, List.mem_filterMap]
  constructor
  · rintro ⟨env, v, h, rfl⟩; exact ⟨_, h, rfl⟩
  · rintro ⟨e, h, he⟩
    cases e with
    | declare env v => exact ⟨env, v, h, Option.some.inj he⟩
    | assign _ _ => cases he

theorem globalsOf_length (es : List GlobalEvent) : (globalsOf es).length = declaredCount es := by
  have h := congrArg List.length (globalsOf_names es)
  rw [List.length_map] at h
  rw [h]
  clear h
  induction es with
  | nil => rfl
  | cons e es ih => cases e <;> simp [declaredCount, ih]

/-- The events after a declaration. -/
theorem after_declare (i : Nat) (post : List GlobalEvent) (gs : List GlobalRec) (g : GlobalRec) (hg : gs[i]? = some g) :
    ∃ g', (post.foldl globalStep gs)[i]? = some g' ∧ g'.name = g.name ∧ g'.range = g.range ∧
      g'.description = g.description ∧
      ∀ n, RealType n → (n ∈ g'.types.map Ty.fqn ↔ n ∈ g.types.map Ty.fqn ∨
        ((∀ j < i, ∀ q, gs[j]? = some q → q.name ≠ g.name) ∧ ∃ types, .assign g.name types ∈ post ∧ n ∈ types.map Ty.fqn)) := by
  induction post generalizing gs g with
  | nil => exact ⟨g, hg, rfl, rfl, rfl, fun n _ => by simp⟩
  | cons e post ih =>
    rw [List.foldl_cons]
    have hi : i < gs.length := (List.getElem?_eq_some_iff.1 hg).1
    cases e with
    | declare env v =>
      obtain ⟨g', h1, h2, h3, h4, h5⟩ := ih (gs ++ [newGlobalVariable env v]) g (by rw [List.getElem?_append_left hi]; exact hg)
      refine ⟨g', h1, h2, h3, h4, fun n hn => (h5 n hn).trans (or_congr Iff.rfl (and_congr ?_ ?_))⟩
      · refine forall_congr' fun j => forall_congr' fun hj => ?_
        rw [List.getElem?_append_left (by omega)]
      · simp
    | assign name types =>
      obtain ⟨a, ha, h2, h3, h4, h5⟩ := assignGlobal_get name types gs i g hg
      obtain ⟨g', k1, k2, k3, k4, k5⟩ := ih (assignGlobal name types gs) a ha
      refine ⟨g', k1, k2.trans h2, k3.trans h3, k4.trans h4, fun n hn => (k5 n hn).trans ?_⟩
      rw [h5 n hn, h2]
      have names : ∀ nm : Bytes, (∀ j < i, ∀ q, (assignGlobal name types gs)[j]? = some q → q.name ≠ nm) ↔
          (∀ j < i, ∀ q, gs[j]? = some q → q.name ≠ nm) := by
        intro nm
        have e := globalStep_names gs name types
        refine forall_congr' fun j => forall_congr' fun hj => ?_
        have ej := congrArg (fun l => l[j]?) e
        simp only [List.getElem?_map] at ej
        constructor
        · intro h q hq
          rw [hq] at ej
          obtain ⟨q', hq', e'⟩ := Option.map_eq_some_iff.1 ej
          rw [← show q'.name = q.name from e']
          exact h q' hq'
        · intro h q hq
          rw [hq] at ej
          obtain ⟨q', hq', e'⟩ := Option.map_eq_some_iff.1 ej.symm
          rw [← show q'.name = q.name from e']
          exact h q' hq'
      rw [names]
      simp only [List.mem_cons, GlobalEvent.assign.injEq]
      constructor
      · rintro ((h | ⟨rfl, hf, h⟩) | ⟨hf, t, ht, h⟩)
        · exact .inl h
        · exact .inr ⟨hf, types, .inl ⟨rfl, rfl⟩, h⟩
        · exact .inr ⟨hf, t, .inr ht, h⟩
      · rintro (h | ⟨hf, t, ⟨h1, rfl⟩ | ht, h⟩)
        · exact .inl (.inl h)
        · exact .inl (.inr ⟨h1, h1 ▸ hf, h⟩)
        · exact .inr ⟨hf, t, ht, h⟩

end Verif.Decl
