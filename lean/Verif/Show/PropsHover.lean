import Verif.Show.Lemmas

/-! C117: hovering over functions and methods. -/

namespace Verif.Show
open Verif.Types (Ty Union unionIsEmpty unionToBytes add merge)
open Verif.Analyser (Node Tok Ctx PType TokType)
open Verif.Decl (Env OnlyPhrase NoPhrase OnlyToken IsPhrase IsToken Listed DocApplies FunctionRec functionHeaderStep
  methodHeaderStep newParameter newPhpDoc newFunction newMethod emptyFunction typ_iff tokType_iff MethodModifiers
  OneVisibility)

/-- Steps that leave a field alone. -/
theorem foldl_keep {α : Type} (f : FunctionRec → Node → FunctionRec) (g : FunctionRec → α) (ks : List Node)
    (h : ∀ k ∈ ks, ∀ s, g (f s k) = g s) (s : FunctionRec) : g (ks.foldl f s) = g s := by
  induction ks generalizing s with
  | nil => rfl
  | cons k ks ih =>
    rw [List.foldl_cons, ih fun k' h' => h k' (List.mem_cons_of_mem _ h')]
    exact h k List.mem_cons_self s

/-- One step that sets a field. -/
theorem foldl_set {α : Type} (f : FunctionRec → Node → FunctionRec) (g : FunctionRec → α) (pre post : List Node) (x : Node)
    (a : α) (hx : ∀ s, g (f s x) = a) (h : ∀ k ∈ pre ++ post, ∀ s, g (f s k) = g s) (s : FunctionRec) :
    g ((pre ++ x :: post).foldl f s) = a := by
  rw [List.foldl_append, List.foldl_cons, foldl_keep f g post fun k hk => h k (List.mem_append_right _ hk), hx]

theorem function_name (env : Env) (hs : List Node) (t : Tok) (s : FunctionRec) (hn : OnlyToken .name hs t)
    (hi : NoPhrase .identifier hs) : (hs.foldl (functionHeaderStep env) s).name = env.ctx.tokText t := by
  obtain ⟨pre, post, rfl, ht, hno⟩ := hn
  refine foldl_set _ (·.name) pre post _ _ (fun s => ?_) (fun k hk s => ?_) s
  · unfold functionHeaderStep
    rw [if_pos (by rw [Decl.tokType?, ht])]
    rfl
  · unfold functionHeaderStep
    rw [if_neg fun h => hno k hk ((tokType_iff _ _).1 h)]
    split_ifs with h1 h2
    · rfl
    · refine absurd ((typ_iff _ _).1 h2) (hi k ?_)
      rcases List.mem_append.1 hk with h | h
      · exact List.mem_append_left _ h
      · exact List.mem_append_right _ (List.mem_cons_of_mem _ h)
    · rfl

theorem method_name (env : Env) (hs : List Node) (x : Node) (s : FunctionRec) (hn : OnlyPhrase .identifier hs x)
    (hi : ∀ k ∈ hs, ¬ IsToken .name k) : (hs.foldl (methodHeaderStep env) s).name = env.ctx.nodeText x := by
  obtain ⟨pre, post, rfl, ht, hno⟩ := hn
  refine foldl_set _ (·.name) pre post _ _ (fun s => ?_) (fun k hk s => ?_) s
  · unfold methodHeaderStep
    have := (typ_iff _ _).2 ht
    rw [if_neg (by rw [this]; decide), if_neg (by rw [this]; decide), if_pos this]
  · unfold methodHeaderStep
    split_ifs with h1 h2 h3 h4
    · rfl
    · rfl
    · exact absurd ((typ_iff _ _).1 h3) (hno k hk)
    · refine absurd ((tokType_iff _ _).1 h4) (hi k ?_)
      rcases List.mem_append.1 hk with h | h
      · exact List.mem_append_left _ h
      · exact List.mem_append_right _ (List.mem_cons_of_mem _ h)
    · rfl

theorem function_params (env : Env) (hs es : List Node) (s : FunctionRec) (h : Parameters hs es) :
    (hs.foldl (functionHeaderStep env) s).params = s.params ++ es.map (newParameter env) := by
  rcases h with ⟨ls, hl, he⟩ | ⟨hn, rfl⟩
  · rw [Decl.function_header_params env hs ls s hl, he.filter]
  · rw [foldl_keep _ (·.params) hs (fun k hk s => ?_) s]
    · simp
    · have := hn k hk
      rw [← typ_iff] at this
      unfold functionHeaderStep
      split_ifs <;> rfl

theorem method_params (env : Env) (hs es : List Node) (s : FunctionRec) (h : Parameters hs es) :
    (hs.foldl (methodHeaderStep env) s).params = s.params ++ es.map (newParameter env) := by
  rcases h with ⟨ls, hl, he⟩ | ⟨hn, rfl⟩
  · rw [Decl.method_header_params env hs ls s hl, he.filter]
  · rw [foldl_keep _ (·.params) hs (fun k hk s => ?_) s]
    · simp
    · have := hn k hk
      rw [← typ_iff] at this
      unfold methodHeaderStep
      split_ifs <;> rfl

/-- A record after its doc comment has been looked at. -/
def docced (env : Env) (doc : Option Node) (s : FunctionRec) : FunctionRec :=
  match doc.map (newPhpDoc env) with
  | some d => s.applyDoc env d
  | none => s

/-- A parameter after the doc comment has been looked at. -/
def doccedParam (env : Env) (doc : Option Node) (e : Node) : Decl.Param :=
  match doc.map (newPhpDoc env) with
  | some d => (newParameter env e).applyDoc env d
  | none => newParameter env e

theorem docced_params (env : Env) (doc : Option Node) (s : FunctionRec) (es : List Node)
    (h : s.params = es.map (newParameter env)) : (docced env doc s).params = es.map (doccedParam env doc) := by
  unfold docced doccedParam
  cases doc with
  | none => exact h
  | some d => simp [Decl.FunctionRec.applyDoc, h]

theorem docced_keep (env : Env) (doc : Option Node) (s : FunctionRec) :
    (docced env doc s).name = s.name ∧ (docced env doc s).mods = s.mods := by
  unfold docced
  cases doc <;> exact ⟨rfl, rfl⟩

theorem docced_description (env : Env) (doc : Option Node) (s : FunctionRec) (hs : s.description = []) :
    DescriptionIs env doc (docced env doc s).description := by
  have := description_is env doc
  unfold docced
  cases doc with
  | none => exact hs
  | some d => exact this

theorem function_record (env : Env) (ks hs : List Node) (doc : Option Node)
    (h : OnlyPhrase .functionDeclarationHeader ks (.phr .functionDeclarationHeader hs))
    (hd : DocApplies env (.phr .functionDeclaration ks) doc) :
    newFunction env (.phr .functionDeclaration ks) = docced env doc (hs.foldl (functionHeaderStep env) emptyFunction) := by
  unfold newFunction docced
  rw [show (Node.phr PType.functionDeclaration ks).kids = ks from rfl, Decl.declaration_header h, validDoc_doc env _ doc hd]
  cases doc <;> rfl

theorem method_record (env : Env) (ks hs : List Node) (doc : Option Node)
    (h : OnlyPhrase .methodDeclarationHeader ks (.phr .methodDeclarationHeader hs))
    (hd : DocApplies env (.phr .methodDeclaration ks) doc) :
    newMethod env (.phr .methodDeclaration ks) = docced env doc (hs.foldl (methodHeaderStep env) emptyFunction) := by
  unfold newMethod docced
  rw [show (Node.phr PType.methodDeclaration ks).kids = ks from rfl, Decl.declaration_header h, validDoc_doc env _ doc hd]
  cases doc <;> rfl

/-- The parameters as they come back from the index. -/
def storedParams (uri : Bytes) (ps : List Decl.Param) : List Encoding.Parameter :=
  (ps.map (toParameter uri)).map fun p => { p with description := [] }

theorem params_read (uri : Bytes) (env : Env) (doc : Option Node) (es : List Node)
    (hl : ∀ p ∈ es.map (doccedParam env doc), ∀ t ∈ p.types, LevelFits t) :
    List.Forall₂ (ParamReads env doc) es ((storedParams uri (es.map (doccedParam env doc))).map paramText) := by
  unfold storedParams
  induction es with
  | nil => exact .nil
  | cons e es ih =>
    refine .cons ?_ (ih fun p hp => hl p (List.mem_cons_of_mem _ hp))
    exact paramText_reads uri env doc e _ rfl (hl _ List.mem_cons_self) []

theorem hover_text (md : Bytes → Option Bytes) (code scope desc : Bytes) :
    HoverText md code scope desc (wrapPHPCode code ++ scope ++ descriptionText md desc true ++ horLine) := by
  unfold HoverText wrapPHPCode descriptionText horLine
  simp

theorem return_shown (u : Union) (named : Bytes → Nat → Prop) (hf : ∀ t ∈ u, LevelFits t)
    (h : TypesShown named (unionToBytes u)) : ReturnShown named (returnText (u.map toType)) := by
  refine ⟨_, h, ?_⟩
  unfold returnText noTypes typesText
  rw [ofType_map _ hf, shown_pieces']

theorem original_plain (s ns : Bytes) (h0 : s ≠ []) (h1 : s ≠ b!"boolean") (h2 : s ≠ b!"integer") (h3 : ¬ b!"]" <:+ s) :
    (toType ((Analyser.tyOf s).setNamespace ns)).original = s := by
  rw [Decl.tyOf_plain h0 h1 h2 h3]
  unfold toType Types.Ty.setNamespace
  split_ifs <;> rfl

/-- C117: hovering over a function, as it was read back from the index, shows `function name(parameters): types` with the
declared name, every declared parameter in order with its types, name and default value, and the types of the `@return`
tags; below it the description. -/
theorem C117_function (md : Bytes → Option Bytes) (uri : Bytes) (env : Env) (ks hs es : List Node) (name : Tok)
    (doc : Option Node) (rest : Bytes)
    (h : OnlyPhrase .functionDeclarationHeader ks (.phr .functionDeclarationHeader hs))
    (hn : OnlyToken .name hs name) (hi : NoPhrase .identifier hs) (ho : Decl.Ordinary (env.ctx.tokText name))
    (hp : Parameters hs es) (hd : DocApplies env (.phr .functionDeclaration ks) doc)
    (hf : LevelsFit (newFunction env (.phr .functionDeclaration ks)))
    (hwf : (toFunction uri env (.phr .functionDeclaration ks)).WF) :
    ∃ f params ret desc,
      Encoding.readFunction ((toFunction uri env (.phr .functionDeclaration ks)).serialise ++ rest) = some (f, rest) ∧
      List.Forall₂ (ParamReads env doc) es params ∧ ReturnShown (Returned env doc) ret ∧ DescriptionIs env doc desc ∧
      HoverText md (b!"function " ++ env.ctx.tokText name ++ b!"(" ++ b!", ".intercalate params ++ b!")" ++ ret) [] desc
        (functionHover md f) := by
  have hrt := Encoding.C02_function_round_trip_partial _ hwf rest
  have hrec := function_record env ks hs doc h hd
  have hpar := function_params env hs es emptyFunction hp
  have hpar' := docced_params env doc _ es (hpar.trans (List.nil_append _))
  rw [hrec] at hf
  refine ⟨_, (storedParams uri (es.map (doccedParam env doc))).map paramText,
    returnText ((docced env doc (hs.foldl (functionHeaderStep env) emptyFunction)).returns.map toType),
    (docced env doc (hs.foldl (functionHeaderStep env) emptyFunction)).description, hrt,
    params_read uri env doc es ?_, return_shown _ _ hf.1 ?_, docced_description env doc _ ?_, ?_⟩
  · rw [← hpar']; exact hf.2
  · exact returns_shown env doc _ (Decl.function_header_returns env hs emptyFunction)
  · refine foldl_keep _ (·.description) hs (fun k _ s => ?_) emptyFunction
    unfold functionHeaderStep
    split_ifs <;> rfl
  · have ht := hover_text md (b!"function " ++ env.ctx.tokText name ++ b!"(" ++ b!", ".intercalate
      ((storedParams uri (es.map (doccedParam env doc))).map paramText) ++ b!")" ++
        returnText ((docced env doc (hs.foldl (functionHeaderStep env) emptyFunction)).returns.map toType)) []
      (docced env doc (hs.foldl (functionHeaderStep env) emptyFunction)).description
    rw [List.append_nil] at ht
    have e : ∀ f : Encoding.Function, f.name.original = env.ctx.tokText name →
        f.params = storedParams uri (es.map (doccedParam env doc)) →
        f.returnTypes = (docced env doc (hs.foldl (functionHeaderStep env) emptyFunction)).returns.map toType →
        f.description = (docced env doc (hs.foldl (functionHeaderStep env) emptyFunction)).description →
        HoverText md (b!"function " ++ env.ctx.tokText name ++ b!"(" ++ b!", ".intercalate
      ((storedParams uri (es.map (doccedParam env doc))).map paramText) ++ b!")" ++
        returnText ((docced env doc (hs.foldl (functionHeaderStep env) emptyFunction)).returns.map toType)) []
      (docced env doc (hs.foldl (functionHeaderStep env) emptyFunction)).description (functionHover md f) := by
      intro f e1 e2 e3 e4
      unfold functionHover concatParams
      rw [e1, e2, e3, e4, joinS_eq]
      exact ht
    refine e _ ?_ ?_ ?_ ?_
    · show (toType ((Analyser.tyOf (newFunction env (.phr .functionDeclaration ks)).name).setNamespace _)).original = _
      rw [hrec, (docced_keep env doc _).1, function_name env hs name _ hn hi]
      obtain ⟨h0, -, h1, h2, -, h3⟩ := ho
      exact original_plain _ _ h0 h1 h2 h3
    · show ((newFunction env (.phr .functionDeclaration ks)).params.map (toParameter uri)).map _ = _
      rw [hrec, hpar']
      rfl
    · show (newFunction env (.phr .functionDeclaration ks)).returns.map toType = _
      rw [hrec]
    · show (newFunction env (.phr .functionDeclaration ks)).description = _
      rw [hrec]

theorem visibility_word (v : Query.Visibility) : visibilityText (visValue v) = word v := by cases v <;> decide

theorem scope_line (s : Scope) : scopeText s true = scopeLine s := by
  cases s <;> simp [scopeText, scopeLine, writeScope, horLine]

theorem modifiers_shown (mods : List Node) (v : Query.Visibility) (st : Bool) (h : Decl.Modified mods v st) :
    ModifiersShown mods (visibilityText (visValue v) ++ if st then b!" static" else []) := by
  refine ⟨v, h.1, ?_⟩
  rw [visibility_word]
  by_cases hs : st = true
  · exact .inl ⟨h.2.1 hs, by rw [if_pos hs]⟩
  · exact .inr ⟨fun hw => hs (h.2.2 hw), by rw [if_neg hs, List.append_nil]⟩

/-- C117 for methods: `private static function name(parameters): types` with the visibility that is written (`public` if
none is) and `static` if it is written, and the class the method belongs to below it. -/
theorem C117_method (md : Bytes → Option Bytes) (uri : Bytes) (scope : Ty) (s : Scope) (range : Rng) (env : Env)
    (ks hs es mods : List Node) (name : Node) (doc : Option Node) (rest : Bytes)
    (h : OnlyPhrase .methodDeclarationHeader ks (.phr .methodDeclarationHeader hs))
    (hn : OnlyPhrase .identifier hs name) (hi : ∀ k ∈ hs, ¬ IsToken .name k)
    (hm : MethodModifiers hs mods) (hv : OneVisibility mods)
    (hp : Parameters hs es) (hd : DocApplies env (.phr .methodDeclaration ks) doc)
    (hf : LevelsFit (newMethod env (.phr .methodDeclaration ks)))
    (hwf : (toMethod uri scope range (newMethod env (.phr .methodDeclaration ks))).WF) :
    ∃ f mod params ret desc,
      Encoding.readMethod ((toMethod uri scope range (newMethod env (.phr .methodDeclaration ks))).serialise ++ rest) =
        some (f, rest) ∧
      ModifiersShown mods mod ∧ List.Forall₂ (ParamReads env doc) es params ∧ ReturnShown (Returned env doc) ret ∧
      DescriptionIs env doc desc ∧
      HoverText md (mod ++ b!" function " ++ env.ctx.nodeText name ++ b!"(" ++ b!", ".intercalate params ++ b!")" ++ ret)
        (scopeLine s) desc (methodHover md s f) := by
  have hrt := Encoding.C02_method_round_trip_partial _ hwf rest
  have hrec := method_record env ks hs doc h hd
  have hpar := method_params env hs es emptyFunction hp
  have hpar' := docced_params env doc _ es (hpar.trans (List.nil_append _))
  have hmod := (Decl.C79_method env ks hs mods h hm hv).1
  rw [hrec] at hf hrt
  rw [hrec] at hmod
  have hname : (docced env doc (hs.foldl (methodHeaderStep env) emptyFunction)).name = env.ctx.nodeText name := by
    rw [(docced_keep env doc _).1, method_name env hs name _ hn hi]
  have hret := returns_shown env doc _ (Decl.method_header_returns env hs emptyFunction)
  have hdesc := docced_description env doc (hs.foldl (methodHeaderStep env) emptyFunction) (by
    refine foldl_keep _ (·.description) hs (fun k _ s => ?_) emptyFunction
    unfold methodHeaderStep
    split_ifs <;> rfl)
  rw [hrec]
  change TypesShown _ (unionToBytes (docced env doc (hs.foldl (methodHeaderStep env) emptyFunction)).returns) at hret
  generalize docced env doc (hs.foldl (methodHeaderStep env) emptyFunction) = r at *
  refine ⟨_, visibilityText (visValue r.mods.vis) ++ (if r.mods.isStatic then b!" static" else []),
    (storedParams uri (es.map (doccedParam env doc))).map paramText, returnText (r.returns.map toType), r.description, hrt,
    modifiers_shown _ _ _ hmod, params_read uri env doc es (by rw [← hpar']; exact hf.2), return_shown _ _ hf.1 hret,
    hdesc, ?_⟩
  have ht := hover_text md (visibilityText (visValue r.mods.vis) ++ (if r.mods.isStatic then b!" static" else []) ++
    b!" function " ++ env.ctx.nodeText name ++ b!"(" ++ b!", ".intercalate
      ((storedParams uri (es.map (doccedParam env doc))).map paramText) ++ b!")" ++
        returnText (r.returns.map toType)) (scopeText s true) r.description
  rw [scope_line] at ht
  unfold methodHover concatParams toMethod
  simp only
  rw [hname, hpar', joinS_eq, scope_line]
  exact ht

instance (s : Bytes) : Decidable (Encoding.Str s) := by unfold Encoding.Str; infer_instance
instance {α : Type} (wf : α → Prop) [DecidablePred wf] (xs : List α) : Decidable (Encoding.ListWF wf xs) := by
  unfold Encoding.ListWF; infer_instance
instance (l : Encoding.Location) : Decidable l.WF := by unfold Encoding.Location.WF; infer_instance
instance (t : Encoding.TypeString) : Decidable t.WF := by unfold Encoding.TypeString.WF; infer_instance
instance (t : Encoding.TypeComposite) : Decidable (Encoding.Types.WF t) := by unfold Encoding.Types.WF; infer_instance
instance (t : Encoding.Tag) : Decidable t.WF := by unfold Encoding.Tag.WF; infer_instance
instance (t : Option Encoding.Tag) : Decidable (Encoding.DeprecatedWF t) := by
  cases t <;> (unfold Encoding.DeprecatedWF; infer_instance)
instance (p : Encoding.Parameter) : Decidable p.WF := by unfold Encoding.Parameter.WF; infer_instance
instance (f : Encoding.Function) : Decidable f.WF := by unfold Encoding.Function.WF; infer_instance
instance (f : Encoding.Method) : Decidable f.WF := by unfold Encoding.Method.WF; infer_instance
instance (t : Ty) : Decidable (LevelFits t) := by unfold LevelFits; infer_instance
instance (r : FunctionRec) : Decidable (LevelsFit r) := by unfold LevelsFit; infer_instance

open Verif.Decl in
/-- `function count(Foo $a, $b = 1 + 2)` with a doc comment. -/
example : OnlyPhrase .functionDeclarationHeader (part 3).kids (sub (part 3) 0) ∧
    (∃ t, OnlyToken .name (sub (part 3) 0).kids t ∧ Ordinary (senv.ctx.tokText t)) ∧
    NoPhrase .identifier (sub (part 3) 0).kids ∧
    Parameters (sub (part 3) 0).kids [sub (sub (sub (part 3) 0) 4) 0, sub (sub (sub (part 3) 0) 4) 3] ∧
    DocApplies senv (part 3) (some (part 1)) ∧ LevelsFit (newFunction senv (part 3)) ∧
    (toFunction b!"file:///a.php" senv (part 3)).WF ∧
    functionHover some (toFunction b!"file:///a.php" senv (part 3)) =
      b!"```php\n<?php\nfunction count(\\Lib\\Foo|\\App\\Bar|null $a, $b = 1 + 2): \\App\\Baz\n```\n\n____\nCounts.\n____\n" :=
  ⟨OnlyPhrase.of_filter rfl, ⟨_, OnlyToken.of_filter rfl, by decide +kernel⟩, NoPhrase.of_filter rfl,
    .inl ⟨_, OnlyPhrase.of_filter rfl, Listed.of_filter rfl⟩, ⟨rfl, by decide +kernel⟩, by decide +kernel,
    by decide +kernel, by decide +kernel⟩

open Verif.Decl in
/-- `abstract public function m($x)`. -/
example : OnlyPhrase .methodDeclarationHeader sMethod.kids (sub sMethod 0) ∧
    (∃ x, OnlyPhrase .identifier (sub sMethod 0).kids x) ∧ (∀ k ∈ (sub sMethod 0).kids, ¬ IsToken .name k) ∧
    MethodModifiers (sub sMethod 0).kids (sub (sub sMethod 0) 0).kids ∧ OneVisibility (sub (sub sMethod 0) 0).kids ∧
    (∃ es, Parameters (sub sMethod 0).kids es ∧ es.length = 1) ∧
    DocApplies senv sMethod none ∧ LevelsFit (newMethod senv sMethod) ∧
    (toMethod b!"file:///a.php" ⟨b!"\\App\\A", b!"A", 0⟩ Analyser.zeroRng (newMethod senv sMethod)).WF ∧
    methodHover some (.cls b!"\\App\\A")
      (toMethod b!"file:///a.php" ⟨b!"\\App\\A", b!"A", 0⟩ Analyser.zeroRng (newMethod senv sMethod)) =
      b!"```php\n<?php\npublic function m($x)\n```\n\n____\n\n`class \\App\\A`\n____\n" := by
  refine ⟨OnlyPhrase.of_filter rfl, ⟨_, OnlyPhrase.of_filter rfl⟩, NoToken.of_filter rfl, .inr (OnlyPhrase.of_filter rfl),
    by decide +kernel, ⟨_, .inl ⟨_, OnlyPhrase.of_filter rfl, Listed.of_filter rfl⟩, rfl⟩, fun d hd => ?_, by decide +kernel,
    by decide +kernel, by decide +kernel⟩
  cases hd
  decide +kernel

end Verif.Show
