import Verif.Show.PropsHover

/-! C118: signature help. -/

namespace Verif.Show
open Verif.Types (Ty Union unionIsEmpty unionToBytes add merge)
open Verif.Analyser (Node Tok Ctx PType TokType)
open Verif.Decl (Env OnlyPhrase NoPhrase OnlyToken IsPhrase IsToken Listed DocApplies FunctionRec functionHeaderStep
  methodHeaderStep newParameter newPhpDoc newFunction newMethod emptyFunction MethodModifiers OneVisibility)

theorem labels_read (uri : Bytes) (env : Env) (doc : Option Node) (es : List Node)
    (hl : ∀ p ∈ es.map (doccedParam env doc), ∀ t ∈ p.types, LevelFits t)
    (hv : ∀ e ∈ es, ∀ type var v, Decl.ParamWritten e type var (some v) → Decl.textOf env.ctx v ≠ []) :
    List.Forall₂ (ParamReads env doc) es ((storedParams uri (es.map (doccedParam env doc))).map paramLabel) := by
  unfold storedParams
  induction es with
  | nil => exact .nil
  | cons e es ih =>
    refine .cons ?_ (ih (fun p hp => hl p (List.mem_cons_of_mem _ hp)) fun e he => hv e (List.mem_cons_of_mem _ he))
    exact paramLabel_reads uri env doc e _ rfl (hl _ List.mem_cons_self) [] (hv e List.mem_cons_self)

/-- What signature help says about something with that name, these parameters and that description: the label is the
name and the parameters in parentheses, and each parameter is listed with the text that stands for it in the label. -/
def Explains (sig : Signature) (name : Bytes) (params : List Bytes) (description : Bytes) : Prop :=
  sig.label = name ++ b!"(" ++ b!", ".intercalate params ++ b!")" ∧ sig.parameters.map Prod.fst = params ∧
    sig.documentation = description

theorem signature_explains (name description : Bytes) (ps : List Encoding.Parameter) :
    Explains (signature name description ps) name (ps.map paramLabel) description := by
  unfold signature Explains
  simp [joinS_eq]

/-- C118: for a function, as it was read back from the index, signature help shows `name(parameters)` with the declared
name and every declared parameter in order, with its types, name and default value, lists exactly these parameters, and
has the description of the doc comment. (A default value has some text.) -/
theorem C118_function (uri : Bytes) (env : Env) (ks hs es : List Node) (name : Tok) (doc : Option Node) (rest : Bytes)
    (h : OnlyPhrase .functionDeclarationHeader ks (.phr .functionDeclarationHeader hs))
    (hn : OnlyToken .name hs name) (hi : NoPhrase .identifier hs) (ho : Decl.Ordinary (env.ctx.tokText name))
    (hp : Parameters hs es) (hd : DocApplies env (.phr .functionDeclaration ks) doc)
    (hv : ∀ e ∈ es, ∀ type var v, Decl.ParamWritten e type var (some v) → Decl.textOf env.ctx v ≠ [])
    (hf : LevelsFit (newFunction env (.phr .functionDeclaration ks)))
    (hwf : (toFunction uri env (.phr .functionDeclaration ks)).WF) :
    ∃ f params desc,
      Encoding.readFunction ((toFunction uri env (.phr .functionDeclaration ks)).serialise ++ rest) = some (f, rest) ∧
      List.Forall₂ (ParamReads env doc) es params ∧ DescriptionIs env doc desc ∧
      Explains (functionSignature f) (env.ctx.tokText name) params desc := by
  have hrt := Encoding.C02_function_round_trip_partial _ hwf rest
  have hrec := function_record env ks hs doc h hd
  have hpar := function_params env hs es emptyFunction hp
  have hpar' := docced_params env doc _ es (hpar.trans (List.nil_append _))
  have hname : (docced env doc (hs.foldl (functionHeaderStep env) emptyFunction)).name = env.ctx.tokText name := by
    rw [(docced_keep env doc _).1, function_name env hs name _ hn hi]
  have hdesc := docced_description env doc (hs.foldl (functionHeaderStep env) emptyFunction) (by
    refine foldl_keep _ (·.description) hs (fun k _ s => ?_) emptyFunction
    unfold functionHeaderStep
    split_ifs <;> rfl)
  rw [hrec] at hf
  unfold toFunction at hrt ⊢
  simp only [hrec] at hrt ⊢
  generalize docced env doc (hs.foldl (functionHeaderStep env) emptyFunction) = r at *
  refine ⟨_, (storedParams uri (es.map (doccedParam env doc))).map paramLabel, r.description, hrt,
    labels_read uri env doc es (by rw [← hpar']; exact hf.2) hv, hdesc, ?_⟩
  unfold functionSignature
  simp only
  obtain ⟨h0, -, h1, h2, -, h3⟩ := ho
  rw [hname, original_plain _ _ h0 h1 h2 h3, hpar']
  exact signature_explains _ _ _

/-- C118 for methods: `private static name(parameters)`. -/
theorem C118_method (uri : Bytes) (scope : Ty) (range : Rng) (env : Env) (ks hs es mods : List Node) (name : Node)
    (doc : Option Node) (rest : Bytes)
    (h : OnlyPhrase .methodDeclarationHeader ks (.phr .methodDeclarationHeader hs))
    (hn : OnlyPhrase .identifier hs name) (hi : ∀ k ∈ hs, ¬ IsToken .name k)
    (hm : MethodModifiers hs mods) (ho : OneVisibility mods)
    (hp : Parameters hs es) (hd : DocApplies env (.phr .methodDeclaration ks) doc)
    (hv : ∀ e ∈ es, ∀ type var v, Decl.ParamWritten e type var (some v) → Decl.textOf env.ctx v ≠ [])
    (hf : LevelsFit (newMethod env (.phr .methodDeclaration ks)))
    (hwf : (toMethod uri scope range (newMethod env (.phr .methodDeclaration ks))).WF) :
    ∃ f mod params desc,
      Encoding.readMethod ((toMethod uri scope range (newMethod env (.phr .methodDeclaration ks))).serialise ++ rest) =
        some (f, rest) ∧
      ModifiersShown mods mod ∧ List.Forall₂ (ParamReads env doc) es params ∧ DescriptionIs env doc desc ∧
      Explains (methodSignature f) (mod ++ b!" " ++ env.ctx.nodeText name) params desc := by
  have hrt := Encoding.C02_method_round_trip_partial _ hwf rest
  have hrec := method_record env ks hs doc h hd
  have hpar := method_params env hs es emptyFunction hp
  have hpar' := docced_params env doc _ es (hpar.trans (List.nil_append _))
  have hmod := (Decl.C79_method env ks hs mods h hm ho).1
  rw [hrec] at hf hrt
  rw [hrec] at hmod
  have hname : (docced env doc (hs.foldl (methodHeaderStep env) emptyFunction)).name = env.ctx.nodeText name := by
    rw [(docced_keep env doc _).1, method_name env hs name _ hn hi]
  have hdesc := docced_description env doc (hs.foldl (methodHeaderStep env) emptyFunction) (by
    refine foldl_keep _ (·.description) hs (fun k _ s => ?_) emptyFunction
    unfold methodHeaderStep
    split_ifs <;> rfl)
  rw [hrec]
  generalize docced env doc (hs.foldl (methodHeaderStep env) emptyFunction) = r at *
  refine ⟨_, visibilityText (visValue r.mods.vis) ++ (if r.mods.isStatic then b!" static" else []),
    (storedParams uri (es.map (doccedParam env doc))).map paramLabel, r.description, hrt, modifiers_shown _ _ _ hmod,
    labels_read uri env doc es (by rw [← hpar']; exact hf.2) hv, hdesc, ?_⟩
  unfold methodSignature toMethod
  simp only
  rw [hname, hpar']
  exact signature_explains _ _ _

theorem intercalate_at (sep : Bytes) (ps : List Bytes) (i : Nat) (p : Bytes) (h : ps[i]? = some p) :
    At (sep.intercalate ps) (((ps.take i).map fun q => q.length + sep.length).sum) p := by
  rw [← joinS_eq]
  induction ps generalizing i with
  | nil => cases h
  | cons a ps ih =>
    cases i with
    | zero =>
      cases h
      cases ps with
      | nil => exact ⟨[], [], by simp [joinS], rfl⟩
      | cons b ps => exact ⟨[], sep ++ joinS sep (b :: ps), by simp [joinS], rfl⟩
    | succ i =>
      cases ps with
      | nil => cases h
      | cons b ps =>
        obtain ⟨pre, post, e, hl⟩ := ih i h
        refine ⟨a ++ sep ++ pre, post, by rw [joinS, e]; simp, ?_⟩
        simp only [List.take_succ_cons, List.map_cons, List.sum_cons, List.length_append] at hl ⊢
        omega

/-- C118: every parameter that is listed is found in the label, at the place where it was put: after the name, the
parenthesis and the parameters before it. So the editor can highlight it. -/
theorem C118_places (name description : Bytes) (ps : List Encoding.Parameter) (i : Nat) (label documentation : Bytes)
    (h : (signature name description ps).parameters[i]? = some (label, documentation)) :
    At (signature name description ps).label
      (name.length + 1 + (((signature name description ps).parameters.take i).map fun q => q.1.length + 2).sum) label := by
  have hp : (ps.map paramLabel)[i]? = some label := by
    have : ((signature name description ps).parameters.map Prod.fst)[i]? = some label := by
      rw [List.getElem?_map, h]; rfl
    rwa [(signature_explains name description ps).2.1] at this
  obtain ⟨pre, post, e, hl⟩ := intercalate_at b!", " _ i label hp
  refine ⟨name ++ b!"(" ++ pre, post ++ b!")", ?_, ?_⟩
  · rw [(signature_explains name description ps).1, e]
    simp
  · have hs : (((signature name description ps).parameters.take i).map fun q => q.1.length + 2) =
        (((ps.map paramLabel).take i).map fun q => q.length + b!", ".length) := by
      rw [← (signature_explains name description ps).2.1, ← List.map_take, List.map_map]
      rfl
    rw [hs]
    simp only [List.length_append, hl]
    rfl

/-- C118 needs its restriction to label and description of the function: the description that a `@param` tag gives to a
parameter is never shown, it is lost in the index. -/
theorem C118_needs_no_parameter_text (f : Encoding.Function) (m : Encoding.Method) (hf : f.WF) (hm : m.WF) :
    (∀ g rest, Encoding.readFunction (f.serialise ++ rest) = some (g, rest) →
      ∀ p ∈ (functionSignature g).parameters, p.2 = []) ∧
    (∀ g rest, Encoding.readMethod (m.serialise ++ rest) = some (g, rest) →
      ∀ p ∈ (methodSignature g).parameters, p.2 = []) := by
  constructor
  · intro g rest h p hp
    rw [Encoding.C02_function_round_trip_partial f hf rest] at h
    cases h
    unfold functionSignature signature at hp
    simp only [List.map_map, List.mem_map] at hp
    obtain ⟨q, -, rfl⟩ := hp
    rfl
  · intro g rest h p hp
    rw [Encoding.C02_method_round_trip_partial m hm rest] at h
    cases h
    unfold methodSignature signature at hp
    simp only [List.map_map, List.mem_map] at hp
    obtain ⟨q, -, rfl⟩ := hp
    rfl

/-- C118 is about declared functions and methods. For a method of a doc comment, `@method void m($a = 1)`, signature help
shows the default value and hovering does not. -/
theorem C118_needs_declared (env : Env) (r : Rng) (uri : Bytes) :
    let t : Decl.Tag := ⟨b!"@method", b!"m", [], b!"void", [⟨[], b!"$a", b!"1"⟩], false, r⟩
    let m := toMethod uri ⟨b!"\\A", b!"A", 0⟩ r (Decl.methodFromTag env t r)
    (methodSignature m).label = b!"public m($a = 1)" ∧ concatParams m.params = b!"$a" := by
  refine ⟨?_, ?_⟩
  · unfold methodSignature signature toMethod Decl.methodFromTag toParameter
    simp only [List.map_cons, List.map_nil, joinS]
    unfold paramLabel
    simp only
    rw [show Decl.typesFromPhpDoc env [] = [] from by
      unfold Decl.typesFromPhpDoc
      rw [show splitB 124 [] = [[]] from rfl]
      simp [Decl.docPart, Decl.trimSpace_nil]]
    rfl
  · unfold concatParams toMethod Decl.methodFromTag toParameter
    simp only [List.map_cons, List.map_nil, joinS]
    unfold paramText
    simp only
    rw [show Decl.typesFromPhpDoc env [] = [] from by
      unfold Decl.typesFromPhpDoc
      rw [show splitB 124 [] = [[]] from rfl]
      simp [Decl.docPart, Decl.trimSpace_nil]]
    decide +kernel

open Verif.Decl in
/-- The hypotheses, besides those of C117: the default value of `$b` has a text. -/
example : (∀ e ∈ [sub (sub (sub (part 3) 0) 4) 0, sub (sub (sub (part 3) 0) 4) 3], ∀ type var v,
      ParamWritten e type var (some v) → textOf senv.ctx v ≠ []) ∧
    (functionSignature (toFunction b!"file:///a.php" senv (part 3))).label =
      b!"count(\\Lib\\Foo|\\App\\Bar|null $a, $b = 1 + 2)" ∧
    (functionSignature (toFunction b!"file:///a.php" senv (part 3))).parameters.map Prod.fst =
      [b!"\\Lib\\Foo|\\App\\Bar|null $a", b!"$b = 1 + 2"] := by
  refine ⟨?_, by decide +kernel, by decide +kernel⟩
  intro e he type var v hw hv
  have hrec := (newParameter_spec senv e type var (some v) hw).1 type var (some v) hw
  obtain ⟨-, -, -, h4, h5⟩ := hrec
  rw [Option.getD_some, hv] at h5
  simp only [List.mem_cons, List.not_mem_nil, or_false] at he
  rcases he with rfl | rfl
  · rw [Option.isSome_some] at h4
    exact absurd h4 (by decide +kernel)
  · exact absurd h5 (by decide +kernel)

end Verif.Show
