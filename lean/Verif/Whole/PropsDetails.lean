import Verif.Whole.Details
import Verif.Whole.PropsAccept
import Verif.Whole.PropsShowAll
import Verif.Whole.PropsMembers

/-! C137: what completion says about what it offers, from the text of the files to the item, after any history. -/

namespace Verif.Whole

open Verif.Encoding Verif.Storage Verif.Store Verif.Query Verif.Imports Verif.Complete

/-! ### Specification -/

/-- What is said about an additional import: its text, after a separator; nothing if there is none. -/
def announced (sep : Bytes) : Option Bytes → Bytes
  | some text => sep ++ text
  | none => []

/-- The name of the class, interface or trait of a member, in its own line. -/
def scopeNote : Show.Scope → Bytes
  | .cls n => b!"\n`class " ++ n ++ b!"`"
  | .intf n => b!"\n`interface " ++ n ++ b!"`"
  | .trt n => b!"\n`trait " ++ n ++ b!"`"
  | .no => []

/-- The documentation of a member: the class, an empty line and the description, in Markdown if it can be converted. -/
def memberNote (md : Bytes → Option Bytes) (s : Show.Scope) (desc : Bytes) : Bytes :=
  scopeNote s ++ b!"\n\n" ++ (if desc = [] then [] else (md desc).getD desc)

/-- The `use` statement for a symbol of this kind. -/
def useWords : SymKind → Bytes
  | .function => b!"use function "
  | .constant => b!"use const "
  | .define => b!"use const "
  | .other => b!"use "

/-! ### Lemmas -/

variable {env : Env} {root : Bytes} {h : List HOp} {s : Store}

theorem nameDetail_eq (t : TypeString) (e : Option Bytes) : nameDetail t e = t.fqn ++ announced b!"\n\n" e := by
  cases e <;> simp [nameDetail, announced]

theorem paramsDetail_eq (l : Bytes) (ps : List Parameter) (e : Option Bytes) :
    paramsDetail l ps e = l ++ b!"(" ++ b!", ".intercalate (ps.map Show.paramText) ++ b!")" ++ announced b!"\n" e := by
  cases e <;> simp [paramsDetail, announced, Show.concatParams, Show.joinS_eq]

theorem memberNote_eq (md : Bytes → Option Bytes) (sc : Show.Scope) (d : Bytes) :
    memberDocumentation md sc d = memberNote md sc d := by
  have : Show.scopeText sc false = scopeNote sc := by
    cases sc <;> simp [Show.scopeText, scopeNote, Show.writeScope]
  rw [memberDocumentation, memberNote, this]
  simp [Show.descriptionText]

/-- Nothing of what is said is lost in the index. -/
theorem nameDetails_stored (asType : Bool) (e : Option Bytes) (x : Sym) :
    nameDetails asType e x.stored = nameDetails asType e x := by
  cases x with
  | fn c =>
    simp only [Sym.stored, nameDetails, paramsDetail_eq, List.map_map]
    rfl
  | _ => rfl

theorem memberDetails_stored (md : Bytes → Option Bytes) (sc : Show.Scope) (x : Sym) :
    memberDetails md sc x.stored = memberDetails md sc x := by
  cases x with
  | met c =>
    simp only [Sym.stored, memberDetails, paramsDetail_eq, List.map_map]
    rfl
  | _ => rfl

theorem paramTexts (uri : Bytes) (ps : List Decl.Param) :
    (Show.storedParams uri ps).map Show.paramText = (ps.map (Show.toParameter uri)).map Show.paramText := by
  simp only [Show.storedParams, List.map_map]
  rfl

/-- The items of a list are made from symbols that have names to import. -/
def OfNames (l : CList) : Prop := ∀ x label insert use, Complete.Item.sym x label insert use ∈ l.items → (useOf x).isSome

theorem names_step {α} {search : Nat → Option (Store.Found α × Bool)} {con : α → Sym}
    {insert : α → Bytes → Bytes} {offer : α → Option Imports.Offer} {l l' : CList} (hl : OfNames l)
    (hi : ∀ y, (useOf (con y)).isSome) (he : searchAll search (fun y => itemOf (insert y) (con y) (offer y)) l = some l') :
    OfNames l' := by
  unfold searchAll at he
  split at he
  · cases he
  · next f complete _ =>
    simp only [Option.map_eq_some_iff] at he
    obtain ⟨is, h1, rfl⟩ := he
    have key : ∀ (rs : List α) (is : List Complete.Item), rs.mapM (fun y => itemOf (insert y) (con y) (offer y)) = some is →
        ∀ i ∈ is, ∃ (y : α) (o : Imports.Offer), i = .sym (con y) o.label (insert y o.label) o.use := by
      intro rs
      induction rs with
      | nil => intro is h i him; simp at h; subst h; cases him
      | cons r rs ih =>
        intro is h i him
        simp only [List.mapM_cons, Option.bind_eq_bind, Option.bind_eq_some_iff, Option.pure_def, Option.some.injEq] at h
        obtain ⟨a, ha, as, has, rfl⟩ := h
        rcases List.mem_cons.1 him with rfl | him
        · simp only [itemOf, Option.map_eq_some_iff] at ha
          obtain ⟨o, -, rfl⟩ := ha
          exact ⟨r, o, rfl⟩
        · exact ih as has i him
    intro x label ins use him
    rcases List.mem_append.1 him with him | him
    · exact hl x label ins use him
    · obtain ⟨y, o, e⟩ := key _ _ h1 _ him
      injection e with e1
      exact e1 ▸ hi y

theorem names_namespaces {word : Bytes} {l l' : CList} (hl : OfNames l) (he : addNamespaces env s word l = some l') :
    OfNames l' := by
  unfold addNamespaces at he
  split at he
  · simp only [Option.map_eq_some_iff] at he
    obtain ⟨⟨names, b⟩, -, rfl⟩ := he
    intro x label ins use him
    rcases List.mem_append.1 him with him | him
    · exact hl x label ins use him
    · obtain ⟨n, -, e⟩ := List.mem_map.1 him
      cases e
  · cases he; exact hl

theorem names_list {tbl : Table} {word : Bytes} {limit : Option Int} {l : CList} (hl : ListOfNames env s tbl word limit l) :
    OfNames l := by
  have h0 : OfNames CList.empty := by intro _ _ _ _ him; cases him
  have k1 : ∀ a b, OfNames a → addClasses env s tbl word limit a = some b → OfNames b := fun a b ha hb =>
    names_step (con := Sym.cla) (insert := fun _ => id) ha (fun _ => rfl) hb
  have k2 : ∀ a b, OfNames a → addInterfaces env s tbl word limit a = some b → OfNames b := fun a b ha hb =>
    names_step (con := Sym.int) (insert := fun _ => id) ha (fun _ => rfl) hb
  have k3 : ∀ a b, OfNames a → addConsts env s tbl word limit a = some b → OfNames b := fun a b ha hb =>
    names_step (con := Sym.con) (insert := fun _ => id) ha (fun _ => rfl) hb
  have k4 : ∀ a b, OfNames a → addDefines env s tbl word limit a = some b → OfNames b := fun a b ha hb =>
    names_step (con := Sym.def_) (insert := fun _ => id) ha (fun _ => rfl) hb
  have k5 : ∀ a b, OfNames a → addFunctions env s tbl word limit a = some b → OfNames b := fun a b ha hb =>
    names_step (con := Sym.fn) (insert := fun c => callText (!c.params.isEmpty)) ha (fun _ => rfl) hb
  have k6 : ∀ a b, OfNames a → addTraits env s tbl word limit a = some b → OfNames b := fun a b ha hb =>
    names_step (con := Sym.tra) (insert := fun _ => id) ha (fun _ => rfl) hb
  rcases hl with hl | hl | hl | hl | hl
  · simp only [nameCompletion, Option.bind_eq_bind, Option.bind_eq_some_iff] at hl
    obtain ⟨l1, a1, l2, a2, l3, a3, l4, a4, l5, a5, a6⟩ := hl
    exact names_namespaces (k5 _ _ (k4 _ _ (k3 _ _ (k2 _ _ (k1 _ _ h0 a1) a2) a3) a4) a5) a6
  · exact k1 _ _ h0 hl
  · exact k2 _ _ h0 hl
  · exact k6 _ _ h0 hl
  · simp only [typeCompletion, Option.bind_eq_bind, Option.bind_eq_some_iff] at hl
    obtain ⟨l1, a1, l2, a2, a3⟩ := hl
    exact names_namespaces (k2 _ _ (k1 _ _ h0 a1) a2) a3

/-! ### Theorems -/

/-- C137: after any history of indexing, re-indexing, deleting, restarting and crashing, what the item of a name says is
what is said about a declaration of the current files. -/
theorem C137_names (he : EnvOK env) (hok : HistOK env h) (hs : run env root h = some s)
    (tbl : Table) (word : Bytes) (limit : Option Int) (l : CList) (hl : ListOfNames env s tbl word limit l)
    (x : Sym) (label insert : Bytes) (use : Option (Bytes × SymKind)) (hi : Complete.Item.sym x label insert use ∈ l.items)
    (asType : Bool) (e : Option Bytes) :
    ∃ d, Live env (latest h) d ∧ d.stored = x ∧ nameDetails asType e x = nameDetails asType e d ∧
      (nameDetails asType e x).isSome := by
  obtain ⟨d, hd, rfl⟩ := C90_declared he hok hs tbl word limit l hl x (List.mem_filterMap.2 ⟨_, hi, rfl⟩)
  refine ⟨d, hd, rfl, nameDetails_stored _ _ _, ?_⟩
  have := names_list hl _ _ _ _ hi
  cases d <;> first | rfl | cases this

/-- C137: the same for members, after `->` and `::`. -/
theorem C137_members (he : EnvOK env) (hsl : env.LowerSlash) (hok : HistOK env h) (hs : run env root h = some s)
    (ho : OneEach env (latest h)) (keyOf : Bytes → Bytes) (n ni : Nat) (isMatch : Bytes → Option Int) (word : Bytes)
    (dollar : Bool) (a : Access) (cur : Bytes) (offers : List Offer)
    (hr : arrowIn env s keyOf n ni isMatch word a cur = some offers ∨
      scopeIn env s keyOf n ni isMatch word dollar a cur = some offers)
    (o : Offer) (hoff : o ∈ offers) (md : Bytes → Option Bytes) (sc : Show.Scope) :
    ∃ d, Live env (latest h) d ∧ d.stored = o.decl ∧ memberDetails md sc o.decl = memberDetails md sc d ∧
      (memberDetails md sc o.decl).isSome := by
  rcases hr with hr | hr
  · obtain ⟨x, hx, hxs, -, -, -, htext⟩ := C131_arrow_right he hsl hok hs ho keyOf n ni isMatch word a cur offers hr o hoff
    refine ⟨x, hx, hxs, by rw [← hxs, memberDetails_stored], ?_⟩
    rw [← hxs]
    cases x <;> first | rfl | exact htext.elim
  · obtain ⟨x, hx, hxs, -, -, -, -, htext⟩ := C131_scope_right he hsl hok hs ho keyOf n ni isMatch word dollar a cur offers hr
      o hoff
    refine ⟨x, hx, hxs, by rw [← hxs, memberDetails_stored], ?_⟩
    rw [← hxs]
    cases x <;> first | rfl | exact htext.elim

/-- C137: a class is said to be a class. The detail is its full name, with what is imported below it; the documentation is
the description in its doc comment. -/
theorem C137_class (uri : Bytes) (denv : Decl.Env) (ks hd : List Analyser.Node) (name : Analyser.Tok)
    (doc : Option Analyser.Node) (hh : Decl.OnlyPhrase .classDeclarationHeader ks (.phr .classDeclarationHeader hd))
    (hn : Decl.OnlyToken .name hd name) (ho : Decl.Ordinary (denv.ctx.tokText name))
    (hdoc : Decl.DocApplies denv (.phr .classDeclaration ks) doc) (asType : Bool) (e : Option Bytes) :
    ∃ desc, Show.DescriptionIs denv doc desc ∧
      nameDetails asType e (.cla (Show.newClassSymbol uri denv (.phr .classDeclaration ks))) =
        some ⟨.class_, inNamespace denv.table.getNamespace (denv.ctx.tokText name) ++ announced b!"\n\n" e, desc, false⟩ := by
  refine ⟨_, Show.description_map denv doc, ?_⟩
  unfold Show.newClassSymbol
  rw [Show.headerDoc_of (n := .phr .classDeclaration ks) hh hn hdoc]
  simp only [nameDetails, nameDetail_eq, Show.toClass]
  rw [Show.class_named denv ks hd name hh hn, show ∀ t : Types.Ty, (Show.toType t).fqn = t.fqn from fun _ => rfl,
    Decl.ordinary_name _ _ ho]

/-- C137: an interface is said to be an interface, but a class where a type is completed. -/
theorem C137_interface (uri : Bytes) (denv : Decl.Env) (ks hd : List Analyser.Node) (name : Analyser.Tok)
    (doc : Option Analyser.Node) (hh : Decl.OnlyPhrase .interfaceDeclarationHeader ks (.phr .interfaceDeclarationHeader hd))
    (hn : Decl.OnlyToken .name hd name) (ho : Decl.Ordinary (denv.ctx.tokText name))
    (hdoc : Decl.DocApplies denv (.phr .interfaceDeclaration ks) doc) (asType : Bool) (e : Option Bytes) :
    ∃ desc, Show.DescriptionIs denv doc desc ∧
      nameDetails asType e (.int (Show.newInterfaceSymbol uri denv (.phr .interfaceDeclaration ks))) =
        some ⟨if asType then .class_ else .interface_,
          inNamespace denv.table.getNamespace (denv.ctx.tokText name) ++ announced b!"\n\n" e, desc, false⟩ := by
  refine ⟨_, Show.description_map denv doc, ?_⟩
  unfold Show.newInterfaceSymbol
  rw [Show.headerDoc_of (n := .phr .interfaceDeclaration ks) hh hn hdoc]
  simp only [nameDetails, nameDetail_eq]
  rw [Show.interface_header denv ks hd hh]
  simp only
  rw [Show.interface_name denv hd name _ hn, show ∀ t : Types.Ty, (Show.toType t).fqn = t.fqn from fun _ => rfl,
    Decl.ordinary_name _ _ ho]

/-- C137: a trait is said to be a class, and has no documentation. -/
theorem C137_trait (uri : Bytes) (denv : Decl.Env) (ks hd : List Analyser.Node) (name : Analyser.Tok)
    (hh : Decl.OnlyPhrase .traitDeclarationHeader ks (.phr .traitDeclarationHeader hd))
    (hn : Decl.OnlyToken .name hd name) (ho : Decl.Ordinary (denv.ctx.tokText name)) (asType : Bool) (e : Option Bytes) :
    nameDetails asType e (.tra (Show.newTraitSymbol uri denv (.phr .traitDeclaration ks))) =
      some ⟨.class_, inNamespace denv.table.getNamespace (denv.ctx.tokText name) ++ announced b!"\n\n" e, [], false⟩ := by
  simp only [nameDetails, nameDetail_eq, Show.newTraitSymbol]
  rw [Show.headerKids_only (n := .phr .traitDeclaration ks) hh]
  obtain ⟨pre, post, rfl, hty, hno⟩ := hn
  rw [Decl.lastOf_only (a := (Analyser.tyOf (denv.ctx.tokText name)).setNamespace denv.table.getNamespace) _
    (by rw [Decl.tokText_of hty]; rfl) fun k hk => by rw [Decl.tokText_none (hno k hk)]; rfl]
  rw [show ∀ t : Types.Ty, (Show.toType t).fqn = t.fqn from fun _ => rfl, Decl.ordinary_name _ _ ho]

/-- C137: a constant is documented as `\Full\NAME = value; description`. -/
theorem C137_constant (uri : Bytes) (denv : Decl.Env) (n : Analyser.Node) (before : List Analyser.Node)
    (value : Option (List Analyser.Node)) (name : Analyser.Tok) (doc : Option Analyser.Node)
    (hv : Decl.HasValue (n.kids.filter fun k => Decl.tokType? k ≠ some .name) before value)
    (hn : Decl.OnlyToken .name n.kids name) (ho : Decl.Ordinary (denv.ctx.tokText name)) (hdoc : Decl.DocApplies denv n doc)
    (asType : Bool) (e : Option Bytes) :
    ∃ desc, Show.DescriptionIs denv doc desc ∧
      nameDetails asType e (.con (Show.toConst uri (Decl.newConst denv n))) =
        some ⟨.constant, inNamespace denv.table.getNamespace (denv.ctx.tokText name) ++ announced b!"\n\n" e,
          inNamespace denv.table.getNamespace (denv.ctx.tokText name) ++ b!" = " ++
            Decl.textOf denv.ctx (value.getD []) ++ b!"; " ++ desc, false⟩ := by
  obtain ⟨hfqn, hval⟩ := Decl.C85_constant denv n before value name hv hn ho
  refine ⟨(Decl.newConst denv n).description, ?_, ?_⟩
  · have := Show.description_map denv doc
    unfold Decl.newConst
    simp only
    rw [if_pos, Show.validDoc_doc denv n doc hdoc]
    · cases doc <;> exact this
    · obtain ⟨pre, post, hk, ht, -⟩ := hn
      rw [hk]
      simp [Decl.tokType?, ht]
  · simp only [nameDetails, nameDetail_eq, Show.toConst, Show.constDescription]
    rw [hval, show ∀ t : Types.Ty, (Show.toType t).fqn = t.fqn from fun _ => rfl, hfqn]

/-- C137: the same for a constant of `define`. -/
theorem C137_define (uri : Bytes) (denv : Decl.Env) (n args : Analyser.Node) (name : Bytes) (value doc : Option Analyser.Node)
    (ha : Decl.OnlyPhrase .argumentExpressionList n.kids args) (hw : Show.DefineWritten denv.ctx args.kids name value)
    (ho : Decl.Ordinary name) (hdoc : Decl.DocApplies denv n doc) (asType : Bool) (e : Option Bytes) :
    ∃ r desc, Show.newDefine denv n = some r ∧ Show.DescriptionIs denv doc desc ∧
      nameDetails asType e (.def_ (Show.toConst uri r)) =
        some ⟨.constant, inNamespace denv.table.getNamespace name ++ announced b!"\n\n" e,
          inNamespace denv.table.getNamespace name ++ b!" = " ++ (value.map denv.ctx.nodeText).getD [] ++ b!"; " ++ desc,
          false⟩ := by
  refine ⟨_, _, Show.define_is denv n args name value doc ha hw hdoc, Show.description_map denv doc, ?_⟩
  simp only [nameDetails, nameDetail_eq, Show.toConst, Show.constDescription]
  rw [show ∀ t : Types.Ty, (Show.toType t).fqn = t.fqn from fun _ => rfl, Decl.ordinary_name _ _ ho]

/-- C137: the detail of a function is `name(parameters)`: the declared name, then every declared parameter in order with its
types, name and default value; what is imported is below it. The documentation is the description in the doc comment. -/
theorem C137_function (uri : Bytes) (denv : Decl.Env) (ks ps es : List Analyser.Node) (name : Analyser.Tok)
    (doc : Option Analyser.Node) (hh : Decl.OnlyPhrase .functionDeclarationHeader ks (.phr .functionDeclarationHeader ps))
    (hn : Decl.OnlyToken .name ps name) (hi : Decl.NoPhrase .identifier ps) (ho : Decl.Ordinary (denv.ctx.tokText name))
    (hp : Show.Parameters ps es) (hdoc : Decl.DocApplies denv (.phr .functionDeclaration ks) doc)
    (hf : Show.LevelsFit (Decl.newFunction denv (.phr .functionDeclaration ks))) (asType : Bool) (e : Option Bytes) :
    ∃ params desc, List.Forall₂ (Show.ParamReads denv doc) es params ∧ Show.DescriptionIs denv doc desc ∧
      nameDetails asType e (.fn (Show.toFunction uri denv (.phr .functionDeclaration ks))) =
        some ⟨.function, denv.ctx.tokText name ++ b!"(" ++ b!", ".intercalate params ++ b!")" ++ announced b!"\n" e, desc,
          false⟩ := by
  have hrec := Show.function_record denv ks ps doc hh hdoc
  have hpar' := Show.docced_params denv doc _ es ((Show.function_params denv ps es Decl.emptyFunction hp).trans
    (List.nil_append _))
  have hname : (Show.toFunction uri denv (.phr .functionDeclaration ks)).name.original = denv.ctx.tokText name := by
    show (Show.toType ((Analyser.tyOf (Decl.newFunction denv (.phr .functionDeclaration ks)).name).setNamespace _)).original = _
    rw [hrec, (Show.docced_keep denv doc _).1, Show.function_name denv ps name _ hn hi]
    obtain ⟨h0, -, h1, h2, -, h3⟩ := ho
    exact Show.original_plain _ _ h0 h1 h2 h3
  have hpars : (Show.toFunction uri denv (.phr .functionDeclaration ks)).params.map Show.paramText =
      (Show.storedParams uri (es.map (Show.doccedParam denv doc))).map Show.paramText := by
    rw [paramTexts]
    show ((Decl.newFunction denv (.phr .functionDeclaration ks)).params.map (Show.toParameter uri)).map _ = _
    rw [hrec, hpar']
  have hdesc : Show.DescriptionIs denv doc (Show.toFunction uri denv (.phr .functionDeclaration ks)).description := by
    show Show.DescriptionIs denv doc (Decl.newFunction denv (.phr .functionDeclaration ks)).description
    rw [hrec]
    refine Show.docced_description denv doc _ (Show.foldl_keep _ (·.description) ps (fun k _ s => ?_) Decl.emptyFunction)
    unfold Decl.functionHeaderStep
    split_ifs <;> rfl
  refine ⟨_, _, Show.params_read uri denv doc es ?_, hdesc, ?_⟩
  · rw [hrec] at hf
    rw [← hpar']
    exact hf.2
  · simp only [nameDetails, paramsDetail_eq]
    rw [hname, hpars]

/-- C137: the detail of a method is `private static name(parameters)`, with the visibility that is written (`public` if none
is) and `static` if it is written; the documentation is the class it was found in and the description. -/
theorem C137_method (md : Bytes → Option Bytes) (uri : Bytes) (scope : Types.Ty) (sc : Show.Scope) (range : Rng)
    (denv : Decl.Env) (ks ps es mods : List Analyser.Node) (name : Analyser.Node) (doc : Option Analyser.Node)
    (hh : Decl.OnlyPhrase .methodDeclarationHeader ks (.phr .methodDeclarationHeader ps))
    (hn : Decl.OnlyPhrase .identifier ps name) (hi : ∀ k ∈ ps, ¬ Decl.IsToken .name k)
    (hm : Decl.MethodModifiers ps mods) (hv : Decl.OneVisibility mods) (hp : Show.Parameters ps es)
    (hdoc : Decl.DocApplies denv (.phr .methodDeclaration ks) doc)
    (hf : Show.LevelsFit (Decl.newMethod denv (.phr .methodDeclaration ks))) :
    ∃ mod params desc, Show.ModifiersShown mods mod ∧ List.Forall₂ (Show.ParamReads denv doc) es params ∧
      Show.DescriptionIs denv doc desc ∧
      memberDetails md sc (.met (Show.toMethod uri scope range (Decl.newMethod denv (.phr .methodDeclaration ks)))) =
        some ⟨.method, mod ++ b!" " ++ denv.ctx.nodeText name ++ b!"(" ++ b!", ".intercalate params ++ b!")",
          memberNote md sc desc, true⟩ := by
  have hrec := Show.method_record denv ks ps doc hh hdoc
  have hpar' := Show.docced_params denv doc _ es ((Show.method_params denv ps es Decl.emptyFunction hp).trans
    (List.nil_append _))
  have hmod := (Decl.C79_method denv ks ps mods hh hm hv).1
  have hname : (Decl.newMethod denv (.phr .methodDeclaration ks)).name = denv.ctx.nodeText name := by
    rw [hrec, (Show.docced_keep denv doc _).1, Show.method_name denv ps name _ hn hi]
  have hdesc : Show.DescriptionIs denv doc (Decl.newMethod denv (.phr .methodDeclaration ks)).description := by
    rw [hrec]
    refine Show.docced_description denv doc _ (Show.foldl_keep _ (·.description) ps (fun k _ s => ?_) Decl.emptyFunction)
    unfold Decl.methodHeaderStep
    split_ifs <;> rfl
  have hpars : (Decl.newMethod denv (.phr .methodDeclaration ks)).params = es.map (Show.doccedParam denv doc) := by
    rw [hrec, hpar']
  generalize Decl.newMethod denv (.phr .methodDeclaration ks) = r at *
  refine ⟨_, _, r.description, Show.modifiers_shown _ _ _ hmod, Show.params_read uri denv doc es (by rw [← hpars]; exact hf.2),
    hdesc, ?_⟩
  rw [paramTexts, ← hpars]
  simp only [memberDetails, paramsDetail_eq, memberNote_eq, methodLabel, Show.toMethod, announced, hname, List.append_nil,
    List.append_assoc]

/-- C137: the detail of a property is the types of its first `@var` tag; the documentation is the class it was found in and
the description in that tag. -/
theorem C137_property (md : Bytes → Option Bytes) (uri : Bytes) (scope : Types.Ty) (sc : Show.Scope) (denv : Decl.Env)
    (m : Decl.Modifiers) (n : Analyser.Node) (doc tag : Option Analyser.Node)
    (hdoc : Decl.DocApplies denv n doc) (ht : Show.FirstTag denv.ctx b!"@var" doc tag)
    (hf : ∀ t ∈ (Decl.newProperty denv m n).types, Show.LevelFits t) :
    ∃ types desc, Show.TypesShown (Show.VarNamed denv tag) types ∧ Show.DescriptionIs denv tag desc ∧
      memberDetails md sc (.pro (Show.toProperty uri scope (Decl.newProperty denv m n))) =
        some ⟨.property, types, memberNote md sc desc, true⟩ := by
  obtain ⟨hty, hdesc, -⟩ := Show.property_doc denv m n doc tag hdoc ht
  refine ⟨_, _, hty, hdesc, ?_⟩
  simp only [memberDetails, memberNote_eq, Show.toProperty, Show.typesText]
  rw [Show.ofType_map _ hf]

/-- C137: a class constant has no detail, and is documented by its description alone. -/
theorem C137_class_constant (md : Bytes → Option Bytes) (uri : Bytes) (scope : Types.Ty) (sc : Show.Scope) (denv : Decl.Env)
    (m : Decl.Modifiers) (n : Analyser.Node) (before : List Analyser.Node) (value : Option (List Analyser.Node))
    (name : Analyser.Node) (doc : Option Analyser.Node) (hv : Decl.HasValue n.kids before value)
    (hn : Decl.OnlyPhrase .identifier before name) (hdoc : Decl.DocApplies denv n doc) :
    ∃ desc, Show.DescriptionIs denv doc desc ∧
      memberDetails md sc (.claCon (Show.toClassConst uri scope (Decl.newClassConst denv m n))) =
        some ⟨.constant, [], desc, false⟩ := by
  refine ⟨(Decl.newClassConst denv m n).description, ?_, rfl⟩
  have hne : ((Decl.beforeEquals n.kids).filter fun k => Decl.typ? k = some .identifier).isEmpty = false := by
    rw [Decl.beforeEquals_of _ _ _ hv, hn.filter]; rfl
  have := Show.description_map denv doc
  unfold Decl.newClassConst
  simp only
  rw [if_neg (by rw [hne]; decide), Show.validDoc_doc denv n doc hdoc]
  cases doc <;> exact this

/-- C137: what is announced is the import that the item adds: it ends in the `use` statement for the full name of what is
offered, as it is inserted. -/
theorem C137_import (tbl : Table) (word : Bytes) (limit : Option Int) (l : CList)
    (hl : ListOfNames env s tbl word limit l) (x : Sym) (label insert : Bytes) (use : Option (Bytes × SymKind))
    (hi : Complete.Item.sym x label insert use ∈ l.items) (t : TypeString) (k : SymKind) (hx : useOf x = some (t, k))
    (hw : word ≠ [] ∧ ¬ Qualified word) (c : InsertUse) (eol text : Bytes) (he : editText c eol use = some text) :
    ∃ pos before, c.useEdit eol t.fqn k [] = some (pos, text) ∧
      text = before ++ useWords k ++ t.fqn.drop 1 ++ b!";" := by
  obtain ⟨o, ho, rfl, rfl⟩ := offer_list hl x label insert use hi t k hx
  have hscope : (getScopeAndName word).1 = [] := by
    unfold getScopeAndName
    rw [if_neg hw.1, splitB_of_no_sep 92 word hw.2]
  have huse : ∀ u, o.use = some u → u = (t.fqn, k) := by
    intro u hu
    have fin : ∀ {x : Option Imports.Offer}, x = some o →
        x = (if k ≠ .other ∧ (nameTy t).getNamespace = b!"\\" then some { label := (nameTy t).original, use := none }
          else match tbl.classes.find? fun e => 92 :: e.2.name == (nameTy t).fqn with
            | some e => some { label := e.1, use := none }
            | none => some { label := (nameTy t).original, use := some ((nameTy t).fqn, k) }) → u = (t.fqn, k) := by
      rintro x rfl hx
      split at hx
      · cases hx; cases hu
      · split at hx <;> cases hx <;> cases hu
        rfl
    unfold Table.resolveToQualified at ho
    simp only [hscope, ne_eq, not_true_eq_false, false_and, if_false] at ho
    split at ho
    · cases ho; cases hu
    · split at ho
      · cases ho
      · split at ho
        · cases ho; cases hu
        · split at ho
          · split at ho
            · cases ho; cases hu
            · exact fin ho rfl
          · exact fin ho rfl
  have huse : o.use = some (t.fqn, k) := by
    cases hu : o.use with
    | none => rw [hu] at he; cases he
    | some u => rw [huse u hu]
  rw [huse] at he
  simp only [editText, Option.bind_some, Option.map_eq_some_iff] at he
  obtain ⟨⟨pos, text'⟩, h1, h2⟩ := he
  simp only at h2
  subst h2
  unfold InsertUse.useEdit at h1
  split at h1
  · cases h1
  · next hne =>
    split at h1
    · cases h1
    · next n hn =>
      simp only [ne_eq, not_true_eq_false, if_false, List.append_nil, Option.some.injEq, Prod.mk.injEq] at h1
      obtain ⟨rfl, rfl⟩ := h1
      refine ⟨n.stop, eol ++ (if n.kind = .namespaceDefinition then eol else []) ++ n.indentation, ?_, ?_⟩
      · unfold InsertUse.useEdit
        rw [if_neg hne, hn]
        simp
      · cases k <;> simp [useWords]

/-! ### examples -/

namespace Demo

/-- `<?php` and `namespace App;` -/
def useContext : InsertUse := insertUseContext [⟨.inlineText, 0, 6, []⟩, ⟨.namespaceDefinition, 6, 20, []⟩]

end Demo

/-- Non-vacuity of `C137_names` and `C137_import`: in a file of `App` the function `Lib\helper` is offered for `h`, and its
import is announced. -/
example : ∃ s l, run Store.Demo.env Store.Demo.root Demo.callsHist = some s ∧
    nameCompletion Store.Demo.env s Imports.demo b!"h" none = some l ∧
    Complete.Item.sym (.fn (Demo.declaredFn 1 b!"\\Lib\\helper" b!"helper")) b!"helper" b!"helper()"
      (some (b!"\\Lib\\helper", .function)) ∈ l.items ∧
    editText Demo.useContext b!"\n" (some (b!"\\Lib\\helper", .function)) = some b!"\n\nuse function Lib\\helper;" ∧
    nameDetails false (some b!"\n\nuse function Lib\\helper;") (.fn (Demo.declaredFn 1 b!"\\Lib\\helper" b!"helper")) =
      some ⟨.function, b!"helper()\n\n\nuse function Lib\\helper;", [], false⟩ := by
  obtain ⟨s, h1, h2⟩ := Store.Demo.observe (env := Store.Demo.env) (root := Store.Demo.root) (h := Demo.callsHist)
    (fun s => (nameCompletion Store.Demo.env s Imports.demo b!"h" none).map fun l => l.items.filter fun i =>
      i = .sym (.fn (Demo.declaredFn 1 b!"\\Lib\\helper" b!"helper")) b!"helper" b!"helper()" (some (b!"\\Lib\\helper", .function)))
    (some [.sym (.fn (Demo.declaredFn 1 b!"\\Lib\\helper" b!"helper")) b!"helper" b!"helper()" (some (b!"\\Lib\\helper", .function))])
    (by decide +kernel)
  obtain ⟨l, hl, hi⟩ := Option.map_eq_some_iff.1 h2
  exact ⟨s, l, h1, hl, (List.mem_filter.1 (hi ▸ List.mem_singleton.2 rfl : _ ∈ l.items.filter _)).1, by decide +kernel,
    by decide +kernel⟩

section
open Verif.Show Verif.Decl

/-- Non-vacuity of `C137_class`, `C137_interface`, `C137_trait` and `C137_constant`: the declarations of a file of the
namespace `App` that share a doc comment; `Lib\Foo` would be imported. -/
example : OnlyPhrase .classDeclarationHeader (hPart 4).kids (sub (hPart 4) 0) ∧
    (∃ t, OnlyToken .name (sub (hPart 4) 0).kids t ∧ Ordinary (hEnv.ctx.tokText t)) ∧
    DocApplies hEnv (hPart 4) (some (hPart 1)) ∧
    OnlyPhrase .interfaceDeclarationHeader (hPart 5).kids (sub (hPart 5) 0) ∧
    (∃ t, OnlyToken .name (sub (hPart 5) 0).kids t ∧ Ordinary (hEnv.ctx.tokText t)) ∧
    OnlyPhrase .traitDeclarationHeader (hPart 6).kids (sub (hPart 6) 0) ∧
    (∃ t, OnlyToken .name (sub (hPart 6) 0).kids t ∧ Ordinary (hEnv.ctx.tokText t)) ∧
    (∃ before value, HasValue ((hPart 8).kids.filter fun k => tokType? k ≠ some .name) before value) ∧
    [Sym.cla (newClassSymbol Store.Demo.uA hEnv (hPart 4)), .int (newInterfaceSymbol Store.Demo.uA hEnv (hPart 5)),
      .tra (newTraitSymbol Store.Demo.uA hEnv (hPart 6)), .con (toConst Store.Demo.uA (newConst hEnv (hPart 8)))].map
        (nameDetails false (some b!"\nuse App\\B;")) =
      [some ⟨.class_, b!"\\App\\B\n\n\nuse App\\B;", b!"Old.", false⟩,
       some ⟨.interface_, b!"\\App\\K\n\n\nuse App\\B;", b!"Old.", false⟩,
       some ⟨.class_, b!"\\App\\T\n\n\nuse App\\B;", [], false⟩,
       some ⟨.constant, b!"\\App\\MAX\n\n\nuse App\\B;", b!"\\App\\MAX = 7; Old.", false⟩] :=
  ⟨OnlyPhrase.of_filter rfl, ⟨_, OnlyToken.of_filter rfl, by decide +kernel⟩, ⟨rfl, by decide +kernel⟩,
    OnlyPhrase.of_filter rfl, ⟨_, OnlyToken.of_filter rfl, by decide +kernel⟩, OnlyPhrase.of_filter rfl,
    ⟨_, OnlyToken.of_filter rfl, by decide +kernel⟩, ⟨_, _, HasValue.of 1 _ _ _ _ rfl rfl rfl rfl rfl rfl⟩, by decide +kernel⟩

/-- Non-vacuity of `C137_define`, `C137_function`, `C137_method`, `C137_property` and `C137_class_constant`; the conditions on
the trees are those of the examples of C117 and C119. -/
example : (newDefine dEnv (dPart 3)).bind (fun r => nameDetails false none (.def_ (toConst Store.Demo.uA r))) =
      some ⟨.constant, b!"\\App\\MAX", b!"\\App\\MAX = 7; Old.", false⟩ ∧
    nameDetails false none (.fn (toFunction Store.Demo.uA senv (part 3))) =
      some ⟨.function, b!"count(\\Lib\\Foo|\\App\\Bar|null $a, $b = 1 + 2)", b!"Counts.", false⟩ ∧
    memberDetails some (.cls b!"\\App\\A")
      (.met (toMethod Store.Demo.uA ⟨b!"\\App\\A", b!"A", 0⟩ Analyser.zeroRng (newMethod senv sMethod))) =
      some ⟨.method, b!"public m($x)", b!"\n`class \\App\\A`\n\n", true⟩ ∧
    ((newPropertyDeclaration hEnv (hPart 3)).map fun r =>
      memberDetails some (.cls b!"\\App\\B") (.pro (toProperty Store.Demo.uA ⟨b!"\\App\\B", b!"B", 0⟩ r))) =
      [some ⟨.property, b!"\\Lib\\Foo[]", b!"\n`class \\App\\B`\n\nhow", true⟩] ∧
    ((newClassConstDeclaration hEnv (hPart 7)).map fun r =>
      memberDetails some (.cls b!"\\App\\B") (.claCon (toClassConst Store.Demo.uA ⟨b!"\\App\\B", b!"B", 0⟩ r))) =
      [some ⟨.constant, [], b!"Old.", false⟩] ∧
    FirstTag hEnv.ctx b!"@var" (some (hPart 1)) (some (sub (hPart 1) 3)) :=
  ⟨by decide +kernel, by decide +kernel, by decide +kernel, by decide +kernel, by decide +kernel, hTags.1⟩

end

/-- Without the condition that the word is one segment, the import that is announced is not that of what is offered: for
`Other\ru` in a file of `App`, the function `Other\run` is offered together with `use Other;`. -/
theorem C137_needs_one_segment :
    ((Imports.demo.resolveToQualified .function (nameTy ⟨b!"\\Other\\run", b!"run", 0⟩) b!"Other\\ru").bind fun o =>
      editText Demo.useContext b!"\n" o.use) = some b!"\n\nuse Other;" := by decide +kernel

end Verif.Whole
