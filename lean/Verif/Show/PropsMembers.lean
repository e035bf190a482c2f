import Verif.Show.PropsClasses

/-! C119 for properties and constants; C120: what is said of deprecated names. -/

namespace Verif.Show
open Verif.Types (Ty Union unionIsEmpty unionToBytes add merge)
open Verif.Analyser (Node Tok Ctx PType TokType)
open Verif.Decl (Env OnlyPhrase NoPhrase OnlyToken IsPhrase IsToken Listed DocApplies newPhpDoc newClass newInterface
  IsTag Doc parseTag isDocTag getTagName newProperty newClassConst newConst typ_iff tokType_iff OneVisibility HasValue
  textOf)

theorem byName_skip (env : Env) (name : Bytes) (h0 : name ≠ []) (ks : List Node) (h : ∀ q ∈ ks, ¬ IsTag env.ctx name q) :
    ((ks.filter isDocTag).filterMap (parseTag env)).filter (fun t => decide (t.tagName = name)) = [] := by
  refine List.filter_eq_nil_iff.2 fun t' ht' hh => ?_
  obtain ⟨q, hq, hp'⟩ := List.mem_filterMap.1 ht'
  obtain ⟨hq, hqd⟩ := List.mem_filter.1 hq
  refine h q hq ⟨(Decl.isDocTag_iff q).1 hqd, (Decl.getTagName_eq env _ _ h0).1 ?_⟩
  rw [← (Decl.parseTag_types hp').1]
  simpa using hh

/-- The first tag with a name is the first in the list of those tags. -/
theorem byName_first (env : Env) (name : Bytes) (h0 : name ≠ []) (read : Node → Decl.Tag)
    (hr : ∀ k, getTagName env k.kids = name → parseTag env k = some (read k)) (d : Node) (tag : Option Node)
    (h : FirstTag env.ctx name (some d) tag) :
    ((newPhpDoc env d).byName name).head? = tag.map read := by
  unfold Doc.byName newPhpDoc
  cases tag with
  | none => rw [byName_skip env name h0 d.kids h]; rfl
  | some k =>
    obtain ⟨pre, post, hk, ⟨hdk, htag⟩, hpre⟩ := h
    have hname := (Decl.getTagName_eq env _ _ h0).2 htag
    have hp := hr k hname
    rw [hk]
    simp only [List.filter_append, List.filterMap_append]
    rw [byName_skip env name h0 pre hpre, List.nil_append, List.filter_cons_of_pos ((Decl.isDocTag_iff k).2 hdk),
      List.filterMap_cons_some hp, List.filter_cons_of_pos (by rw [(Decl.parseTag_types hp).1, hname]; simp)]
    rfl

/-- What a property takes from the doc comment. -/
theorem property_doc (env : Env) (m : Decl.Modifiers) (e : Node) (doc tag : Option Node) (hd : DocApplies env e doc)
    (ht : FirstTag env.ctx b!"@var" doc tag) :
    TypesShown (VarNamed env tag) (unionToBytes (newProperty env m e).types) ∧
    DescriptionIs env tag (newProperty env m e).description ∧
    (newProperty env m e).name = Decl.lastOf (Decl.tokText? env.ctx .variableName) e.kids [] ∧
    (newProperty env m e).vis = m.vis ∧ (newProperty env m e).isStatic = m.isStatic := by
  have hno : ∀ u : Union, u = [] → TypesShown (VarNamed env none) (unionToBytes u) := by
    rintro u rfl
    refine typesShown _ _ (by simp) (fun t h => by cases h) fun n l h => ?_
    obtain ⟨k, hk, -⟩ := h
    cases hk
  unfold newProperty
  rw [validDoc_doc env e doc hd]
  cases doc with
  | none =>
    have : tag = none := ht
    subst this
    exact ⟨hno _ rfl, rfl, rfl, rfl, rfl⟩
  | some d =>
    have hf := byName_first env b!"@var" (by decide) (fun k => Decl.varTag env (getTagName env k.kids) k.kids)
      (fun k h => by unfold parseTag; simp only [h]; rfl) d tag ht
    unfold Decl.PropertyRec.applyDoc
    simp only [Option.map_some]
    cases tag with
    | none =>
      rw [Option.map_none, List.head?_eq_none_iff] at hf
      simp only [hf]
      exact ⟨hno _ rfl, rfl, by simp, by simp, by simp⟩
    | some k =>
      obtain ⟨rest, hrest⟩ : ∃ rest, (newPhpDoc env d).byName b!"@var" =
          Decl.varTag env (getTagName env k.kids) k.kids :: rest := by
        cases hl : (newPhpDoc env d).byName b!"@var" with
        | nil => rw [hl] at hf; cases hf
        | cons a l => rw [hl] at hf; cases hf; exact ⟨l, rfl⟩
      simp only [hrest]
      refine ⟨typesShown _ _ (merge_nodup _ _ (by simp)) (fun t h => ?_) (fun n l h => ?_), ?_, by simp, by simp, by simp⟩
      · rcases mem_merge_cases h with h | h
        · cases h
        · exact ⟨k, rfl, tagNamed_of env k _ _ (named_of_mem env _ t h)⟩
      · obtain ⟨k', hk', h⟩ := h
        cases hk'
        rw [Types.C25_merge]
        right
        rw [Decl.C82_named]
        exact (Decl.names_joinedTypes env k n).2 (tagNamed_names h)
      · exact description_is env (some k)

/-- C119 for properties: `private static $name: types` with the visibility and `static` as they are written, the types and
the description of the first `@var` tag, and the class. -/
theorem C119_property (md : Bytes → Option Bytes) (uri : Bytes) (scope : Ty) (s : Scope) (env : Env)
    (ks mods els es : List Node) (i : Nat) (e : Node) (name : Tok) (doc tag : Option Node) (rest : Bytes)
    (h : Decl.DeclaresMembers .propertyElementList ks mods (.phr .propertyElementList els)) (hv : OneVisibility mods)
    (hes : Listed .propertyElement els es) (hi : es[i]? = some e) (hn : OnlyToken .variableName e.kids name)
    (hd : DocApplies env e doc) (ht : FirstTag env.ctx b!"@var" doc tag) :
    ∃ r, (Decl.newPropertyDeclaration env (.phr .propertyDeclaration ks))[i]? = some r ∧
      ((∀ t ∈ r.types, LevelFits t) → (toProperty uri scope r).WF →
      ∃ p mod types desc, Encoding.readProperty ((toProperty uri scope r).serialise ++ rest) = some (p, rest) ∧
        ModifiersShown mods mod ∧ ReturnShown (VarNamed env tag) types ∧ DescriptionIs env tag desc ∧
        HoverText md (mod ++ b!" " ++ env.ctx.tokText name ++ types) (scopeLine s) desc (propertyHover md s p)) := by
  have hdecl : Decl.newPropertyDeclaration env (.phr .propertyDeclaration ks) =
      es.map (newProperty env (Decl.getMemberModifier (.phr Decl.memberModifierList mods))) := by
    unfold Decl.newPropertyDeclaration Decl.newPropertyList
    rw [show (Node.phr PType.propertyDeclaration ks).kids = ks from rfl, Decl.members_loop (by decide) h,
      show (Node.phr PType.propertyElementList els).kids = els from rfl, hes.filter]
  have hk := Decl.C79_keywords mods hv
  have hp := property_doc env (Decl.getMemberModifier (.phr Decl.memberModifierList mods)) e doc tag hd ht
  refine ⟨_, by rw [hdecl, List.getElem?_map, hi]; rfl, fun hf hwf => ?_⟩
  generalize Decl.getMemberModifier (.phr Decl.memberModifierList mods) = m at *
  obtain ⟨hty, hdesc, hname, hvis, hst⟩ := hp
  rw [hn.text] at hname
  generalize newProperty env m e = r at *
  refine ⟨_, visibilityText (visValue r.vis) ++ (if r.isStatic then b!" static" else []),
    returnText (r.types.map toType), r.description, Encoding.C02_property_round_trip _ hwf rest,
    modifiers_shown mods _ _ ⟨by rw [hvis]; exact hk.1, by rw [hst]; exact hk.2.1⟩, return_shown _ _ hf hty, hdesc, ?_⟩
  have ht := hover_text md (visibilityText (visValue r.vis) ++ (if r.isStatic then b!" static" else []) ++ b!" " ++
    env.ctx.tokText name ++ returnText (r.types.map toType)) (scopeText s true) r.description
  rw [scope_line] at ht
  unfold propertyHover toProperty
  simp only
  rw [hname, scope_line]
  exact ht

/-- C119 for class constants: `const NAME = value` with the value as it is written (without blanks around it), and the
class. -/
theorem C119_class_constant (md : Bytes → Option Bytes) (uri : Bytes) (scope : Ty) (s : Scope) (env : Env)
    (ks mods els es before : List Node) (i : Nat) (e name : Node) (value : Option (List Node)) (doc : Option Node)
    (rest : Bytes)
    (h : Decl.DeclaresMembers .classConstElementList ks mods (.phr .classConstElementList els))
    (hes : Listed .classConstElement els es) (hi : es[i]? = some e) (hv : HasValue e.kids before value)
    (hn : OnlyPhrase .identifier before name) (hd : DocApplies env e doc) :
    ∃ r, (Decl.newClassConstDeclaration env (.phr .classConstDeclaration ks))[i]? = some r ∧
      ((toClassConst uri scope r).WF →
      ∃ c desc, Encoding.readClassConst ((toClassConst uri scope r).serialise ++ rest) = some (c, rest) ∧
        DescriptionIs env doc desc ∧
        HoverText md (b!"const " ++ env.ctx.nodeText name ++ valueShown (textOf env.ctx (value.getD []))) (scopeLine s)
          desc (classConstHover md s c)) := by
  have hdecl : Decl.newClassConstDeclaration env (.phr .classConstDeclaration ks) =
      es.map (newClassConst env (Decl.getMemberModifier (.phr Decl.memberModifierList mods))) := by
    unfold Decl.newClassConstDeclaration Decl.newClassConstList
    rw [show (Node.phr PType.classConstDeclaration ks).kids = ks from rfl, Decl.members_loop (by decide) h,
      show (Node.phr PType.classConstElementList els).kids = els from rfl, hes.filter]
  refine ⟨_, by rw [hdecl, List.getElem?_map, hi]; rfl, fun hwf => ?_⟩
  generalize Decl.getMemberModifier (.phr Decl.memberModifierList mods) = m at *
  obtain ⟨hname, -, -, hval⟩ := Decl.C85_class_constant env m e name before value hv hn
  have hdesc : DescriptionIs env doc (newClassConst env m e).description := by
    have hne : ((Decl.beforeEquals e.kids).filter fun k => Decl.typ? k = some .identifier).isEmpty = false := by
      rw [Decl.beforeEquals_of _ _ _ hv, hn.filter]; rfl
    have := description_map env doc
    unfold newClassConst
    simp only
    rw [if_neg (by rw [hne]; decide), validDoc_doc env e doc hd]
    cases doc <;> exact this
  refine ⟨_, _, Encoding.C02_classConst_round_trip_partial _ hwf rest, hdesc, ?_⟩
  have ht := hover_text md (b!"const " ++ env.ctx.nodeText name ++ valueShown (textOf env.ctx (value.getD [])))
    (scopeText s true) (newClassConst env m e).description
  rw [scope_line] at ht
  unfold classConstHover toClassConst
  simp only
  rw [hname, hval, scope_line]
  exact ht

/-- C119 for constants outside classes: `const NAME = value`, and below it `\Full\NAME = value; description`. -/
theorem C119_constant (md : Bytes → Option Bytes) (uri : Bytes) (env : Env) (n : Node) (before : List Node)
    (value : Option (List Node)) (name : Tok) (doc : Option Node) (rest : Bytes)
    (hv : HasValue (n.kids.filter fun k => Decl.tokType? k ≠ some .name) before value)
    (hn : OnlyToken .name n.kids name) (ho : Decl.Ordinary (env.ctx.tokText name)) (hd : DocApplies env n doc)
    (hwf : (toConst uri (newConst env n)).WF) :
    ∃ c desc, Encoding.readConst ((toConst uri (newConst env n)).serialise ++ rest) = some (c, rest) ∧
      DescriptionIs env doc desc ∧
      HoverText md (b!"const " ++ env.ctx.tokText name ++ valueShown (textOf env.ctx (value.getD []))) []
        (Imports.inNamespace env.table.getNamespace (env.ctx.tokText name) ++ b!" = " ++ textOf env.ctx (value.getD []) ++
          b!"; " ++ desc) (constHover md c) := by
  obtain ⟨hfqn, hval⟩ := Decl.C85_constant env n before value name hv hn ho
  have hdesc : DescriptionIs env doc (newConst env n).description := by
    have := description_map env doc
    unfold newConst
    simp only
    rw [if_pos, validDoc_doc env n doc hd]
    · cases doc <;> exact this
    · obtain ⟨pre, post, hk, ht, -⟩ := hn
      rw [hk]
      simp [Decl.tokType?, ht]
  have hname : (toType (newConst env n).name).original = env.ctx.tokText name := by
    obtain ⟨pre, post, hk, ht, hno⟩ := hn
    unfold newConst
    simp only
    rw [hk, Decl.lastOf_only (a := Analyser.tyOf (env.ctx.tokText name)) _ (by rw [Decl.tokText_of ht]; rfl)
      fun k hk => by rw [Decl.tokText_none (hno k hk)]; rfl]
    obtain ⟨h0, -, h1, h2, -, h3⟩ := ho
    exact original_plain _ _ h0 h1 h2 h3
  refine ⟨_, _, Encoding.C02_const_round_trip _ hwf rest, hdesc, ?_⟩
  have ht := hover_plain md (b!"const " ++ env.ctx.tokText name ++ valueShown (textOf env.ctx (value.getD [])))
    (Imports.inNamespace env.table.getNamespace (env.ctx.tokText name) ++ b!" = " ++ textOf env.ctx (value.getD []) ++
      b!"; " ++ (newConst env n).description)
  unfold constHover constDescription toConst
  simp only
  rw [hname, hval, show (toType (newConst env n).name).fqn = (newConst env n).name.fqn from rfl, hfqn]
  exact ht

/-! ### deprecated names -/

theorem deprecation_text (name : Bytes) (t : Encoding.Tag) :
    deprecatedDescription (name ++ b!" is deprecated") t = deprecationText name t.name t.description := by
  unfold deprecatedDescription deprecationText
  by_cases h1 : t.name = [] <;> by_cases h2 : t.description = [] <;> simp [h1, h2]

theorem version_is (env : Env) (k : Node) : VersionIs env k (Decl.deprecatedTag env (getTagName env k.kids) k.kids).name := by
  refine ⟨fun t ht => ht.text _, fun h => Decl.lastOf_none _ fun q hq => Decl.tokText_none (h q hq)⟩

/-- The tag that a doc comment gives. -/
theorem deprecated_tag (env : Env) (d : Node) (tag : Option Node) (ht : FirstTag env.ctx b!"@deprecated" (some d) tag) :
    (newPhpDoc env d).deprecated = tag.map fun k => Decl.deprecatedTag env b!"@deprecated" k.kids := by
  unfold Doc.deprecated
  rw [byName_first env b!"@deprecated" (by decide) (fun k => Decl.deprecatedTag env (getTagName env k.kids) k.kids)
    (fun k h => by unfold parseTag; simp only [h]; rfl) d tag ht]
  cases tag with
  | none => rfl
  | some k =>
    obtain ⟨-, -, -, ⟨-, htag⟩, -⟩ := ht
    have := (Decl.getTagName_eq env _ _ (by decide)).2 htag
    simp only [Option.map_some]
    rw [this]

theorem deprecation_kept (env : Env) (doc tag : Option Node) (ht : FirstTag env.ctx b!"@deprecated" doc tag) :
    DeprecationKept env tag (((doc.map (newPhpDoc env)).bind Doc.deprecated).map toTag) := by
  cases doc with
  | none =>
    have : tag = none := ht
    subst this
    rfl
  | some d =>
    rw [Option.map_some, Option.bind_some, deprecated_tag env d tag ht]
    cases tag with
    | none => rfl
    | some k =>
      refine ⟨_, _, _, rfl, ?_, ?_, fun name => deprecation_text name _⟩
      · exact version_is env k
      · exact description_is env (some k)

theorem docced_deprecated (env : Env) (doc : Option Node) (s : Decl.FunctionRec) (h : s.deprecated = none) :
    (docced env doc s).deprecated = (doc.map (newPhpDoc env)).bind Doc.deprecated := by
  unfold docced
  cases doc with
  | none => exact h
  | some d => rfl

/-- C120: what is said of a function that is deprecated: `name is deprecated`, with the version and the text of the first
`@deprecated` tag of its doc comment. Without such a tag the index does not take it for deprecated. -/
theorem C120_function (uri : Bytes) (env : Env) (ks hs : List Node) (doc tag : Option Node) (rest : Bytes)
    (h : OnlyPhrase .functionDeclarationHeader ks (.phr .functionDeclarationHeader hs))
    (hd : DocApplies env (.phr .functionDeclaration ks) doc) (ht : FirstTag env.ctx b!"@deprecated" doc tag)
    (hwf : (toFunction uri env (.phr .functionDeclaration ks)).WF) :
    ∃ f, Encoding.readFunction ((toFunction uri env (.phr .functionDeclaration ks)).serialise ++ rest) = some (f, rest) ∧
      DeprecationKept env tag f.deprecated := by
  refine ⟨_, Encoding.C02_function_round_trip_partial _ hwf rest, ?_⟩
  show DeprecationKept env tag ((Decl.newFunction env (.phr .functionDeclaration ks)).deprecated.map toTag)
  rw [function_record env ks hs doc h hd, docced_deprecated]
  · exact deprecation_kept env doc tag ht
  · refine foldl_keep _ (·.deprecated) hs (fun k _ s => ?_) Decl.emptyFunction
    unfold Decl.functionHeaderStep
    split_ifs <;> rfl

/-- C120 for methods. -/
theorem C120_method (uri : Bytes) (scope : Ty) (range : Rng) (env : Env) (ks hs : List Node) (doc tag : Option Node)
    (rest : Bytes) (h : OnlyPhrase .methodDeclarationHeader ks (.phr .methodDeclarationHeader hs))
    (hd : DocApplies env (.phr .methodDeclaration ks) doc) (ht : FirstTag env.ctx b!"@deprecated" doc tag)
    (hwf : (toMethod uri scope range (Decl.newMethod env (.phr .methodDeclaration ks))).WF) :
    ∃ f, Encoding.readMethod ((toMethod uri scope range (Decl.newMethod env (.phr .methodDeclaration ks))).serialise ++ rest) =
        some (f, rest) ∧ DeprecationKept env tag f.deprecated := by
  refine ⟨_, Encoding.C02_method_round_trip_partial _ hwf rest, ?_⟩
  show DeprecationKept env tag ((Decl.newMethod env (.phr .methodDeclaration ks)).deprecated.map toTag)
  rw [method_record env ks hs doc h hd, docced_deprecated]
  · exact deprecation_kept env doc tag ht
  · refine foldl_keep _ (·.deprecated) hs (fun k _ s => ?_) Decl.emptyFunction
    unfold Decl.methodHeaderStep
    split_ifs <;> rfl

/-- C120 for classes and interfaces. -/
theorem C120_class (uri : Bytes) (env : Env) (ks hs : List Node) (name : Tok) (doc tag : Option Node) (rest : Bytes)
    (hn : OnlyToken .name hs name) (ht : FirstTag env.ctx b!"@deprecated" doc tag) :
    (OnlyPhrase .classDeclarationHeader ks (.phr .classDeclarationHeader hs) →
      DocApplies env (.phr .classDeclaration ks) doc → (newClassSymbol uri env (.phr .classDeclaration ks)).WF →
      ∃ c, Encoding.readClass ((newClassSymbol uri env (.phr .classDeclaration ks)).serialise ++ rest) = some (c, rest) ∧
        DeprecationKept env tag c.deprecated) ∧
    (OnlyPhrase .interfaceDeclarationHeader ks (.phr .interfaceDeclarationHeader hs) →
      DocApplies env (.phr .interfaceDeclaration ks) doc →
      (newInterfaceSymbol uri env (.phr .interfaceDeclaration ks)).WF →
      ∃ c, Encoding.readInterface ((newInterfaceSymbol uri env (.phr .interfaceDeclaration ks)).serialise ++ rest) =
        some (c, rest) ∧ DeprecationKept env tag c.deprecated) := by
  constructor
  · intro h hd hwf
    refine ⟨_, Encoding.C02_class_round_trip _ hwf rest, ?_⟩
    show DeprecationKept env tag (((headerDoc env .classDeclarationHeader (.phr .classDeclaration ks)).bind _).map toTag)
    rw [headerDoc_of (n := .phr .classDeclaration ks) h hn hd]
    exact deprecation_kept env doc tag ht
  · intro h hd hwf
    refine ⟨_, Encoding.C02_interface_round_trip _ hwf rest, ?_⟩
    show DeprecationKept env tag
      (((headerDoc env .interfaceDeclarationHeader (.phr .interfaceDeclaration ks)).bind _).map toTag)
    rw [headerDoc_of (n := .phr .interfaceDeclaration ks) h hn hd]
    exact deprecation_kept env doc tag ht

/-- C120 for properties and class constants. -/
theorem C120_members (uri : Bytes) (scope : Ty) (env : Env) (m : Decl.Modifiers) (e : Node) (doc tag : Option Node)
    (rest : Bytes) (hd : DocApplies env e doc) (ht : FirstTag env.ctx b!"@deprecated" doc tag) :
    ((toProperty uri scope (newProperty env m e)).WF →
      ∃ p, Encoding.readProperty ((toProperty uri scope (newProperty env m e)).serialise ++ rest) = some (p, rest) ∧
        DeprecationKept env tag p.deprecated) ∧
    ((∃ before value name, HasValue e.kids before value ∧ OnlyPhrase .identifier before name) →
      (toClassConst uri scope (newClassConst env m e)).WF →
      ∃ c, Encoding.readClassConst ((toClassConst uri scope (newClassConst env m e)).serialise ++ rest) = some (c, rest) ∧
        DeprecationKept env tag c.deprecated) := by
  have hk := deprecation_kept env doc tag ht
  constructor
  · intro hwf
    refine ⟨_, Encoding.C02_property_round_trip _ hwf rest, ?_⟩
    show DeprecationKept env tag ((newProperty env m e).deprecated.map toTag)
    unfold newProperty
    rw [validDoc_doc env e doc hd]
    cases doc with
    | none => exact hk
    | some d =>
      unfold Decl.PropertyRec.applyDoc
      simp only [Option.map_some]
      cases (newPhpDoc env d).byName b!"@var" <;> exact hk
  · rintro ⟨before, value, name, hv, hn⟩ hwf
    refine ⟨_, Encoding.C02_classConst_round_trip_partial _ hwf rest, ?_⟩
    have hne : ((Decl.beforeEquals e.kids).filter fun k => Decl.typ? k = some .identifier).isEmpty = false := by
      rw [Decl.beforeEquals_of _ _ _ hv, hn.filter]; rfl
    show DeprecationKept env tag ((newClassConst env m e).deprecated.map toTag)
    unfold newClassConst
    simp only
    rw [if_neg (by rw [hne]; decide), validDoc_doc env e doc hd]
    cases doc <;> exact hk

/-- C120 for constants outside classes. -/
theorem C120_constant (uri : Bytes) (env : Env) (n : Node) (name : Tok) (doc tag : Option Node) (rest : Bytes)
    (hn : OnlyToken .name n.kids name) (hd : DocApplies env n doc) (ht : FirstTag env.ctx b!"@deprecated" doc tag)
    (hwf : (toConst uri (newConst env n)).WF) :
    ∃ c, Encoding.readConst ((toConst uri (newConst env n)).serialise ++ rest) = some (c, rest) ∧
      DeprecationKept env tag c.deprecated := by
  have hk := deprecation_kept env doc tag ht
  refine ⟨_, Encoding.C02_const_round_trip _ hwf rest, ?_⟩
  show DeprecationKept env tag ((newConst env n).deprecated.map toTag)
  unfold newConst
  simp only
  rw [if_pos, validDoc_doc env n doc hd]
  · cases doc <;> exact hk
  · obtain ⟨pre, post, hks, hty, -⟩ := hn
    rw [hks]
    simp [Decl.tokType?, hty]

/-! ### a document -/

section
open Verif.Decl
open Verif.Analyser (Src)

/-- `/** Old.`, ` * @var Foo[] how`, ` * @deprecated 1.2 gone`, ` */`, and in the next line `private static $p;`,
`class B extends Foo implements I, \J`, `interface K extends I, J`, `trait T`, `const X = 1`, `MAX = 7`,
`function f()`, `public function m()`. -/
def hSrc : Src :=
  .p (.opaque 0)
    [tk b!"<?php\n",
     .p .documentComment
      [tk b!"/** ", .p docDescription [tk b!"Old."], ws b!"\n * ",
       .p (.docTag 0) [.t .docTagName b!"@var", ws b!" ", .p .typeDeclaration [nm b!"Foo[]"], ws b!" ",
         .p docDescription [tk b!"how"]],
       ws b!"\n * ",
       .p (.docTag 1) [.t .docTagName b!"@deprecated", ws b!" ", .t tVersion b!"1.2", ws b!" ",
         .p docDescription [tk b!"gone"]],
       tk b!"\n */"],
     ws b!"\n",
     .p .propertyDeclaration
      [.p memberModifierList [.t tPrivate b!"private", ws b!" ", .t tStatic b!"static"], ws b!" ",
       .p .propertyElementList [.p .propertyElement [.t .variableName b!"$p"]], tk b!";"],
     .p .classDeclaration
      [.p .classDeclarationHeader [tk b!"class", ws b!" ", nm b!"B", ws b!" ",
        .p .classBaseClause [tk b!"extends", ws b!" ", .p .qualifiedName [nm b!"Foo"]], ws b!" ",
        .p .classInterfaceClause [tk b!"implements", ws b!" ",
          .p .qualifiedNameList [.p .qualifiedName [nm b!"I"], tk b!",", .p .fullyQualifiedName [nm b!"\\J"]]]]],
     .p .interfaceDeclaration
      [.p .interfaceDeclarationHeader [tk b!"interface", ws b!" ", nm b!"K", ws b!" ",
        .p interfaceBaseClause [tk b!"extends", ws b!" ",
          .p .qualifiedNameList [.p .qualifiedName [nm b!"I"], tk b!",", .p .qualifiedName [nm b!"J"]]]]],
     .p .traitDeclaration [.p .traitDeclarationHeader [tk b!"trait", ws b!" ", nm b!"T"]],
     .p .classConstDeclaration
      [.t tConst b!"const", ws b!" ", .p .classConstElementList [.p .classConstElement
        [.p .identifier [nm b!"X"], ws b!" ", .t .equals b!"=", ws b!" ", ex b!"1"]], tk b!";"],
     .p .constElement [nm b!"MAX", ws b!" ", .t .equals b!"=", ws b!" ", ex b!"7"],
     .p .functionDeclaration [.p .functionDeclarationHeader [.t tFunction b!"function", ws b!" ", nm b!"f", tk b!"()"]],
     .p .methodDeclaration [.p .methodDeclarationHeader
      [.p memberModifierList [.t tPublic b!"public"], ws b!" ", .t tFunction b!"function", ws b!" ",
       .p .identifier [nm b!"m"], tk b!"()"]]]

/-- A part of it. -/
def hPart (i : Nat) : Node := hSrc.root.kids.getD i hSrc.root
/-- `namespace App; use Lib\Foo;` before it. -/
def hEnv0 : Env := { senv0 with ctx := hSrc.ctx }
/-- After the doc comment. -/
def hEnv : Env := { hEnv0 with doc := some (newPhpDoc hEnv0 (hPart 1)) }
/-- `$p`. -/
def hProperty : Node := sub (sub (hPart 3) 2) 0
/-- `X = 1`. -/
def hConstant : Node := sub (sub (hPart 7) 2) 0

instance (c : Encoding.Class) : Decidable c.WF := by unfold Encoding.Class.WF; infer_instance
instance (c : Encoding.Interface) : Decidable c.WF := by unfold Encoding.Interface.WF; infer_instance
instance (c : Encoding.Trait) : Decidable c.WF := by unfold Encoding.Trait.WF; infer_instance
instance (c : Encoding.Property) : Decidable c.WF := by unfold Encoding.Property.WF; infer_instance
instance (c : Encoding.Const) : Decidable c.WF := by unfold Encoding.Const.WF; infer_instance
instance (c : Encoding.ClassConst) : Decidable c.WF := by unfold Encoding.ClassConst.WF; infer_instance
instance (s : Bytes) : Decidable (PlainName s) := by unfold PlainName; infer_instance

example : OnlyPhrase .classDeclarationHeader (hPart 4).kids (sub (hPart 4) 0) ∧
    (∃ t, OnlyToken .name (sub (hPart 4) 0).kids t ∧ PlainName (hEnv.ctx.tokText t)) ∧
    ParentWritten (sub (hPart 4) 0).kids (some (sub (sub (sub (hPart 4) 0) 4) 2)) ∧
    PlainName (hEnv.ctx.nodeText (sub (sub (sub (hPart 4) 0) 4) 2)) ∧
    InterfacesWritten (sub (hPart 4) 0).kids
      [sub (sub (sub (sub (hPart 4) 0) 6) 2) 0, sub (sub (sub (sub (hPart 4) 0) 6) 2) 2] ∧
    (∀ e ∈ [sub (sub (sub (sub (hPart 4) 0) 6) 2) 0, sub (sub (sub (sub (hPart 4) 0) 6) 2) 2],
      PlainName (hEnv.ctx.nodeText e)) ∧
    DocApplies hEnv (hPart 4) (some (hPart 1)) ∧ (newClassSymbol b!"file:///a.php" hEnv (hPart 4)).WF ∧
    classHover some (newClassSymbol b!"file:///a.php" hEnv (hPart 4)) =
      b!"```php\n<?php\nclass B extends \\Lib\\Foo implements I, \\J\n```\n\n____\nOld.\n____\n" :=
  ⟨OnlyPhrase.of_filter rfl, ⟨_, OnlyToken.of_filter rfl, by decide +kernel⟩,
    ⟨_, OnlyPhrase.of_filter rfl, OnlyName.of_filter 2 _ rfl rfl rfl⟩, by decide +kernel,
    .inr ⟨_, _, OnlyPhrase.of_filter rfl, OnlyPhrase.of_filter rfl, ListedNames.of_filter rfl⟩, by decide +kernel,
    ⟨rfl, by decide +kernel⟩, by decide +kernel, by decide +kernel⟩

example : OnlyPhrase .interfaceDeclarationHeader (hPart 5).kids (sub (hPart 5) 0) ∧
    (∃ t, OnlyToken .name (sub (hPart 5) 0).kids t ∧ PlainName (hEnv.ctx.tokText t)) ∧
    BasesWritten (sub (hPart 5) 0).kids
      [sub (sub (sub (sub (hPart 5) 0) 4) 2) 0, sub (sub (sub (sub (hPart 5) 0) 4) 2) 2] ∧
    (∀ e ∈ [sub (sub (sub (sub (hPart 5) 0) 4) 2) 0, sub (sub (sub (sub (hPart 5) 0) 4) 2) 2],
      PlainName (hEnv.ctx.nodeText e) ∧ hEnv.ctx.nodeText e ≠ b!"\\") ∧
    DocApplies hEnv (hPart 5) (some (hPart 1)) ∧ (newInterfaceSymbol b!"file:///a.php" hEnv (hPart 5)).WF ∧
    interfaceHover some (newInterfaceSymbol b!"file:///a.php" hEnv (hPart 5)) =
      b!"```php\n<?php\ninterface K extends I, J\n```\n\n____\nOld.\n____\n" := by
  refine ⟨OnlyPhrase.of_filter rfl, ⟨_, OnlyToken.of_filter rfl, by decide +kernel⟩,
    .inr ⟨_, _, OnlyPhrase.of_filter rfl, ⟨(sub (sub (hPart 5) 0) 4).kids.take 2, [], rfl, fun k hk => ?_⟩,
      Listed.of_filter rfl⟩, by decide +kernel,
    ⟨rfl, by decide +kernel⟩, by decide +kernel, by decide +kernel⟩
  rw [List.append_nil] at hk
  rcases List.mem_cons.1 hk with rfl | hk
  · exact ⟨_, rfl⟩
  · obtain rfl := List.mem_singleton.1 hk
    exact ⟨_, rfl⟩

example : OnlyPhrase .traitDeclarationHeader (hPart 6).kids (sub (hPart 6) 0) ∧
    (∃ t, OnlyToken .name (sub (hPart 6) 0).kids t ∧ PlainName (hEnv.ctx.tokText t)) ∧
    (newTraitSymbol b!"file:///a.php" hEnv (hPart 6)).WF ∧
    traitHover (newTraitSymbol b!"file:///a.php" hEnv (hPart 6)) = b!"```php\n<?php\ntrait T\n```\n\n____\n" :=
  ⟨OnlyPhrase.of_filter rfl, ⟨_, OnlyToken.of_filter rfl, by decide +kernel⟩, by decide +kernel, by decide +kernel⟩

theorem hTags : FirstTag hEnv.ctx b!"@var" (some (hPart 1)) (some (sub (hPart 1) 3)) ∧
    FirstTag hEnv.ctx b!"@deprecated" (some (hPart 1)) (some (sub (hPart 1) 5)) := by
  refine ⟨⟨(hPart 1).kids.take 3, (hPart 1).kids.drop 4, rfl, IsTag.of 0 _ _ rfl rfl (by decide +kernel), ?_⟩,
    ⟨(hPart 1).kids.take 5, (hPart 1).kids.drop 6, rfl, IsTag.of 1 _ _ rfl rfl (by decide +kernel), ?_⟩⟩ <;>
  · intro q hq ht
    have h1 := (isDocTag_iff q).2 ht.1
    have h2 := (getTagName_eq hEnv _ _ (by decide)).2 ht.2
    clear ht
    revert q
    decide +kernel

example : DeclaresMembers .propertyElementList (hPart 3).kids (sub (hPart 3) 0).kids (sub (hPart 3) 2) ∧
    OneVisibility (sub (hPart 3) 0).kids ∧ Listed .propertyElement (sub (hPart 3) 2).kids [hProperty] ∧
    (∃ t, OnlyToken .variableName hProperty.kids t) ∧ DocApplies hEnv hProperty (some (hPart 1)) ∧
    ((newPropertyDeclaration hEnv (hPart 3)).map fun r =>
      (decide (∀ t ∈ r.types, LevelFits t), decide (toProperty b!"file:///a.php" ⟨b!"\\App\\B", b!"B", 0⟩ r).WF,
        propertyHover some (.cls b!"\\App\\B") (toProperty b!"file:///a.php" ⟨b!"\\App\\B", b!"B", 0⟩ r))) =
      [(true, true,
        b!"```php\n<?php\nprivate static $p: \\Lib\\Foo[]\n```\n\n____\n\n`class \\App\\B`\n____\nhow\n____\n")] :=
  ⟨⟨(hPart 3).kids.take 2, (hPart 3).kids.drop 3, rfl, ⟨_, rfl⟩, NoPhrase.of_filter rfl, NoPhrase.of_filter rfl,
      .inr (OnlyPhrase.of_filter rfl)⟩, by decide +kernel, Listed.of_filter rfl, ⟨_, OnlyToken.of_filter rfl⟩, ⟨rfl, by decide +kernel⟩,
    by decide +kernel⟩

example : DeclaresMembers .classConstElementList (hPart 7).kids [] (sub (hPart 7) 2) ∧
    Listed .classConstElement (sub (hPart 7) 2).kids [hConstant] ∧
    (∃ before value name, HasValue hConstant.kids before value ∧ OnlyPhrase .identifier before name) ∧
    DocApplies hEnv hConstant (some (hPart 1)) ∧
    ((newClassConstDeclaration hEnv (hPart 7)).map fun r =>
      (decide (toClassConst b!"file:///a.php" ⟨b!"\\App\\B", b!"B", 0⟩ r).WF,
        classConstHover some (.cls b!"\\App\\B") (toClassConst b!"file:///a.php" ⟨b!"\\App\\B", b!"B", 0⟩ r))) =
      [(true, b!"```php\n<?php\nconst X = 1\n```\n\n____\n\n`class \\App\\B`\n____\nOld.\n____\n")] :=
  ⟨⟨(hPart 7).kids.take 2, (hPart 7).kids.drop 3, rfl, ⟨_, rfl⟩, NoPhrase.of_filter rfl, NoPhrase.of_filter rfl,
      .inl ⟨NoPhrase.of_filter rfl, rfl⟩⟩, Listed.of_filter rfl,
    ⟨_, _, _, HasValue.of 2 _ _ _ _ rfl rfl rfl rfl rfl rfl, OnlyPhrase.of_filter rfl⟩, ⟨rfl, by decide +kernel⟩,
    by decide +kernel⟩

example : (∃ before value, HasValue ((hPart 8).kids.filter fun k => tokType? k ≠ some .name) before value) ∧
    (∃ t, OnlyToken .name (hPart 8).kids t ∧ Ordinary (hEnv.ctx.tokText t)) ∧
    DocApplies hEnv (hPart 8) (some (hPart 1)) ∧ (toConst b!"file:///a.php" (newConst hEnv (hPart 8))).WF ∧
    constHover some (toConst b!"file:///a.php" (newConst hEnv (hPart 8))) =
      b!"```php\n<?php\nconst MAX = 7\n```\n\n____\n\\App\\MAX = 7; Old.\n____\n" :=
  ⟨⟨_, _, HasValue.of 1 _ _ _ _ rfl rfl rfl rfl rfl rfl⟩, ⟨_, OnlyToken.of_filter rfl, by decide +kernel⟩,
    ⟨rfl, by decide +kernel⟩, by decide +kernel, by decide +kernel⟩

example : OnlyPhrase .functionDeclarationHeader (hPart 9).kids (sub (hPart 9) 0) ∧
    DocApplies hEnv (hPart 9) (some (hPart 1)) ∧ (toFunction b!"file:///a.php" hEnv (hPart 9)).WF ∧
    OnlyPhrase .methodDeclarationHeader (hPart 10).kids (sub (hPart 10) 0) ∧
    DocApplies hEnv (hPart 10) (some (hPart 1)) ∧
    (toMethod b!"file:///a.php" ⟨b!"\\App\\B", b!"B", 0⟩ Analyser.zeroRng (newMethod hEnv (hPart 10))).WF ∧
    ((toFunction b!"file:///a.php" hEnv (hPart 9)).deprecated.map (deprecatedDescription b!"f is deprecated")) =
      some b!"f is deprecated: Since 1.2 - gone" :=
  ⟨OnlyPhrase.of_filter rfl, ⟨rfl, by decide +kernel⟩, by decide +kernel, OnlyPhrase.of_filter rfl,
    ⟨rfl, by decide +kernel⟩, by decide +kernel, by decide +kernel⟩

/-- The bases of an interface have to be without a backslash in front: `interface B extends I, \J` reads
`interface B extends I`. -/
theorem C119_needs_relative_bases :
    interfaceHover some (newInterfaceSymbol b!"file:///a.php" { hEnv0 with ctx := srcInterface.ctx } srcInterface.root) =
      b!"```php\n<?php\ninterface B extends I\n```\n\n____\n" := by
  decide +kernel

/-- `function f(int &$a, ...$b)`. -/
def srcByReference : Src :=
  .p .functionDeclaration
    [.p .functionDeclarationHeader [.t tFunction b!"function", ws b!" ", nm b!"f", tk b!"(",
      .p .parameterDeclarationList
        [.p .parameterDeclaration [.p .typeDeclaration [nm b!"int"], ws b!" ", tk b!"&", .t .variableName b!"$a"],
         tk b!",", ws b!" ", .p .parameterDeclaration [tk b!"...", .t .variableName b!"$b"]], tk b!")"]]

/-- What is not shown: `&` and `...` in front of a variable, `abstract`, and a return type that is only declared
(`function count(…): int` with `@return Baz`). -/
theorem C117_needs_plain :
    functionHover some (toFunction b!"file:///a.php" { hEnv0 with ctx := srcByReference.ctx } srcByReference.root) =
      b!"```php\n<?php\nfunction f(int $a, $b)\n```\n\n____\n" ∧
    functionHover some (toFunction b!"file:///a.php" senv0 (part 3)) =
      b!"```php\n<?php\nfunction count(\\Lib\\Foo $a, $b = 1 + 2)\n```\n\n____\n" ∧
    (sub sMethod 0).kids.head? = some (sub (sub sMethod 0) 0) ∧ Writes (sub (sub sMethod 0) 0).kids tAbstract ∧
    methodHover some .no (toMethod b!"file:///a.php" ⟨b!"\\App\\A", b!"A", 0⟩ Analyser.zeroRng (newMethod senv0 sMethod)) =
      b!"```php\n<?php\npublic function m($x)\n```\n\n____\n" := by
  refine ⟨by decide +kernel, by decide +kernel, rfl, by decide +kernel, by decide +kernel⟩

end

end Verif.Show
