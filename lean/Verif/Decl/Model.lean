import Verif.Analyser.Scan
import Verif.Imports.Model
import Verif.Query.Model
import Verif.Rpc.Stream

/-!
What the analysis records about a declaration: modifiers, types, parameters, values, base classes, imports and the
contents of doc comments. The places and names of the symbols, and the class a member belongs to, are in
`Analyser/Scan.lean`; here is the rest of the records (`analysis/class.go`, `interface.go`, `trait.go`, `method.go`,
`function.go`, `parameter.go`, `property.go`, `classConst.go`, `const.go`, `use.go`, `phpDocComment.go`).
-/

namespace Verif.Decl
open Verif.Analyser (Node PType TokType Tok Ctx tyOf)
open Verif.Types (Ty Union add merge)
open Verif.Imports (Table)
open Verif.Query (Visibility)

/-! Types of phrases and tokens that `Analyser` does not tell apart. -/

/-- `phrase.MemberModifierList`. -/
abbrev memberModifierList : PType := .opaque 101
/-- `phrase.ReturnType`. -/
abbrev returnType : PType := .opaque 102
/-- `phrase.InterfaceBaseClause`. -/
abbrev interfaceBaseClause : PType := .opaque 103
/-- `phrase.DocumentCommentDescription`. -/
abbrev docDescription : PType := .opaque 104
/-- `phrase.ParameterValue`. -/
abbrev parameterValue : PType := .opaque 105
/-- `phrase.NamespaceUseClauseList`. -/
abbrev useClauseList : PType := .opaque 106
/-- `phrase.NamespaceUseGroupClauseList`. -/
abbrev useGroupClauseList : PType := .opaque 107
/-- `phrase.NamespaceUseClause`. -/
abbrev useClause : PType := .opaque 108
/-- `phrase.NamespaceUseGroupClause`. -/
abbrev useGroupClause : PType := .opaque 109
/-- `phrase.NamespaceAliasingClause`. -/
abbrev aliasingClause : PType := .opaque 110

/-- `lexer.Public`. -/
abbrev tPublic : TokType := .other 101
/-- `lexer.Protected`. -/
abbrev tProtected : TokType := .other 102
/-- `lexer.Private`. -/
abbrev tPrivate : TokType := .other 103
/-- `lexer.Static`. -/
abbrev tStatic : TokType := .other 104
/-- `lexer.Abstract`. -/
abbrev tAbstract : TokType := .other 105
/-- `lexer.Final`. -/
abbrev tFinal : TokType := .other 106
/-- `lexer.Function`. -/
abbrev tFunction : TokType := .other 107
/-- `lexer.Const`. -/
abbrev tConst : TokType := .other 108
/-- `lexer.DocumentCommentVersion`. -/
abbrev tVersion : TokType := .other 109

/-- `methodTagParam` (`phpDocComment.go:14-18`). -/
structure TagParam where
  typeText : Bytes
  name : Bytes
  value : Bytes
  deriving DecidableEq, Repr

/-- `tag` (`phpDocComment.go:20-29`). -/
structure Tag where
  tagName : Bytes
  name : Bytes
  description : Bytes
  typeText : Bytes
  params : List TagParam
  isStatic : Bool
  nameRange : Rng
  deriving DecidableEq, Repr

/-- `phpDocComment` (`phpDocComment.go:298-311`). The lists by tag name are made from `tags` (`prefillTags`, 381-390). -/
structure Doc where
  range : Rng
  description : Bytes
  tags : List Tag
  deriving DecidableEq, Repr

/-- What is read besides the tree: the text, `currImportTable()`, `getLastClass()`, `lastPhpDoc`, and the effect of
deleting what `stripPattern` matches (`phpDocComment.go:31`, regular expressions are not modelled). Within one
declaration they do not change: nested functions and classes, which could change them, are not looked at here. That a
resolved name is marked as used in the import table (C53) is left out. -/
structure Env where
  ctx : Ctx
  table : Table
  cls : Option Analyser.Cls
  doc : Option Doc
  strip : Bytes → Bytes

/-- The last value that a loop over the children assigns to a variable that has the value `d` before. -/
def lastOf {α : Type} (f : Node → Option α) (ks : List Node) (d : α) : α := ((ks.filterMap f).getLast?).getD d

/-- The type of a phrase. -/
def typ? : Node → Option PType
  | .phr ty _ => some ty
  | _ => none

/-- The type of a token. -/
def tokType? : Node → Option TokType
  | .tok t => some t.type
  | _ => none

/-- The text of a token of that type. -/
def tokText? (c : Ctx) (ty : TokType) : Node → Option Bytes
  | .tok t => if t.type = ty then some (c.tokText t) else none
  | _ => none

/-! ### modifiers -/

/-- `ClassModifierValue` (`symbol.go:34-44`). -/
inductive ClassModifier where
  | no | abstract_ | final_
  deriving DecidableEq, Repr

/-- What `getMemberModifier` returns. -/
structure Modifiers where
  vis : Visibility
  isStatic : Bool
  cls : ClassModifier
  deriving DecidableEq, Repr

/-- The loop of `getMemberModifier` (`class.go:42-57`). -/
def modifierStep (m : Modifiers) (k : Node) : Modifiers :=
  if tokType? k = some tAbstract then { m with cls := .abstract_ }
  else if tokType? k = some tFinal then { m with cls := .final_ }
  else if tokType? k = some tStatic then { m with isStatic := true }
  else if tokType? k = some tPublic then { m with vis := .pub }
  else if tokType? k = some tProtected then { m with vis := .protected_ }
  else if tokType? k = some tPrivate then { m with vis := .private_ }
  else m

/-- `Public, false, NoClassModifier`, which are also the zero values of the fields of a `Method`. -/
def noModifiers : Modifiers := ⟨.pub, false, .no⟩

/-- `getMemberModifier` (`class.go:35-61`). -/
def getMemberModifier (p : Node) : Modifiers := p.kids.foldl modifierStep noModifiers

/-! ### types -/

/-- A name with `SetFQN(currImportTable().GetClassReferenceFQN(…))`. -/
def resolve (env : Env) (t : Ty) : Ty := { t with fqn := (env.table.getClassReferenceFQN t).1 }

/-- `newTypeDeclaration` (`typeDeclaration.go:14-27`) of a `TypeDeclaration` and `transformQualifiedName`
(`symbol.go:98-100`): its one type. -/
def declaredType (env : Env) (p : Node) : Ty := resolve env (tyOf (env.ctx.nodeText p))

/-- One part in the loop of `typesFromPhpDoc` (`symbolType.go:196-216`). -/
def docPart (env : Env) (u : Union) (part : Bytes) : Union :=
  let part := Rpc.trimSpace part
  if part = [] then u
  else if part = b!"self" then
    match env.cls with
    | some c => add u c.name
    | none => u
  else add u (resolve env (tyOf part))

/-- `typesFromPhpDoc` (`symbolType.go:193-218`). -/
def typesFromPhpDoc (env : Env) (text : Bytes) : Union := (splitB 124 text).foldl (docPart env) []

/-! ### doc comments -/

/-- `readDescriptionNode` (`phpDocComment.go:313-316`). -/
def readDescription (env : Env) (p : Node) : Bytes := Rpc.trimSpace (env.strip (env.ctx.nodeText p))

/-- The cases `DocumentCommentDescription` of the loops below. -/
def description? (env : Env) (k : Node) : Option Bytes :=
  if typ? k = some docDescription then some (readDescription env k) else none

/-- `processTypeNode` (`phpDocComment.go:33-46`): the text; the symbol that it adds is in `Analyser/Scan.lean`. -/
def processTypeNode (env : Env) (p : Node) : Bytes := env.ctx.nodeText p

/-- `processTypeUnionNode` (`phpDocComment.go:48-59`). -/
def processTypeUnionNode (env : Env) (p : Node) : List Bytes :=
  (p.kids.filter fun k => typ? k = some .typeDeclaration).map (processTypeNode env)

/-- The cases `TypeDeclaration` and `TypeUnion` of the loops below: what is appended to `ts`. -/
def typeTexts (env : Env) (k : Node) : List Bytes :=
  if typ? k = some .typeDeclaration then (if processTypeNode env k = [] then [] else [processTypeNode env k])
  else if typ? k = some .typeUnion then processTypeUnionNode env k
  else []

/-- `strings.Join(ts, "|")` after such a loop. -/
def joinedTypes (env : Env) (ks : List Node) : Bytes := joinB 124 (ks.flatMap (typeTexts env))

/-- The range of the last variable or of the last node that `f` accepts, the zero range if there is none. -/
def lastRange (env : Env) (f : Node → Bool) (ks : List Node) : Rng :=
  lastOf (fun k => if f k then some (env.ctx.range k) else none) ks Analyser.zeroRng

/-- `paramOrPropTypeTag` (`phpDocComment.go:61-93`). -/
def paramOrPropTypeTag (env : Env) (tagName : Bytes) (ks : List Node) : Tag :=
  { tagName := tagName
    name := lastOf (tokText? env.ctx .variableName) ks []
    description := lastOf (description? env) ks []
    typeText := joinedTypes env ks
    params := []
    isStatic := false
    nameRange := lastRange env (fun k => tokType? k = some .variableName) ks }

/-- `varTag` (`phpDocComment.go:95-123`). -/
def varTag (env : Env) (tagName : Bytes) (ks : List Node) : Tag :=
  { paramOrPropTypeTag env tagName ks with nameRange := Analyser.zeroRng }

/-- `returnTag` (`phpDocComment.go:125-151`). -/
def returnTag (env : Env) (tagName : Bytes) (ks : List Node) : Tag :=
  { tagName := tagName, name := [], description := lastOf (description? env) ks [], typeText := joinedTypes env ks,
    params := [], isStatic := false, nameRange := Analyser.zeroRng }

/-- `methodParam` (`phpDocComment.go:220-248`). -/
def methodParam (env : Env) (p : Node) : TagParam :=
  { typeText := joinedTypes env p.kids
    name := lastOf (tokText? env.ctx .variableName) p.kids []
    value := lastOf (fun k => if typ? k = some parameterValue then some (env.ctx.nodeText k) else none) p.kids [] }

/-- `processParamList` (`phpDocComment.go:153-167`). -/
def processParamList (env : Env) (p : Node) : List TagParam :=
  (p.kids.filter fun k => typ? k = some .parameterDeclaration).map (methodParam env)

/-- `methodTag` (`phpDocComment.go:169-218`). -/
def methodTag (env : Env) (tagName : Bytes) (ks : List Node) : Tag :=
  { tagName := tagName
    name := lastOf (fun k => if typ? k = some .identifier then some (env.ctx.nodeText k) else none) ks []
    description := lastOf (description? env) ks []
    typeText := if joinedTypes env ks = [] then b!"void" else joinedTypes env ks
    params := lastOf (fun k => if typ? k = some .parameterDeclarationList then some (processParamList env k) else none)
      ks []
    isStatic := ks.any fun k => tokType? k = some tStatic
    nameRange := lastRange env (fun k => typ? k = some .identifier) ks }

/-- `globalTag` (`phpDocComment.go:250-274`). -/
def globalTag (env : Env) (tagName : Bytes) (ks : List Node) : Tag :=
  { tagName := tagName, name := lastOf (tokText? env.ctx .variableName) ks [], description := [],
    typeText := joinedTypes env ks, params := [], isStatic := false, nameRange := Analyser.zeroRng }

/-- `deprecatedTag` (`phpDocComment.go:276-296`). -/
def deprecatedTag (env : Env) (tagName : Bytes) (ks : List Node) : Tag :=
  { tagName := tagName, name := lastOf (tokText? env.ctx tVersion) ks [], description := lastOf (description? env) ks [],
    typeText := [], params := [], isStatic := false, nameRange := Analyser.zeroRng }

/-- `getTagName` (`phpDocComment.go:318-327`). -/
def getTagName (env : Env) (ks : List Node) : Bytes := ((ks.filterMap (tokText? env.ctx .docTagName)).head?).getD []

/-- `parseTag` (`phpDocComment.go:329-351`); `none` is an error. -/
def parseTag (env : Env) (p : Node) : Option Tag :=
  let tagName := getTagName env p.kids
  if tagName = b!"@param" ∨ tagName = b!"@property" ∨ tagName = b!"@property-read" ∨ tagName = b!"@property-write" then
    let t := paramOrPropTypeTag env tagName p.kids
    if tagName ≠ b!"@param" ∧ t.name = [] then none else some t
  else if tagName = b!"@var" then some (varTag env tagName p.kids)
  else if tagName = b!"@return" then some (returnTag env tagName p.kids)
  else if tagName = b!"@method" then some (methodTag env tagName p.kids)
  else if tagName = b!"@global" then some (globalTag env tagName p.kids)
  else if tagName = b!"@deprecated" then some (deprecatedTag env tagName p.kids)
  else none

/-- The type is between `DocumentCommentTagAnchorStart` and `…End`. -/
def isDocTag (k : Node) : Bool :=
  match typ? k with
  | some (.docTag _) => true
  | _ => false

/-- `newPhpDocFromNode` (`phpDocComment.go:419-442`). -/
def newPhpDoc (env : Env) (n : Node) : Doc :=
  { range := env.ctx.range n
    description := lastOf (description? env) n.kids []
    tags := (n.kids.filter isDocTag).filterMap (parseTag env) }

/-- `findTagsByTagName` (`phpDocComment.go:353-363`). -/
def Doc.byName (d : Doc) (tagName : Bytes) : List Tag := d.tags.filter fun t => t.tagName = tagName

/-- `findParamTag` (`phpDocComment.go:365-372`). -/
def Doc.findParamTag (d : Doc) (name : Bytes) : Option Tag :=
  d.tags.find? fun t => t.tagName = b!"@param" ∧ t.name = name

/-- `deprecated` (`phpDocComment.go:374-379`). -/
def Doc.deprecated (d : Doc) : Option Tag := (d.byName b!"@deprecated").head?

/-- `getValidPhpDoc` (`document.go:626-636`). -/
def Env.validDoc (env : Env) (n : Node) : Option Doc :=
  match env.doc with
  | none => none
  | some d =>
    let start := (env.ctx.range n).start
    if d.range.stop.line < start.line ∧ d.range.stop.line = start.line - 1 then some d else none

/-! ### properties, constants -/

/-- `Property` (`property.go:12-22`) without its scope. -/
structure PropertyRec where
  range : Rng
  nameRange : Rng
  name : Bytes
  vis : Visibility
  isStatic : Bool
  types : Union
  description : Bytes
  deprecated : Option Tag
  deriving DecidableEq, Repr

/-- `Property.applyPhpDoc` (`property.go:124-132`). -/
def PropertyRec.applyDoc (env : Env) (s : PropertyRec) (d : Doc) : PropertyRec :=
  let s := { s with deprecated := d.deprecated }
  match d.byName b!"@var" with
  | t :: _ => { s with types := merge s.types (typesFromPhpDoc env t.typeText), description := t.description }
  | [] => s

/-- `newProperty` (`property.go:77-107`). -/
def newProperty (env : Env) (m : Modifiers) (n : Node) : PropertyRec :=
  let s : PropertyRec :=
    { range := env.ctx.range n
      nameRange := lastRange env (fun k => tokType? k = some .variableName) n.kids
      name := lastOf (tokText? env.ctx .variableName) n.kids []
      vis := m.vis, isStatic := m.isStatic, types := [], description := [], deprecated := none }
  match env.validDoc n with
  | some d => s.applyDoc env d
  | none => s

/-- `newPropertyList` (`property.go:66-75`). -/
def newPropertyList (env : Env) (m : Modifiers) (p : Node) : List PropertyRec :=
  (p.kids.filter fun k => typ? k = some .propertyElement).map (newProperty env m)

/-- A loop of `newPropertyDeclaration` (`property.go:51-62`) or `newClassConstDeclaration` (`classConst.go:33-45`): the
modifiers so far, and the records so far. -/
def memberStep {α : Type} (list : PType) (f : Modifiers → Node → List α) (s : Modifiers × List α) (k : Node) :
    Modifiers × List α :=
  if typ? k = some memberModifierList then (getMemberModifier k, s.2)
  else if typ? k = some list then (s.1, s.2 ++ f s.1 k)
  else s

/-- `newPropertyDeclaration` (`property.go:46-64`): the properties it adds. -/
def newPropertyDeclaration (env : Env) (n : Node) : List PropertyRec :=
  (n.kids.foldl (memberStep .propertyElementList (newPropertyList env)) (noModifiers, [])).2

/-- The text of a value: what the loops append once `=` has been seen. Whitespace right after `=` is skipped
(`SkipToken`, `util/traverser.go:69-76`); `skip` says that it is being skipped. -/
def valueLoop (c : Ctx) : List Node → (eq skip : Bool) → Bytes → Bytes
  | [], _, _, v => v
  | .tok t :: ks, eq, skip, v =>
    if t.type = .equals then valueLoop c ks true true v
    else if skip ∧ t.type = .whitespace then valueLoop c ks eq true v
    else valueLoop c ks eq false (if eq then v ++ c.tokText t else v)
  | .phr ty qs :: ks, eq, _, v => valueLoop c ks eq false (if eq then v ++ c.nodeText (.phr ty qs) else v)
  | .err _ :: ks, eq, _, v => valueLoop c ks eq false v

/-- `ClassConst` (`classConst.go:12-23`) without its scope. -/
structure ClassConstRec where
  range : Rng
  nameRange : Rng
  name : Bytes
  value : Bytes
  vis : Visibility
  description : Bytes
  deprecated : Option Tag
  deriving DecidableEq, Repr

/-- The children before the first `=`. -/
def beforeEquals (ks : List Node) : List Node := ks.takeWhile fun k => tokType? k != some .equals

/-- `newClassConst` (`classConst.go:58-110`). -/
def newClassConst (env : Env) (m : Modifiers) (n : Node) : ClassConstRec :=
  let names := (beforeEquals n.kids).filter fun k => typ? k = some .identifier
  let doc := if names.isEmpty then none else env.validDoc n
  { range := env.ctx.range n
    nameRange := lastRange env (fun k => typ? k = some .identifier) (beforeEquals n.kids)
    name := lastOf (fun k => if typ? k = some .identifier then some (env.ctx.nodeText k) else none)
      (beforeEquals n.kids) []
    value := valueLoop env.ctx n.kids false false []
    vis := m.vis
    description := match doc with | some d => d.description | none => []
    deprecated := match doc with | some d => d.deprecated | none => none }

/-- `newClassConstList` (`classConst.go:48-56`). -/
def newClassConstList (env : Env) (m : Modifiers) (p : Node) : List ClassConstRec :=
  (p.kids.filter fun k => typ? k = some .classConstElement).map (newClassConst env m)

/-- `newClassConstDeclaration` (`classConst.go:30-46`): the constants it adds. -/
def newClassConstDeclaration (env : Env) (n : Node) : List ClassConstRec :=
  (n.kids.foldl (memberStep .classConstElementList (newClassConstList env)) (noModifiers, [])).2

/-- `Const` (`const.go:12-18`). -/
structure ConstRec where
  range : Rng
  name : Ty
  value : Bytes
  description : Bytes
  deprecated : Option Tag
  deriving DecidableEq, Repr

/-- `newConst` (`const.go:32-67`). A `Name` after `=` would be taken for the name and not for the value; the parser wraps
names in phrases there. -/
def newConst (env : Env) (n : Node) : ConstRec :=
  let isName : Node → Bool := fun k => tokType? k = some .name
  let doc := if n.kids.any isName then env.validDoc n else none
  { range := env.ctx.range n
    name := (lastOf (fun k => (tokText? env.ctx .name k).map tyOf) n.kids ⟨[], [], 0⟩).setNamespace env.table.getNamespace
    value := valueLoop env.ctx (n.kids.filter fun k => !isName k) false false []
    description := match doc with | some d => d.description | none => []
    deprecated := match doc with | some d => d.deprecated | none => none }

/-- `Const.GetDescription` (`const.go:77-79`), which is what hovering shows. -/
def ConstRec.shown (s : ConstRec) : Bytes := s.name.fqn ++ b!" = " ++ s.value ++ b!"; " ++ s.description

/-! ### parameters, functions, methods -/

/-- `Parameter` (`parameter.go:12-21`). -/
structure Param where
  range : Rng
  varRange : Rng
  description : Bytes
  hasValue : Bool
  name : Bytes
  types : Union
  value : Bytes
  deriving DecidableEq, Repr

/-- The loop of `newParameter` (`parameter.go:31-72`); `skip` as in `valueLoop`. -/
def paramLoop (env : Env) : List Node → (eq skip : Bool) → Param → Param
  | [], _, _, p => p
  | .phr ty qs :: ks, eq, _, p =>
    paramLoop env ks eq false
      (if ty = .typeDeclaration then { p with types := add p.types (declaredType env (.phr ty qs)) }
       else if eq then { p with hasValue := true, value := p.value ++ env.ctx.nodeText (.phr ty qs) }
       else p)
  | .tok t :: ks, eq, skip, p =>
    if t.type = .equals then paramLoop env ks true true p
    else if skip ∧ t.type = .whitespace then paramLoop env ks eq true p
    else paramLoop env ks eq false
      (if t.type = .variableName then { p with name := env.ctx.tokText t, varRange := env.ctx.range (.tok t) }
       else if eq then { p with hasValue := true, value := p.value ++ env.ctx.tokText t }
       else p)
  | .err _ :: ks, eq, _, p => paramLoop env ks eq false p

/-- `newParameter` (`parameter.go:23-74`). -/
def newParameter (env : Env) (n : Node) : Param :=
  paramLoop env n.kids false false
    { range := env.ctx.range n, varRange := env.ctx.range n, description := [], hasValue := false, name := [],
      types := [], value := [] }

/-- `analyseParameterDeclarationList` (`function.go:86-96`, `method.go:113-123`). -/
def newParameters (env : Env) (p : Node) : List Param :=
  (p.kids.filter fun k => typ? k = some .parameterDeclaration).map (newParameter env)

/-- What `Function` (`function.go:12-21`) and `Method` (`method.go:16-28`) have in common. -/
structure FunctionRec where
  name : Bytes
  nameRange : Rng
  params : List Param
  returns : Union
  description : Bytes
  deprecated : Option Tag
  mods : Modifiers
  deriving DecidableEq, Repr

/-- One child of the header in `Function.analyseHeader` (`function.go:64-84`): the name as it is written. -/
def functionHeaderStep (env : Env) (s : FunctionRec) (k : Node) : FunctionRec :=
  if tokType? k = some .name then { s with name := env.ctx.nodeText k, nameRange := env.ctx.range k }
  else if typ? k = some .parameterDeclarationList then { s with params := s.params ++ newParameters env k }
  else if typ? k = some .identifier then { s with name := env.ctx.nodeText k }
  else s

/-- One child of the header in `Method.analyseHeader` (`method.go:88-111`). -/
def methodHeaderStep (env : Env) (s : FunctionRec) (k : Node) : FunctionRec :=
  if typ? k = some memberModifierList then { s with mods := getMemberModifier k }
  else if typ? k = some .parameterDeclarationList then { s with params := s.params ++ newParameters env k }
  else if typ? k = some .identifier then { s with name := env.ctx.nodeText k, nameRange := env.ctx.range k }
  else if tokType? k = some .name then { s with name := env.ctx.nodeText k }
  else s

/-- The loop over the parameters in `applyPhpDoc`. -/
def Param.applyDoc (env : Env) (d : Doc) (p : Param) : Param :=
  match d.findParamTag p.name with
  | some t => { p with types := merge p.types (typesFromPhpDoc env t.typeText), description := t.description }
  | none => p

/-- `applyPhpDoc` (`function.go:98-112`, `method.go:156-170`). -/
def FunctionRec.applyDoc (env : Env) (s : FunctionRec) (d : Doc) : FunctionRec :=
  { s with
    returns := (d.byName b!"@return").foldl (fun u t => merge u (typesFromPhpDoc env t.typeText)) s.returns
    params := s.params.map (Param.applyDoc env d)
    description := d.description
    deprecated := d.deprecated }

/-- A record with nothing in it. -/
def emptyFunction : FunctionRec :=
  { name := [], nameRange := Analyser.zeroRng, params := [], returns := [], description := [], deprecated := none,
    mods := noModifiers }

/-- One child of the declaration: `newFunction` (`function.go:39-57`), `analyseMethodNode` (`method.go:66-83`). -/
def declarationStep (env : Env) (header : PType) (step : FunctionRec → Node → FunctionRec) (doc : Option Doc)
    (s : FunctionRec) (k : Node) : FunctionRec :=
  if typ? k = some header then
    let s := k.kids.foldl step s
    match doc with
    | some d => s.applyDoc env d
    | none => s
  else s

/-- `newFunction` (`function.go:28-62`). The name is put into the namespace afterwards (C68). -/
def newFunction (env : Env) (n : Node) : FunctionRec :=
  n.kids.foldl (declarationStep env .functionDeclarationHeader (functionHeaderStep env) (env.validDoc n)) emptyFunction

/-- `newMethod` (`method.go:125-149`) with `analyseMethodNode` (`55-86`). -/
def newMethod (env : Env) (n : Node) : FunctionRec :=
  n.kids.foldl (declarationStep env .methodDeclarationHeader (methodHeaderStep env) (env.validDoc n)) emptyFunction

/-! ### members from doc comments -/

/-- `newPropertyFromPhpDocTag` (`property.go:29-44`); `none` is nil. -/
def propertyFromTag (env : Env) (t : Tag) (r : Rng) : Option PropertyRec :=
  if t.name = [] then none
  else some { range := r, nameRange := t.nameRange, name := t.name, vis := .pub, isStatic := false,
              types := typesFromPhpDoc env t.typeText, description := t.description, deprecated := none }

/-- `newMethodFromPhpDocTag` (`method.go:36-58`). -/
def methodFromTag (env : Env) (t : Tag) (r : Rng) : FunctionRec :=
  { name := t.name, nameRange := t.nameRange
    params := t.params.map fun p =>
      { range := r, varRange := r, description := [], hasValue := false, name := p.name,
        types := typesFromPhpDoc env p.typeText, value := p.value }
    returns := typesFromPhpDoc env t.typeText
    description := t.description, deprecated := none
    mods := { noModifiers with isStatic := t.isStatic } }

/-! ### classes, interfaces -/

/-- `Class` (`class.go:12-26`) without its children; `uses` is filled by the traits used in the body. -/
structure ClassRec where
  name : Ty
  mod : ClassModifier
  ext : Ty
  impls : List Ty
  uses : List Ty
  deriving DecidableEq, Repr

/-- A name in the text, resolved: `transformQualifiedName` and `SetFQN(GetClassReferenceFQN(…))`. -/
def resolvedName (env : Env) (p : Node) : Ty := resolve env (tyOf (env.ctx.nodeText p))

/-- `Class.extends` (`class.go:140-164`): the last name wins. -/
def extendsOf (env : Env) (p : Node) (before : Ty) : Ty :=
  lastOf (fun k => if k.isName then some (resolvedName env k) else none) p.kids before

/-- `Class.implements` (`class.go:166-190`): the names of the first list. -/
def implementsOf (env : Env) (p : Node) : List Ty :=
  match p.kids.find? fun k => typ? k = some .qualifiedNameList with
  | some l => (l.kids.filter Node.isName).map (resolvedName env)
  | none => []

/-- One child in `Class.analyseHeader` (`class.go:95-137`); the members from doc comments are above. -/
def classHeaderStep (env : Env) (s : ClassRec) (k : Node) : ClassRec :=
  if tokType? k = some .name then
    { s with name := (tyOf (env.ctx.nodeText k)).setNamespace env.table.getNamespace }
  else if tokType? k = some tAbstract then { s with mod := .abstract_ }
  else if tokType? k = some tFinal then { s with mod := .final_ }
  else if typ? k = some .classBaseClause then { s with ext := extendsOf env k s.ext }
  else if typ? k = some .classInterfaceClause then { s with impls := s.impls ++ implementsOf env k }
  else s

/-- `traitAnalyseQualifiedNameList` (`traitAccess.go:31-49`) for the lists of a `TraitUseClause`
(`processTraitUseClause`, 15-29): what is added to the uses of the class. -/
def usesOf (env : Env) (p : Node) : List Ty :=
  (p.kids.filter fun k => typ? k = some .qualifiedNameList).flatMap fun l =>
    (l.kids.filter Node.isName).map (resolvedName env)

mutual

/-- The nodes below a node at which `scanNode` does something, when it gets there through nodes that are only scanned for
their children (`symbolBlock.go:20-78, 143-149`). -/
def reached : Node → List Node
  | .phr ty ks => if Analyser.isTransparent ty then reachedKids ks else [.phr ty ks]
  | .tok t => [.tok t]
  | .err t => [.err t]

/-- `reached` for each of the children. -/
def reachedKids : List Node → List Node
  | [] => []
  | k :: ks => reached k ++ reachedKids ks

end

/-- One child in `newClass` (`class.go:73-83`); of the body only the trait clauses. A trait clause is recorded for
`getLastClass()`, which is this class as long as no anonymous class comes before it in the body (C69). -/
def classStep (env : Env) (s : ClassRec) (k : Node) : ClassRec :=
  if typ? k = some .classDeclarationHeader then k.kids.foldl (classHeaderStep env) s
  else if typ? k = some .classDeclarationBody then
    { s with uses := s.uses ++ ((reachedKids k.kids).filter fun q => typ? q = some .traitUseClause).flatMap (usesOf env) }
  else s

/-- `newClass` (`class.go:63-88`). -/
def newClass (env : Env) (n : Node) : ClassRec :=
  n.kids.foldl (classStep env) ⟨⟨[], [], 0⟩, .no, ⟨[], [], 0⟩, [], []⟩

/-- `Interface` (`interface.go:12-20`) without its children. -/
structure InterfaceRec where
  name : Ty
  exts : List Ty
  deriving DecidableEq, Repr

/-- `Interface.extends` (`interface.go:77-97`): for every phrase in the clause the children that are a `QualifiedName`,
as they are written. -/
def interfaceExtends (env : Env) (p : Node) : List Ty :=
  (p.kids.filter fun k => (typ? k).isSome).flatMap fun l =>
    (l.kids.filter fun k => typ? k = some .qualifiedName).map fun k => tyOf (env.ctx.nodeText k)

/-- One child in `Interface.analyseHeader` (`interface.go:53-75`). -/
def interfaceHeaderStep (env : Env) (s : InterfaceRec) (k : Node) : InterfaceRec :=
  if tokType? k = some .name then { s with name := tyOf (env.ctx.nodeText k) }
  else if typ? k = some interfaceBaseClause then { s with exts := s.exts ++ interfaceExtends env k }
  else s

/-- `newInterface` (`interface.go:27-52`): the name is put into the namespace after the body. -/
def newInterface (env : Env) (n : Node) : InterfaceRec :=
  let s := n.kids.foldl (fun s k =>
    if typ? k = some .interfaceDeclarationHeader then k.kids.foldl (interfaceHeaderStep env) s else s)
    (⟨⟨[], [], 0⟩, []⟩ : InterfaceRec)
  { s with name := s.name.setNamespace env.table.getNamespace }

/-- What the queries (`Query/Model.lean`) read of a stored class. -/
def ClassRec.toQuery (s : ClassRec) (decl : Nat) : Query.Cls :=
  ⟨s.name.fqn, s.ext.fqn, s.impls.map Ty.fqn, s.uses.map Ty.fqn, decl⟩

/-- What the queries read of a stored interface. -/
def InterfaceRec.toQuery (s : InterfaceRec) (decl : Nat) : Query.Intf := ⟨s.name.fqn, s.exts.map Ty.fqn, decl⟩

/-! ### imports -/

/-- `UseType` (`use.go:10-16`). -/
inductive UseType where
  | class_ | function | const_
  deriving DecidableEq, Repr

/-- `addUseToImportTable` (`use.go:136-145`). -/
def addUse (t : Table) (ut : UseType) (al name : Bytes) (r : Rng) : Table :=
  match ut with
  | .class_ => t.addClassName al name r
  | .function => t.addFunctionName al name r
  | .const_ => t.addConstName al name r

/-- `getAliasFromNode` (`use.go:124-134`): the first name. -/
def getAlias (c : Ctx) (p : Node) : Bytes := ((p.kids.filterMap (tokText? c .name)).head?).getD []

/-- `name` after the inner loops of the two functions below. -/
def clauseName (c : Ctx) (ks : List Node) : Bytes :=
  lastOf (fun k => if typ? k = some .namespaceName then some (c.nodeText k) else none) ks []

/-- `alias` after the inner loops of the two functions below. -/
def clauseAlias (c : Ctx) (ks : List Node) : Bytes :=
  lastOf (fun k => if typ? k = some aliasingClause then some (getAlias c k) else none) ks []

/-- `processNamespaceUseClauseList` (`use.go:45-80`). -/
def useClauses (c : Ctx) (ut : UseType) (p : Node) (t : Table) : Table :=
  (p.kids.filter fun k => typ? k = some useClause).foldl
    (fun t k => addUse t ut (clauseAlias c k.kids) (clauseName c k.kids) (c.range k)) t

/-- `NodeRange(p)` at `use.go:111`: the inner loop has assigned its last child to `p`, or nil if that is not a phrase,
and `NodeRange` of nil panics (`none`). Without children `p` is still the clause. -/
def groupRange (c : Ctx) (k : Node) : Option Rng :=
  match k.kids.getLast? with
  | none => some (c.range k)
  | some l => if (typ? l).isSome then some (c.range l) else none

/-- `processNamespaceUseGroupClauseList` (`use.go:82-122`). -/
def useGroup (c : Ctx) (pre : Bytes) (ut : UseType) (p : Node) (t : Table) : Option Table :=
  (p.kids.filter fun k => typ? k = some useGroupClause).foldlM
    (fun t k => (groupRange c k).map fun r => addUse t ut (clauseAlias c k.kids) (pre ++ 92 :: clauseName c k.kids) r) t

/-- The loop of `processNamespaceUseDeclaration` (`use.go:23-42`): kind, prefix and table so far; `none` is a panic. -/
def useStep (c : Ctx) (s : UseType × Bytes × Table) (k : Node) : Option (UseType × Bytes × Table) :=
  if typ? k = some useClauseList then some (s.1, s.2.1, useClauses c s.1 k s.2.2)
  else if typ? k = some useGroupClauseList then (useGroup c s.2.1 s.1 k s.2.2).map fun t => (s.1, s.2.1, t)
  else if typ? k = some .namespaceName then some (s.1, c.nodeText k, s.2.2)
  else if tokType? k = some tFunction then some (.function, s.2)
  else if tokType? k = some tConst then some (.const_, s.2)
  else some s

/-- `processNamespaceUseDeclaration` (`use.go:18-43`). -/
def useDeclaration (c : Ctx) (n : Node) (t : Table) : Option Table :=
  (n.kids.foldlM (useStep c) (.class_, [], t)).map fun s => s.2.2

end Verif.Decl
