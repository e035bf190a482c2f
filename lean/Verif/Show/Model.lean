import Verif.Encoding.Model
import Verif.Decl.Model

/-!
The texts that a user reads about a declaration: hovering (`internal/lsp/symbolConverter.go`), signature help
(`internal/lsp/signature.go` 94-120) and the message about deprecated names (`analysis/diagnostic.go` 331-347). They are
made from records that were read from the index (`Encoding`), which were written from the records of the analysis
(`Decl`); `toFunction` and the like are these records with all fields.
-/

namespace Verif.Show
open Verif.Types (Ty Union unionIsEmpty unionToBytes)
open Verif.Encoding (GoInt TypeString TypeComposite)
open Verif.Analyser (Node)
open Verif.Query (Visibility)

/-! ### from the records of the analysis to those of the index -/

/-- A Go `int`; the other models compute with unbounded integers. -/
def goInt (i : Int) : GoInt := BitVec.ofInt 64 i

/-- A location in the file `uri`: `GetNodeLocation` (`document.go:246-251`). -/
def toLocation (uri : Bytes) (r : Rng) : Encoding.Location :=
  ⟨uri, ⟨⟨goInt r.start.line, goInt r.start.character⟩, ⟨goInt r.stop.line, goInt r.stop.character⟩⟩⟩

/-- A `TypeString` (`symbolType.go:41-45`) in the model of the index. -/
def toType (t : Ty) : TypeString := ⟨t.fqn, t.original, goInt t.arrayLevel⟩

/-- The same `TypeString` in the model of types. -/
def ofType (t : TypeString) : Ty := ⟨t.fqn, t.original, t.arrayLevel.toInt⟩

/-- A `@deprecated` tag. -/
def toTag (t : Decl.Tag) : Encoding.Tag := ⟨t.tagName, t.name, t.description, t.typeText, t.isStatic⟩

/-- A `Parameter` (`parameter.go:12-21`). -/
def toParameter (uri : Bytes) (p : Decl.Param) : Encoding.Parameter :=
  { location := toLocation uri p.range, varLocation := toLocation uri p.varRange, description := p.description,
    hasValue := p.hasValue, name := p.name, type := p.types.map toType, value := p.value }

/-- The `Function` that `newFunction` makes of a node (`function.go:28-62`). -/
def toFunction (uri : Bytes) (env : Decl.Env) (n : Node) : Encoding.Function :=
  let r := Decl.newFunction env n
  { location := toLocation uri (env.ctx.range n), refLocation := toLocation uri r.nameRange
    name := toType ((Analyser.tyOf r.name).setNamespace env.table.getNamespace)
    params := r.params.map (toParameter uri), returnTypes := r.returns.map toType, description := r.description
    deprecated := r.deprecated.map toTag }

/-- `VisibilityModifierValue` (`symbol.go:10-19`). -/
def visValue : Visibility → GoInt
  | .pub => Encoding.visPublic
  | .protected_ => Encoding.visProtected
  | .private_ => Encoding.visPrivate

/-- `ClassModifierValue` (`symbol.go:34-44`). -/
def classModifierValue : Decl.ClassModifier → GoInt
  | .no => 0
  | .abstract_ => 1
  | .final_ => 2

/-- A `Method` (`method.go:14-28`) of the class `scope`, declared in the range `range`: from the record of `newMethod`
(`method.go:129-150`) or of `newMethodFromPhpDocTag` (`36-58`). -/
def toMethod (uri : Bytes) (scope : Ty) (range : Rng) (r : Decl.FunctionRec) : Encoding.Method :=
  { location := toLocation uri range, refLocation := toLocation uri r.nameRange, name := r.name
    params := r.params.map (toParameter uri), returnTypes := r.returns.map toType, description := r.description
    scope := toType scope, visibility := visValue r.mods.vis, isStatic := r.mods.isStatic
    classModifier := classModifierValue r.mods.cls, deprecated := r.deprecated.map toTag }

/-- A `Property` (`property.go:12-22`) of the class `scope`. -/
def toProperty (uri : Bytes) (scope : Ty) (r : Decl.PropertyRec) : Encoding.Property :=
  { location := toLocation uri r.range, refLocation := toLocation uri r.nameRange, description := r.description
    deprecated := r.deprecated.map toTag, name := r.name, scope := toType scope, visibility := visValue r.vis
    isStatic := r.isStatic, types := r.types.map toType }

/-- A `ClassConst` (`classConst.go:12-23`) of the class `scope`. -/
def toClassConst (uri : Bytes) (scope : Ty) (r : Decl.ClassConstRec) : Encoding.ClassConst :=
  { refLocation := toLocation uri r.nameRange, location := toLocation uri r.range, description := r.description
    name := r.name, value := r.value, scope := toType scope, visibility := visValue r.vis
    deprecated := r.deprecated.map toTag }

/-- A `Const` (`const.go:12-18`). -/
def toConst (uri : Bytes) (r : Decl.ConstRec) : Encoding.Const :=
  { location := toLocation uri r.range, description := r.description, deprecated := r.deprecated.map toTag
    name := toType r.name, value := r.value }

/-- A `Class` (`class.go:12-26`) declared in the range `range` with its name at `nameRange`, with this description and
tag (`class.go:63-93`). -/
def toClass (uri : Bytes) (range nameRange : Rng) (description : Bytes) (deprecated : Option Decl.Tag)
    (r : Decl.ClassRec) : Encoding.Class :=
  { location := toLocation uri range, refLocation := toLocation uri nameRange, modifier := classModifierValue r.mod
    description := description, name := toType r.name, extends_ := toType r.ext, interfaces := r.impls.map toType
    use := r.uses.map toType, deprecated := deprecated.map toTag }

/-- The children of the headers of a declaration. -/
def headerKids (header : Analyser.PType) (n : Node) : List Node :=
  (n.kids.filter fun k => Decl.typ? k = some header).flatMap Node.kids

/-- The doc comment that a class or an interface takes its description and its `@deprecated` tag from: they are set when
its name is read (`class.go:100-120`, `interface.go:60-66`). -/
def headerDoc (env : Decl.Env) (header : Analyser.PType) (n : Node) : Option Decl.Doc :=
  if (headerKids header n).any fun k => Decl.tokType? k = some .name then env.validDoc n else none

/-- The place of the name in the header. -/
def headerNameRange (env : Decl.Env) (header : Analyser.PType) (n : Node) : Rng :=
  Decl.lastRange env (fun k => Decl.tokType? k = some .name) (headerKids header n)

/-- The `Class` that `newClass` makes of a node (`class.go:63-137`). -/
def newClassSymbol (uri : Bytes) (env : Decl.Env) (n : Node) : Encoding.Class :=
  let doc := headerDoc env .classDeclarationHeader n
  toClass uri (env.ctx.range n) (headerNameRange env .classDeclarationHeader n)
    ((doc.map Decl.Doc.description).getD []) (doc.bind Decl.Doc.deprecated) (Decl.newClass env n)

/-- The `Interface` that `newInterface` makes of a node (`interface.go:27-74`). -/
def newInterfaceSymbol (uri : Bytes) (env : Decl.Env) (n : Node) : Encoding.Interface :=
  let doc := headerDoc env .interfaceDeclarationHeader n
  { location := toLocation uri (env.ctx.range n)
    refLocation := toLocation uri (headerNameRange env .interfaceDeclarationHeader n)
    description := (doc.map Decl.Doc.description).getD [], deprecated := (doc.bind Decl.Doc.deprecated).map toTag
    name := toType (Decl.newInterface env n).name, extends_ := (Decl.newInterface env n).exts.map toType }

/-- The `Trait` that `newTrait` makes of a node (`trait.go:22-58`). -/
def newTraitSymbol (uri : Bytes) (env : Decl.Env) (n : Node) : Encoding.Trait :=
  { location := toLocation uri (env.ctx.range n)
    name := toType (Decl.lastOf (fun k => (Decl.tokText? env.ctx .name k).map fun s =>
      (Analyser.tyOf s).setNamespace env.table.getNamespace) (headerKids .traitDeclarationHeader n) ⟨[], [], 0⟩) }

/-! ### pieces of text -/

/-- `strings.Join`. -/
def joinS (sep : Bytes) : List Bytes → Bytes
  | [] => []
  | [p] => p
  | p :: q :: ps => p ++ sep ++ joinS sep (q :: ps)

/-- `TypeComposite.IsEmpty` (`symbolType.go:275-287`). -/
def noTypes (u : TypeComposite) : Bool := unionIsEmpty (u.map ofType)

/-- `TypeComposite.ToString` (`symbolType.go:289-301`). -/
def typesText (u : TypeComposite) : Bytes := unionToBytes (u.map ofType)

/-- `wrapPHPCode` (`symbolConverter.go:30-34`). -/
def wrapPHPCode (s : Bytes) : Bytes := b!"```php\n<?php\n" ++ s ++ b!"\n```\n"

/-- `writeHorLine` (`symbolConverter.go:42-44`). -/
def horLine : Bytes := b!"\n____\n"

/-- `concatDescriptionIfAvailable` (`symbolConverter.go:16-28`); `md` converts HTML to Markdown (an external package),
`none` is an error. -/
def descriptionText (md : Bytes → Option Bytes) (description : Bytes) (writeLine : Bool) : Bytes :=
  if description = [] then [] else (if writeLine then horLine else []) ++ (md description).getD description

/-- One parameter in `concatParams` (`symbolConverter.go:58-69`). -/
def paramText (p : Encoding.Parameter) : Bytes :=
  (if noTypes p.type then [] else typesText p.type ++ b!" ") ++ p.name ++
    (if p.hasValue then b!" = " ++ p.value else [])

/-- `concatParams` (`symbolConverter.go:54-72`). -/
def concatParams (ps : List Encoding.Parameter) : Bytes := joinS b!", " (ps.map paramText)

/-- `: ` and the return types, in `functionsToHover` and `methodsToHover`. -/
def returnText (u : TypeComposite) : Bytes := if noTypes u then [] else b!": " ++ typesText u

/-- The symbol that a member belongs to: `m.Scope`, as far as `concatScopeIfAvailable` looks at it. -/
inductive Scope where
  | cls (fqn : Bytes) | intf (fqn : Bytes) | trt (fqn : Bytes) | no
  deriving DecidableEq, Repr

/-- `writeScope` (`symbolConverter.go:46-52`). -/
def writeScope (kind name : Bytes) : Bytes := b!"\n`" ++ kind ++ b!" " ++ name ++ b!"`"

/-- `concatScopeIfAvailable` (`symbolConverter.go:257-279`). -/
def scopeText (s : Scope) (writeLine : Bool) : Bytes :=
  match s with
  | .cls n => (if writeLine then horLine else []) ++ writeScope b!"class" n
  | .intf n => (if writeLine then horLine else []) ++ writeScope b!"interface" n
  | .trt n => (if writeLine then horLine else []) ++ writeScope b!"trait" n
  | .no => []

/-- `concatVisibility` (`symbolConverter.go:281-289`), `VisibilityModifierValue.ToString` (`symbol.go:21-32`). -/
def visibilityText (v : GoInt) : Bytes :=
  if v = Encoding.visPublic then b!"public" else if v = Encoding.visPrivate then b!"private"
  else if v = Encoding.visProtected then b!"protected" else []

/-! ### hovering: the text for one declaration; several follow each other -/

/-- `functionsToHover` (`symbolConverter.go:182-207`). -/
def functionHover (md : Bytes → Option Bytes) (f : Encoding.Function) : Bytes :=
  wrapPHPCode (b!"function " ++ f.name.original ++ b!"(" ++ concatParams f.params ++ b!")" ++ returnText f.returnTypes) ++
    descriptionText md f.description true ++ horLine

/-- `methodsToHover` (`symbolConverter.go:291-325`). -/
def methodHover (md : Bytes → Option Bytes) (s : Scope) (m : Encoding.Method) : Bytes :=
  wrapPHPCode (visibilityText m.visibility ++ (if m.isStatic then b!" static" else []) ++ b!" function " ++ m.name ++
      b!"(" ++ concatParams m.params ++ b!")" ++ returnText m.returnTypes) ++
    scopeText s true ++ descriptionText md m.description true ++ horLine

/-- `propertiesToHover` (`symbolConverter.go:327-355`). -/
def propertyHover (md : Bytes → Option Bytes) (s : Scope) (p : Encoding.Property) : Bytes :=
  wrapPHPCode (visibilityText p.visibility ++ (if p.isStatic then b!" static" else []) ++ b!" " ++ p.name ++
      (if noTypes p.types then [] else b!": " ++ typesText p.types)) ++
    scopeText s true ++ descriptionText md p.description true ++ horLine

/-- `classConstsToHover` (`symbolConverter.go:229-255`). -/
def classConstHover (md : Bytes → Option Bytes) (s : Scope) (c : Encoding.ClassConst) : Bytes :=
  wrapPHPCode (b!"const " ++ c.name ++ (if c.value = [] then [] else b!" = " ++ c.value)) ++
    scopeText s true ++ descriptionText md c.description true ++ horLine

/-- `Const.GetDescription` (`const.go:77-79`), `Define.GetDescription` (`define.go:61-63`). -/
def constDescription (c : Encoding.Const) : Bytes := c.name.fqn ++ b!" = " ++ c.value ++ b!"; " ++ c.description

/-- `formatConsts` (`symbolConverter.go:146-161`). -/
def constHover (md : Bytes → Option Bytes) (c : Encoding.Const) : Bytes :=
  wrapPHPCode (b!"const " ++ c.name.original ++ (if c.value = [] then [] else b!" = " ++ c.value)) ++
    descriptionText md (constDescription c) true ++ horLine

/-- `formatDefines` (`symbolConverter.go:163-180`). -/
def defineHover (md : Bytes → Option Bytes) (c : Encoding.Const) : Bytes :=
  wrapPHPCode (b!"define('" ++ c.name.fqn ++ b!"'" ++ (if c.value = [] then [] else b!", " ++ c.value) ++ b!")") ++
    descriptionText md (constDescription c) true ++ horLine

/-- `TypeString.IsEmpty` (`symbolType.go:88-90`). -/
def typeIsEmpty (t : TypeString) : Bool := (ofType t).isEmpty

/-- `formatClasses` (`symbolConverter.go:74-97`). -/
def classHover (md : Bytes → Option Bytes) (c : Encoding.Class) : Bytes :=
  wrapPHPCode (b!"class " ++ c.name.original ++
      (if typeIsEmpty c.extends_ then [] else b!" extends " ++ (ofType c.extends_).toBytes) ++
      (if c.interfaces = [] then [] else b!" implements " ++ joinS b!", " (c.interfaces.map (·.original)))) ++
    descriptionText md c.description true ++ horLine

/-- `formatInterfaces` (`symbolConverter.go:111-132`). -/
def interfaceHover (md : Bytes → Option Bytes) (i : Encoding.Interface) : Bytes :=
  let extends_ := (i.extends_.filter fun t => !typeIsEmpty t).map (·.original)
  wrapPHPCode (b!"interface " ++ i.name.original ++
      (if extends_ = [] then [] else b!" extends " ++ joinS b!", " extends_)) ++
    descriptionText md i.description true ++ horLine

/-- `traitsToHover` (`symbolConverter.go:209-227`); a trait has no description (`trait.go:68-71`). -/
def traitHover (t : Encoding.Trait) : Bytes := wrapPHPCode (b!"trait " ++ t.name.original) ++ horLine

/-! ### signature help -/

/-- `protocol.SignatureInformation`: its label, its description, and label and description of each parameter. -/
structure Signature where
  label : Bytes
  documentation : Bytes
  parameters : List (Bytes × Bytes)
  deriving DecidableEq, Repr

/-- The label of a parameter (`signature.go:98-106`). -/
def paramLabel (p : Encoding.Parameter) : Bytes :=
  (if noTypes p.type then [] else typesText p.type ++ b!" ") ++ p.name ++
    (if p.value = [] then [] else b!" = " ++ p.value)

/-- `hasParamToSignatureInformation` (`signature.go:94-120`). -/
def signature (nameLabel description : Bytes) (ps : List Encoding.Parameter) : Signature :=
  { label := nameLabel ++ b!"(" ++ joinS b!", " (ps.map paramLabel) ++ b!")", documentation := description
    parameters := ps.map fun p => (paramLabel p, p.description) }

/-- The signature of a function; `GetNameLabel` (`function.go:158-160`). -/
def functionSignature (f : Encoding.Function) : Signature := signature f.name.original f.description f.params

/-- The signature of a method; `GetNameLabel` (`method.go:200-207`). -/
def methodSignature (m : Encoding.Method) : Signature :=
  signature (visibilityText m.visibility ++ (if m.isStatic then b!" static" else []) ++ b!" " ++ m.name) m.description
    m.params

/-! ### deprecated names -/

/-- `deprecatedDescription` (`diagnostic.go:331-347`). -/
def deprecatedDescription (msg : Bytes) (t : Encoding.Tag) : Bytes :=
  let description := (if t.name = [] then [] else b!"Since " ++ t.name ++ (if t.description = [] then [] else b!" - ")) ++
    (if t.description = [] then [] else t.description)
  if description = [] then msg else msg ++ b!": " ++ description

end Verif.Show
