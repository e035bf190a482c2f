import Verif.Show.Model
import Verif.Decl.Spec
import Verif.Encoding.Spec

/-!
Specification: how a declaration reads. The texts are described from what is written in the document (`Decl/Spec.lean`),
without the functions of the model.
-/

namespace Verif.Show
open Verif.Analyser (Node Tok Ctx PType)
open Verif.Decl (Env ParamWritten TypeRefers TypeWritten ParamTag NoParamTag IsTag DocApplies OnlyPhrase NoPhrase
  OnlyToken textOf docDescription VisibilityOf Writes)
open Verif.Query (Visibility)

/-- `[]` that many times. -/
def brackets (k : Nat) : Bytes := (List.replicate k b!"[]").flatten

/-- A type that is written as `text` is an array of depth `l`: so many `[]` follow its name. -/
def Depth (text : Bytes) (l : Nat) : Prop :=
  ∀ base k, text = base ++ brackets k → base ≠ [] → base ≠ b!"]" → ¬ b!"[]" <:+ base → l = k

/-- One of the types that a text such as `A|B[]|null` names is `n`, as an array of depth `l` (`self` is the class
around). -/
def Named (env : Env) (text n : Bytes) (l : Nat) : Prop :=
  ∃ part ∈ splitB 124 text, Rpc.trimSpace part ≠ [] ∧ TypeRefers env (Rpc.trimSpace part) n ∧
    (Rpc.trimSpace part ≠ b!"self" → Depth (Rpc.trimSpace part) l)

/-- One of the types that a tag of a doc comment names. -/
def TagNamed (env : Env) (tag : Node) (n : Bytes) (l : Nat) : Prop :=
  ∃ text, TypeWritten env.ctx tag text ∧ Named env text n l

/-- The type that is declared in the code. -/
def DeclaredAs (env : Env) (type : Option Node) (n : Bytes) (l : Nat) : Prop :=
  ∃ t, type = some t ∧ n = (env.table.getClassReferenceFQN (Analyser.tyOf (env.ctx.nodeText t))).1 ∧
    Depth (env.ctx.nodeText t) l

/-- A list of types reads `A|B[]|null`: each of the types that `named` describes once, under its full name, with `[]` for
arrays, separated by `|`. (A name that is empty or only a backslash is no name.) -/
def TypesShown (named : Bytes → Nat → Prop) (text : Bytes) : Prop :=
  ∃ ts : List (Bytes × Nat), (ts.map Prod.fst).Nodup ∧ (∀ t ∈ ts, named t.1 t.2) ∧
    (∀ n l, named n l → n ≠ [] → n ≠ b!"\\" → n ∈ ts.map Prod.fst) ∧ (∀ t ∈ ts, t.1 ≠ [] ∧ t.1 ≠ b!"\\") ∧
    text = b!"|".intercalate (ts.map fun t => t.1 ++ brackets t.2)

/-- A parameter reads `Types $name = value`, without types if it has none, without `= value` if it has no default. -/
def ParamShown (named : Bytes → Nat → Prop) (name : Bytes) (value : Option Bytes) (text : Bytes) : Prop :=
  ∃ types, TypesShown named types ∧
    text = (if types = [] then [] else types ++ b!" ") ++ name ++
      (match value with | some v => b!" = " ++ v | none => [])

/-- The tag for a parameter in the doc comment of a function, if there is one. -/
def TagFor (c : Ctx) (doc : Option Node) (name : Bytes) (tag : Option Node) : Prop :=
  match doc, tag with
  | none, tag => tag = none
  | some d, some k => ParamTag c d name k
  | some d, none => NoParamTag c d name

/-- The text is how the parameter `e` of a function with the doc comment `doc` reads: its types are the one that is
declared and those of its `@param` tag, its default value is the text that is written. -/
def ParamReads (env : Env) (doc : Option Node) (e : Node) (text : Bytes) : Prop :=
  ∀ type var value tag, ParamWritten e type var value → env.ctx.tokText var ≠ [] →
    TagFor env.ctx doc (env.ctx.tokText var) tag →
    ParamShown (fun n l => DeclaredAs env type n l ∨ ∃ k, tag = some k ∧ TagNamed env k n l) (env.ctx.tokText var)
      (value.map (textOf env.ctx)) text

/-- The parameters `es` in a header: those of its parameter list, none if it has no list. -/
def Parameters (hs es : List Node) : Prop :=
  (∃ ls, OnlyPhrase .parameterDeclarationList hs (.phr .parameterDeclarationList ls) ∧
    Decl.Listed .parameterDeclaration ls es) ∨ (NoPhrase .parameterDeclarationList hs ∧ es = [])

/-- One of the types that the `@return` tags name. -/
def Returned (env : Env) (doc : Option Node) (n : Bytes) (l : Nat) : Prop :=
  ∃ d k, doc = some d ∧ k ∈ d.kids ∧ IsTag env.ctx b!"@return" k ∧ TagNamed env k n l

/-- A header ends in `: types` if there are types, and with nothing if there are none. -/
def ReturnShown (named : Bytes → Nat → Prop) (text : Bytes) : Prop :=
  ∃ types, TypesShown named types ∧ text = if types = [] then [] else b!": " ++ types

/-- The description of a declaration is the text at the beginning of its doc comment. -/
def DescriptionIs (env : Env) (doc : Option Node) (text : Bytes) : Prop :=
  match doc with
  | none => text = []
  | some d => (∀ x, OnlyPhrase docDescription d.kids x → text = Rpc.trimSpace (env.strip (env.ctx.nodeText x))) ∧
      (NoPhrase docDescription d.kids → text = [])

/-- What hovering shows: the code in a block, perhaps the class of a member, the description if there is one, in Markdown
(`md`, which may fail), and a line at the end. -/
def HoverText (md : Bytes → Option Bytes) (code scope description text : Bytes) : Prop :=
  text = b!"```php\n<?php\n" ++ code ++ b!"\n```\n" ++ scope ++
    (if description = [] then [] else b!"\n____\n" ++ (md description).getD description) ++ b!"\n____\n"

/-- The line that names the class, interface or trait of a member. -/
def scopeLine : Scope → Bytes
  | .cls n => b!"\n____\n\n`class " ++ n ++ b!"`"
  | .intf n => b!"\n____\n\n`interface " ++ n ++ b!"`"
  | .trt n => b!"\n____\n\n`trait " ++ n ++ b!"`"
  | .no => []

/-- The keyword of a visibility. -/
def word : Visibility → Bytes
  | .pub => b!"public"
  | .protected_ => b!"protected"
  | .private_ => b!"private"

/-- Modifiers read `private static`: the visibility, `public` if none is written, and `static` if it is written. -/
def ModifiersShown (mods : List Node) (text : Bytes) : Prop :=
  ∃ v, VisibilityOf mods v ∧ ((Writes mods Decl.tStatic ∧ text = word v ++ b!" static") ∨
    (¬ Writes mods Decl.tStatic ∧ text = word v))

/-- A name that is written as a class name: not empty, no brackets behind it, and not one of the two native types that
have another name. -/
def PlainName (s : Bytes) : Prop := s ≠ [] ∧ s ≠ b!"boolean" ∧ s ≠ b!"integer" ∧ ¬ b!"]" <:+ s

/-- The parent of a class: the name after `extends`, if that is written. -/
def ParentWritten (hs : List Node) (parent : Option Node) : Prop :=
  match parent with
  | none => NoPhrase .classBaseClause hs
  | some x => ∃ base, OnlyPhrase .classBaseClause hs base ∧ Decl.OnlyName base.kids x

/-- The interfaces of a class: the names after `implements`, if that is written. -/
def InterfacesWritten (hs es : List Node) : Prop :=
  (NoPhrase .classInterfaceClause hs ∧ es = []) ∨
    ∃ clause ls, OnlyPhrase .classInterfaceClause hs clause ∧
      OnlyPhrase .qualifiedNameList clause.kids (.phr .qualifiedNameList ls) ∧ Decl.ListedNames ls es

/-- The parent reads ` extends \Full\Name`, by the name that PHP gives to it; without `extends` there is nothing. (A name
that is empty or only a backslash is no name.) -/
def ParentShown (env : Env) (parent : Option Node) (text : Bytes) : Prop :=
  match parent with
  | none => text = []
  | some x => ∃ n, Decl.FollowsPHP env.table (env.ctx.nodeText x) n ∧
      text = if n = [] ∨ n = b!"\\" then [] else b!" extends " ++ n

/-- Names read as they are written, after a word and with commas between them; if there are none, nothing is shown. -/
def ListShown (env : Env) (keyword : Bytes) (es : List Node) (text : Bytes) : Prop :=
  text = if es = [] then [] else keyword ++ b!", ".intercalate (es.map env.ctx.nodeText)

/-- The bases of an interface: the names after `extends`, if that is written, none of them with a backslash in front. -/
def BasesWritten (hs es : List Node) : Prop :=
  (NoPhrase Decl.interfaceBaseClause hs ∧ es = []) ∨
    ∃ bs ls, OnlyPhrase Decl.interfaceBaseClause hs (.phr Decl.interfaceBaseClause bs) ∧
      (∃ pre post, bs = pre ++ .phr .qualifiedNameList ls :: post ∧ ∀ k ∈ pre ++ post, ∃ t, k = .tok t) ∧
      Decl.Listed .qualifiedName ls es

/-- The first tag with this name in the doc comment, if there is one. -/
def FirstTag (c : Ctx) (name : Bytes) (doc tag : Option Node) : Prop :=
  match doc, tag with
  | none, tag => tag = none
  | some d, some k => ∃ pre post, d.kids = pre ++ k :: post ∧ IsTag c name k ∧ ∀ q ∈ pre, ¬ IsTag c name q
  | some d, none => ∀ q ∈ d.kids, ¬ IsTag c name q

/-- One of the types that a `@var` tag names, if there is such a tag. -/
def VarNamed (env : Env) (tag : Option Node) (n : Bytes) (l : Nat) : Prop := ∃ k, tag = some k ∧ TagNamed env k n l

/-- A constant reads `= value` if it has a value. -/
def valueShown (value : Bytes) : Bytes := if value = [] then [] else b!" = " ++ value

/-- What is said of a name that is deprecated: `since` is the version in the tag, `why` the text in it. -/
def deprecationText (name since why : Bytes) : Bytes :=
  name ++ b!" is deprecated" ++
    (if since = [] ∧ why = [] then [] else if why = [] then b!": Since " ++ since else if since = [] then b!": " ++ why
      else b!": Since " ++ since ++ b!" - " ++ why)

/-- The version in a `@deprecated` tag. -/
def VersionIs (env : Env) (tag : Node) (text : Bytes) : Prop :=
  (∀ t, OnlyToken Decl.tVersion tag.kids t → text = env.ctx.tokText t) ∧
    ((∀ k ∈ tag.kids, ¬ Decl.IsToken Decl.tVersion k) → text = [])

/-- What the index knows about a declaration with this `@deprecated` tag (or without one): nothing without a tag, and with
a tag what is said of the name carries the version and the text of the tag. -/
def DeprecationKept (env : Env) (tag : Option Node) (stored : Option Encoding.Tag) : Prop :=
  match tag with
  | none => stored = none
  | some k => ∃ t since why, stored = some t ∧ VersionIs env k since ∧ DescriptionIs env (some k) why ∧
      ∀ name, deprecatedDescription (name ++ b!" is deprecated") t = deprecationText name since why

/-- Array depths are Go `int`s, as they are in every record that exists. -/
def LevelFits (t : Types.Ty) : Prop := 0 ≤ t.arrayLevel ∧ t.arrayLevel < 2 ^ 63

/-- Array depths of a function or method. -/
def LevelsFit (r : Decl.FunctionRec) : Prop :=
  (∀ t ∈ r.returns, LevelFits t) ∧ ∀ p ∈ r.params, ∀ t ∈ p.types, LevelFits t

/-- A text is found at a place in another one. -/
def At (label : Bytes) (start : Nat) (part : Bytes) : Prop := ∃ pre post, label = pre ++ part ++ post ∧ pre.length = start

end Verif.Show
