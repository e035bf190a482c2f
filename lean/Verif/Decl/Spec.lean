import Verif.Decl.Model
import Verif.Imports.Props
import Verif.Types.Props

/-!
Specification: what is written in a declaration. Nothing here is computed with the functions of the model; a syntax tree
is described by what occurs in it.
-/

namespace Verif.Decl
open Verif.Analyser (Node PType TokType Tok Ctx)
open Verif.Types (Ty Union natives aliasOf suffixes)
open Verif.Imports (phpClassName names)
open Verif.Query (Visibility)

/-- The node is a phrase of that type. -/
def IsPhrase (ty : PType) (k : Node) : Prop := ∃ ks, k = .phr ty ks

/-- The node is a token of that type. -/
def IsToken (ty : TokType) (k : Node) : Prop := ∃ t, k = .tok t ∧ t.type = ty

/-- Among the nodes, exactly one is a phrase of that type, namely `x`. -/
def OnlyPhrase (ty : PType) (ks : List Node) (x : Node) : Prop :=
  ∃ pre post, ks = pre ++ x :: post ∧ IsPhrase ty x ∧ ∀ k ∈ pre ++ post, ¬ IsPhrase ty k

/-- Among the nodes, none is a phrase of that type. -/
def NoPhrase (ty : PType) (ks : List Node) : Prop := ∀ k ∈ ks, ¬ IsPhrase ty k

/-- Among the nodes, exactly one is a token of that type, namely `t`. -/
def OnlyToken (ty : TokType) (ks : List Node) (t : Tok) : Prop :=
  ∃ pre post, ks = pre ++ .tok t :: post ∧ t.type = ty ∧ ∀ k ∈ pre ++ post, ¬ IsToken ty k

/-- The keyword is written among the nodes. -/
def Writes (ks : List Node) (ty : TokType) : Prop := ∃ k ∈ ks, IsToken ty k

/-- At most one of `public`, `protected`, `private`, as PHP demands. -/
def OneVisibility (ks : List Node) : Prop :=
  ¬ (Writes ks tPublic ∧ Writes ks tProtected) ∧ ¬ (Writes ks tPublic ∧ Writes ks tPrivate) ∧
    ¬ (Writes ks tProtected ∧ Writes ks tPrivate)

/-- The visibility of a member with these modifiers: the one written, `public` if none is. -/
def VisibilityOf (ks : List Node) : Visibility → Prop
  | .private_ => Writes ks tPrivate
  | .protected_ => Writes ks tProtected
  | .pub => ¬ Writes ks tPrivate ∧ ¬ Writes ks tProtected

/-- The class modifier: at most one of `abstract` and `final` is allowed. -/
def ClassModifierOf (ks : List Node) : ClassModifier → Prop
  | .abstract_ => Writes ks tAbstract
  | .final_ => Writes ks tFinal
  | .no => ¬ Writes ks tAbstract ∧ ¬ Writes ks tFinal

/-- A record has the modifiers that are written. -/
def Modified (ks : List Node) (vis : Visibility) (isStatic : Bool) : Prop :=
  VisibilityOf ks vis ∧ (isStatic = true ↔ Writes ks tStatic)

/-- The children `ks` of a declaration of members: the list of modifiers, if there is one, and after it the list of the
declared elements, a phrase of type `list`. `mods` are the modifiers. -/
def DeclaresMembers (list : PType) (ks : List Node) (mods : List Node) (elements : Node) : Prop :=
  ∃ pre post, ks = pre ++ elements :: post ∧ IsPhrase list elements ∧ (∀ k ∈ pre ++ post, ¬ IsPhrase list k) ∧
    NoPhrase memberModifierList post ∧
    ((NoPhrase memberModifierList pre ∧ mods = []) ∨ OnlyPhrase memberModifierList pre (.phr memberModifierList mods))

/-- The children that are phrases of that type, in order. -/
inductive Listed (ty : PType) : List Node → List Node → Prop
  | nil : Listed ty [] []
  | take {k ks es} : IsPhrase ty k → Listed ty ks es → Listed ty (k :: ks) (k :: es)
  | skip {k ks es} : ¬ IsPhrase ty k → Listed ty ks es → Listed ty (k :: ks) es

/-- The text of several nodes. -/
def textOf (c : Ctx) (ks : List Node) : Bytes := (ks.map c.nodeText).flatten

/-- A parameter, or an element of a declaration, with the nodes of its value: without `=` there is none; otherwise the
value follows `=` and the white space after it. Values are expressions, in which `=`, variables and types do not occur
directly. -/
def HasValue (ks before : List Node) (value : Option (List Node)) : Prop :=
  (∀ k ∈ before, ¬ IsToken .equals k) ∧
  match value with
  | none => ks = before
  | some v => ∃ eq ws, ks = before ++ .tok eq :: (ws ++ v) ∧ eq.type = .equals ∧ (∀ k ∈ ws, IsToken .whitespace k) ∧
      v ≠ [] ∧ (∀ k, v.head? = some k → ¬ IsToken .whitespace k) ∧
      ∀ k ∈ v, ¬ IsToken .equals k ∧ ¬ IsToken .variableName k ∧ ¬ IsPhrase .typeDeclaration k ∧
        ¬ IsPhrase .identifier k ∧ ∀ t, k ≠ .err t

/-- The tokens of the nodes follow each other without gaps, from offset `a` to offset `b`. -/
inductive Contiguous : List Node → Nat → Nat → Prop
  | nil (a) : Contiguous [] a a
  | cons {k ks a b f l} : Analyser.firstToken k = some f → Analyser.lastToken k = some l → f.offset = a →
      a ≤ l.offset + l.length → Contiguous ks (l.offset + l.length) b → Contiguous (k :: ks) a b

/-- The name `n` is what the text `q` of one type refers to: `self` is the class around, everything else a class name
that is resolved in the import table (C26). -/
def TypeRefers (env : Env) (q n : Bytes) : Prop :=
  (q = b!"self" → ∃ c, env.cls = some c ∧ n = c.name.fqn) ∧
  (q ≠ b!"self" → n = (env.table.getClassReferenceFQN (Analyser.tyOf q)).1)

/-- `n` is one of the types that a text such as `A|B[]|null` names: its parts, without the space around them. -/
def Names (env : Env) (text n : Bytes) : Prop :=
  ∃ part ∈ splitB 124 text, Rpc.trimSpace part ≠ [] ∧ TypeRefers env (Rpc.trimSpace part) n

/-- The texts of the types written in a tag of a doc comment: single types and the members of unions. -/
def TypeWritten (c : Ctx) (tag : Node) (text : Bytes) : Prop :=
  ∃ k ∈ tag.kids, (IsPhrase .typeDeclaration k ∧ text = c.nodeText k) ∨
    (IsPhrase .typeUnion k ∧ ∃ q ∈ k.kids, IsPhrase .typeDeclaration q ∧ text = c.nodeText q)

/-- `n` is one of the types that a tag of a doc comment names. -/
def TagNames (env : Env) (tag : Node) (n : Bytes) : Prop := ∃ text, TypeWritten env.ctx tag text ∧ Names env text n

/-- The child of a doc comment is a tag with this name (`@return`, …): the first tag name in it is `name`. -/
def IsTag (c : Ctx) (name : Bytes) (k : Node) : Prop :=
  (∃ i, IsPhrase (.docTag i) k) ∧
    ∃ pre t post, k.kids = pre ++ .tok t :: post ∧ t.type = .docTagName ∧ c.tokText t = name ∧
      ∀ q ∈ pre, ¬ IsToken .docTagName q

/-- `k` is the first `@param` tag of the doc comment `d` for the variable `name`. -/
def ParamTag (c : Ctx) (d : Node) (name : Bytes) (k : Node) : Prop :=
  ∃ pre post, d.kids = pre ++ k :: post ∧ IsTag c b!"@param" k ∧
    (∃ t, OnlyToken .variableName k.kids t ∧ c.tokText t = name) ∧
    ∀ q ∈ pre, IsTag c b!"@param" q → ∀ t, .tok t ∈ q.kids → t.type = .variableName → c.tokText t ≠ name

/-- No `@param` tag of the doc comment `d` is for the variable `name`. -/
def NoParamTag (c : Ctx) (d : Node) (name : Bytes) : Prop :=
  ∀ q ∈ d.kids, IsTag c b!"@param" q → ∀ t, .tok t ∈ q.kids → t.type = .variableName → c.tokText t ≠ name

/-- The doc comment that applies to a node is the last one before it, and only if it ends on the line above the node.
`d` is its syntax tree; `none` means that no doc comment applies. -/
def DocApplies (env : Env) (n : Node) (d : Option Node) : Prop :=
  match d with
  | some d => env.doc = some (newPhpDoc env d) ∧ (env.ctx.range d).stop.line + 1 = (env.ctx.range n).start.line
  | none => ∀ d, env.doc = some d → d.range.stop.line + 1 ≠ (env.ctx.range n).start.line

/-- A declared parameter: its type if one is written, its variable, its default value if it has one. -/
structure ParamWritten (e : Node) (type : Option Node) (var : Tok) (value : Option (List Node)) : Prop where
  parts : ∃ before, HasValue e.kids before value ∧ OnlyToken .variableName before var ∧
    match type with
    | some t => OnlyPhrase .typeDeclaration before t
    | none => NoPhrase .typeDeclaration before

/-- What is recorded about a parameter, apart from the types that the doc comment gives it: its name and the place of
its name, whether it has a default value, and the text of the default value. -/
def Recorded (c : Ctx) (e : Node) (p : Param) : Prop :=
  ∀ type var value, ParamWritten e type var value → p.name = c.tokText var ∧ p.varRange = c.range (.tok var) ∧
    p.range = c.range e ∧ p.hasValue = value.isSome ∧ p.value = textOf c (value.getD [])

/-- `n` is the type that is declared in the code. -/
def DeclaredType (env : Env) (type : Option Node) (n : Bytes) : Prop :=
  ∃ t, type = some t ∧ n = (env.table.getClassReferenceFQN (Analyser.tyOf (env.ctx.nodeText t))).1

/-- An ordinary name: not the name of a native type, not `boolean` or `integer`, no backslash in front and no bracket at
the end. -/
def Ordinary (s : Bytes) : Prop :=
  s ≠ [] ∧ s ∉ natives ∧ s ≠ b!"boolean" ∧ s ≠ b!"integer" ∧ ¬ Imports.FullyQualified s ∧ ¬ b!"]" <:+ s

/-- The name `n` is the class that `text` refers to by the rules of PHP, wherever the lookup in the import table is right
about them (C26): no type suffix or alias of a native type, aliases written in the same case, and no alias that is the
first part of a fully qualified name or the name of a native type. -/
def FollowsPHP (table : Imports.Table) (text n : Bytes) : Prop :=
  text ≠ [] → text ≠ b!"boolean" → text ≠ b!"integer" → ¬ b!"]" <:+ text →
  Imports.SameCase table.classes (Imports.firstSegment text) →
  (Imports.FullyQualified text → table.classes.get (Imports.firstSegment (text.drop 1)) = none) →
  (text ∈ natives → table.classes.get text = none) →
  n = phpClassName natives table.getNamespace (names table.classes) text

/-- The node is a name of a class. -/
def IsName (k : Node) : Prop := IsPhrase .qualifiedName k ∨ IsPhrase .fullyQualifiedName k

/-- Among the nodes, exactly one is a name, namely `x`. -/
def OnlyName (ks : List Node) (x : Node) : Prop :=
  ∃ pre post, ks = pre ++ x :: post ∧ IsName x ∧ ∀ k ∈ pre ++ post, ¬ IsName k

/-- The children that are names, in order. -/
inductive ListedNames : List Node → List Node → Prop
  | nil : ListedNames [] []
  | take {k ks es} : IsName k → ListedNames ks es → ListedNames (k :: ks) (k :: es)
  | skip {k ks es} : ¬ IsName k → ListedNames ks es → ListedNames (k :: ks) es

/-- What a class has among its members, besides tokens. -/
def IsMember (k : Node) : Prop :=
  IsPhrase .methodDeclaration k ∨ IsPhrase .propertyDeclaration k ∨ IsPhrase .classConstDeclaration k ∨
    IsPhrase .traitUseClause k ∨ IsPhrase .documentComment k ∨ ∃ t, k = .tok t

/-- The trait names in the clauses, in order. -/
inductive TraitNames : List Node → List Node → Prop
  | nil : TraitNames [] []
  | cons {k ks ls es es'} : OnlyPhrase .qualifiedNameList k.kids (.phr .qualifiedNameList ls) → ListedNames ls es →
      TraitNames ks es' → TraitNames (k :: ks) (es ++ es')

/-- The last part of a name. -/
def LastPart (name al : Bytes) : Prop := 92 ∉ al ∧ (name = al ∨ ∃ pre, name = pre ++ 92 :: al)

/-- A clause of a `use` declaration: the name, and the alias that it gets, which is the last part of the name if none is
written. -/
def ClauseWritten (c : Ctx) (e : Node) (al name : Bytes) : Prop :=
  ∃ x, OnlyPhrase .namespaceName e.kids x ∧ name = c.nodeText x ∧
    ((NoPhrase aliasingClause e.kids ∧ LastPart name al) ∨
     ∃ a t, OnlyPhrase aliasingClause e.kids a ∧ OnlyToken .name a.kids t ∧ al = c.tokText t ∧ al ≠ [])

/-- What kind of names a `use` declaration imports, by the keyword before the clauses. -/
def UseKind (before : List Node) : UseType → Prop
  | .class_ => ¬ Writes before tFunction ∧ ¬ Writes before tConst
  | .function => Writes before tFunction ∧ ¬ Writes before tConst
  | .const_ => Writes before tConst ∧ ¬ Writes before tFunction

/-- The imports of one kind in a table. -/
def itemsOf (kind : UseType) (t : Imports.Table) : GoMap Bytes Imports.Item :=
  match kind with
  | .class_ => t.classes
  | .function => t.functions
  | .const_ => t.constants

/-- The imports `pairs` (alias and name) of that kind have been added to the table, and nothing else has changed. -/
structure Imported (kind : UseType) (pairs : List (Bytes × Bytes)) (t t' : Imports.Table) : Prop where
  added : ∀ p ∈ pairs, ∃ item, (itemsOf kind t').get p.1 = some item ∧ item.name = p.2 ∧ item.isUsed = false
  kept : ∀ al, al ∉ pairs.map Prod.fst → (itemsOf kind t').get al = (itemsOf kind t).get al
  others : ∀ k, k ≠ kind → itemsOf k t' = itemsOf k t
  ns : t'.ns = t.ns

end Verif.Decl
