import Verif.Analyser.OrderSpec
import Verif.Analyser.Closed

/-!
What there is to find in a syntax tree: the variables with the function they are in, and the declarations with their full
names. And which trees are considered.
-/

namespace Verif.Analyser
open Verif.Symbols (Tree Var Rec)

/-- Something the analysis should find: a variable, with the range of the function around it (or of the document), its
name and its place; a symbol; a member of a class, without the class. -/
inductive Fact where
  | var (scope : Rng) (name : Bytes) (range : Rng)
  | sym (s : Sym)
  | member (kind : Kind) (range : Rng) (name : Bytes)
  deriving DecidableEq, Repr

/-- Where a piece of code is: the range of the function around it (of the document, outside of functions), the range of
what is around that function, the namespace, and the class, if known. -/
structure Env where
  scope : Rng
  outer : Option Rng
  ns : Bytes
  cls : Option Bytes
  isInterface : Bool

/-- The full name of a class, function or constant. -/
def fullName (ns name : Bytes) : Bytes := if ns = [] then 92 :: name else 92 :: ns ++ 92 :: name

section
variable (c : Ctx)

/-- A child of a header that gives the name: a name token or an identifier. -/
def nameIn : Node → Option Bytes
  | .tok t => if t.type = .name then some (c.tokText t) else none
  | .phr .identifier ks => some (c.nodeText (.phr .identifier ks))
  | _ => none

/-- The name in a header. -/
def headName (header : PType) (ks : List Node) : Option Bytes :=
  ks.findSome? fun k => if k.isPhrase header then k.kids.findSome? (nameIn c) else none

/-- A call of `define`. -/
def isDefineCall (ks : List Node) : Bool :=
  ks.any fun k => k.isName &&
    (asciiLower (c.nodeText k) == b!"\\define" || asciiLower (c.nodeText k) == b!"define")

/-- A string literal: what is between the quotes. -/
def stringIn : Node → Option Bytes
  | .tok t => if t.type = .stringLiteral then some ((c.tokText t).drop 1).dropLast else none
  | _ => none

/-- The first argument of a call is a string: what is between the quotes. -/
def firstString (ks : List Node) : Option Bytes :=
  ((ks.find? fun k => k.isPhrase .argumentExpressionList).bind fun l => l.kids.find? (isArgument c)).bind (stringIn c)

/-- There is a declaration of a class, interface or trait in the code. -/
def hasClass (ks : List Node) : Bool := (typesInAll ks).any PType.classLike

/-- The surroundings of what is inside a phrase. The class is known if no other class is declared inside it. -/
def Env.enter (e : Env) (ty : PType) (ks : List Node) : Env :=
  match ty with
  | .functionDeclaration | .methodDeclaration | .anonymousFunctionCreationExpression =>
    { e with scope := c.range (.phr ty ks), outer := some e.scope }
  | .classDeclaration =>
    { e with cls := if hasClass ks then none else (headName c .classDeclarationHeader ks).map (fullName e.ns)
             isInterface := false }
  | .interfaceDeclaration =>
    { e with cls := if hasClass ks then none else (headName c .interfaceDeclarationHeader ks).map (fullName e.ns)
             isInterface := true }
  | .traitDeclaration =>
    { e with cls := if hasClass ks then none else (headName c .traitDeclarationHeader ks).map (fullName e.ns)
             isInterface := false }
  | .anonymousClassDeclaration =>
    { e with cls := if hasClass ks then none else some (fullName e.ns (c.anonName (c.range (.phr ty ks)).start))
             isInterface := false }
  | _ => e

/-- A declaration with a full name. -/
def declares (e : Env) (kind : Kind) (n : Node) (name : Option Bytes) : List Fact :=
  match name with
  | some s => [.sym ⟨kind, c.range n, fullName e.ns s, []⟩]
  | none => []

/-- A member of a class. -/
def declaresMember (e : Env) (kind : Kind) (n : Node) (name : Option Bytes) : List Fact :=
  match name with
  | some s => .member kind (c.range n) s :: (match e.cls with | some q => [.sym ⟨kind, c.range n, s, q⟩] | none => [])
  | none => []

/-- Spaces and `->`. -/
def Node.isArrowOrSpace : Node → Bool
  | .tok t => t.type = .whitespace || t.type = .arrow
  | _ => false

/-- The member after spaces and `->`, if it is one name: the place and the text of the name. -/
def memberUse (kind : Kind) (ks : List Node) : List Fact :=
  match ks.dropWhile Node.isArrowOrSpace with
  | .phr .memberName ms :: _ =>
    match ms.filter Node.namesMember with
    | [.tok t] => [.sym ⟨kind, c.range (.phr .memberName ms), c.tokText t, []⟩]
    | _ => []
  | _ => []

/-- The member after `::`, if it is a name: the place and the text of the name. -/
def scopedUse (kind : Kind) (ks : List Node) : List Fact :=
  match ks.drop 2 with
  | .phr .scopedMemberName ms :: _ =>
    [.sym ⟨kind, c.range (.phr .scopedMemberName ms), c.nodeText (.phr .scopedMemberName ms), []⟩]
  | _ => []

/-- The class before `::`, if it is a name. -/
def classUse (ks : List Node) : List Fact :=
  match ks with
  | .phr ty ms :: _ => [.sym ⟨.classAccess, c.range (.phr ty ms), c.nodeText (.phr ty ms), []⟩]
  | _ => []

/-- The names in the header of a class: the last one after `extends`, and those in the first list after `implements`. -/
def headUse : Node → List Fact
  | .phr .classBaseClause ms =>
    (ms.filter Node.isName).getLast?.toList.map fun k => .sym ⟨.classAccess, c.range k, c.nodeText k, []⟩
  | .phr .classInterfaceClause ms =>
    (ms.find? (Node.isPhrase .qualifiedNameList)).toList.flatMap fun l =>
      (l.kids.filter Node.isName).map fun k => .sym ⟨.interfaceAccess, c.range k, c.nodeText k, []⟩
  | _ => []

/-- What is called or accessed by a phrase. -/
def usesOf (ty : PType) (ks : List Node) : List Fact :=
  match ty with
  | .functionCallExpression =>
    if isDefineCall c ks then [] else ks.head?.toList.map fun k => .sym ⟨.functionCall, c.range k, c.nodeText k, []⟩
  | .scopedCallExpression => classUse c ks ++ scopedUse c .scopedMethodAccess ks
  | .scopedPropertyAccessExpression => classUse c ks ++ scopedUse c .scopedPropertyAccess ks
  | .classConstantAccessExpression => classUse c ks ++ scopedUse c .scopedConstantAccess ks
  | .methodCallExpression => memberUse c .methodAccess (ks.drop 2)
  | .propertyAccessExpression => memberUse c .propertyAccess (ks.drop 1)
  | .objectCreationExpression =>
    (ks.filter (Node.isPhrase .classTypeDesignator)).map fun k => .sym ⟨.designator, c.range k, [], []⟩
  | .parameterDeclaration =>
    (ks.filter (Node.isPhrase .typeDeclaration)).map fun k => .sym ⟨.typeDeclaration, c.range k, c.nodeText k, []⟩
  | .instanceofTypeDesignator =>
    (ks.find? Node.isName).toList.map fun k => .sym ⟨.classAccess, c.range k, c.nodeText k, []⟩
  | .catchNameList => (ks.filter Node.isName).map fun k => .sym ⟨.classAccess, c.range k, c.nodeText k, []⟩
  | .traitUseClause =>
    (ks.filter (Node.isPhrase .qualifiedNameList)).flatMap fun l =>
      (l.kids.filter Node.isName).map fun k => .sym ⟨.traitAccess, c.range k, c.nodeText k, []⟩
  | .classDeclarationHeader | .anonymousClassDeclarationHeader => ks.flatMap (headUse c)
  | _ => []

/-- There is something that is called or accessed by a phrase of that type. -/
def PType.usesSome : PType → Bool
  | .functionCallExpression | .scopedCallExpression | .scopedPropertyAccessExpression | .classConstantAccessExpression
  | .methodCallExpression | .propertyAccessExpression | .objectCreationExpression | .parameterDeclaration
  | .instanceofTypeDesignator | .catchNameList | .traitUseClause | .classDeclarationHeader
  | .anonymousClassDeclarationHeader => true
  | _ => false

-- whether the calls and accesses are looked for as well
variable (u : Bool)

/-- What a phrase itself is. -/
def own (e : Env) (ty : PType) (ks : List Node) : List Fact :=
  let n := Node.phr ty ks
  (if u then usesOf c ty ks else []) ++
  match ty with
  | .simpleVariable => [.var e.scope (c.nodeText n) (c.range n)]
  | .parameterDeclaration => (ks.filterMap varTok).map fun t => .var e.scope (c.tokText t) (c.range (.tok t))
  | .anonymousFunctionUseVariable =>
    (ks.filterMap varTok).flatMap fun t =>
      (e.scope :: e.outer.toList).map fun r => .var r (c.tokText t) (c.range (.tok t))
  | .classDeclaration => declares c e .class_ n (headName c .classDeclarationHeader ks)
  | .interfaceDeclaration => declares c e .interface_ n (headName c .interfaceDeclarationHeader ks)
  | .traitDeclaration => declares c e .trait_ n (headName c .traitDeclarationHeader ks)
  | .anonymousClassDeclaration => declares c e .class_ n (some (c.anonName (c.range n).start))
  | .functionDeclaration => declares c e .function n (headName c .functionDeclarationHeader ks)
  | .constElement => declares c e .const_ n (ks.findSome? (nameIn c))
  | .functionCallExpression =>
    if isDefineCall c ks && e.ns == [] then declares c e .define n (firstString c ks) else []
  | .methodDeclaration => declaresMember c e .method n (headName c .methodDeclarationHeader ks)
  | .propertyElement =>
    if e.isInterface then [] else declaresMember c e .property n ((ks.findSome? varTok).map c.tokText)
  | .classConstElement => declaresMember c e .classConst n (ks.findSome? (nameIn c))
  | _ => []

/-- Comments are no code; the name of a static member is no variable. -/
def PType.closed : PType → Bool
  | .documentComment | .scopedMemberName => true
  | _ => false

mutual

/-- What there is to find in a node. -/
def facts (e : Env) : Node → List Fact
  | .tok _ => []
  | .err _ => []
  | .phr ty ks => own c u e ty ks ++ if ty.closed then [] else factsOf (e.enter c ty ks) ks

/-- What there is to find in some nodes. -/
def factsOf (e : Env) : List Node → List Fact
  | [] => []
  | k :: ks => facts e k ++ factsOf e ks

end

/-- The namespace after a statement of the document. -/
def nsAfter (ns : Bytes) : Node → Bytes
  | .phr .namespaceDefinition ks =>
    match ks.find? fun k => k.isPhrase .namespaceName with
    | some k => c.nodeText k
    | none => []
  | _ => ns

/-- What there is to find in the statements of a document, from a namespace on. -/
def factsFrom (r : Rng) (ns : Bytes) : List Node → List Fact
  | [] => []
  | k :: ks => facts c u ⟨r, none, nsAfter c ns k, none, false⟩ k ++ factsFrom r (nsAfter c ns k) ks

/-- What there is to find in a document. -/
def factsIn (root : Node) : List Fact := factsFrom c u (c.range root) [] root.kids

/-! ### the trees that are considered -/

/-- A phrase that is something to find. -/
def telling (ty : PType) (ks : List Node) : Bool :=
  match ty with
  | .simpleVariable | .parameterDeclaration | .anonymousFunctionUseVariable | .classDeclaration | .interfaceDeclaration
  | .traitDeclaration | .anonymousClassDeclaration | .functionDeclaration | .constElement | .methodDeclaration
  | .propertyElement | .classConstElement => true
  | .functionCallExpression => u || isDefineCall c ks
  | _ => u && ty.usesSome

mutual

/-- There is nothing to find in the node. -/
def silent : Node → Bool
  | .tok _ => true
  | .err _ => true
  | .phr ty ks => ty.closed || (!telling c u ty ks && silents ks)

/-- There is nothing to find in the nodes. -/
def silents : List Node → Bool
  | [] => true
  | k :: ks => silent k && silents ks

end

/-- Statements, expressions and declarations: the phrases that can be anywhere in code. -/
def PType.runs (ty : PType) : Bool :=
  isExprType ty || match ty with
  | .transparent _ | .compoundStatement | .statementList | .argumentExpressionList | .classDeclaration
  | .interfaceDeclaration | .traitDeclaration | .anonymousClassDeclaration | .functionDeclaration | .methodDeclaration
  | .anonymousFunctionCreationExpression | .classConstDeclaration | .propertyDeclaration | .constDeclaration
  | .constElement | .globalDeclaration | .catchNameList | .traitUseClause => true
  | _ => false

/-- A place for statements and expressions. -/
def place : Node → Bool
  | .phr ty ks => silent c u (.phr ty ks) || ty.runs
  | _ => true

/-- A place for a value: everything but a call of `define`. -/
def value : Node → Bool
  | .phr ty ks => silent c u (.phr ty ks) || (ty.runs && !(ty = .functionCallExpression && isDefineCall c ks))
  | _ => true

/-- A place for an expression of the kinds in `nodeTypeToExprConstructor`. -/
def operand : Node → Bool
  | .phr ty ks => silent c u (.phr ty ks) || (isExprType ty && !(ty = .functionCallExpression && isDefineCall c ks))
  | _ => true

/-- A place for phrases of some types. -/
def only (tys : List PType) (k : Node) : Bool := silent c u k || tys.any fun ty => k.isPhrase ty

/-- After the function: at most one list of arguments. -/
def callFine : List Node → Bool
  | [] => true
  | k :: ks => if k.isPhrase .argumentExpressionList then silents c u ks else silent c u k && callFine ks

/-- The member name: a name, or a variable and nothing after it. -/
def nameFine : List Node → Bool
  | [] => true
  | k :: ks => if k.isPhrase .simpleVariable then silents c u ks else silent c u k && nameFine ks

/-- What is after the object: spaces and `->`, a member name, and then what `rest` allows. -/
def memberFine (rest : Node → Bool) : List Node → Bool
  | [] => true
  | .tok t :: ks => if t.type = .whitespace ∨ t.type = .arrow then memberFine rest ks else ks.all rest
  | .phr ty ms :: ks => (silent c u (.phr ty ms) || (ty = .memberName && nameFine c u ms)) && ks.all rest
  | .err _ :: ks => ks.all rest

/-- The node is a phrase. -/
def Node.isPhr : Node → Bool
  | .phr _ _ => true
  | _ => false

/-- The node is a token of that type. -/
def Node.isTok (ty : TokType) : Node → Bool
  | .tok t => t.type = ty
  | _ => false

/-- The nodes after tokens of some types. -/
def strip : List TokType → List Node → List Node
  | [], ks => ks
  | ty :: tys, ks => strip tys (ks.dropWhile (Node.isTok ty))

/-- After these tokens there is one value. -/
def oneValue (tys : List TokType) (ks : List Node) : Bool :=
  match strip tys ks with
  | [] => true
  | k :: ks => value c u k && silents c u ks

/-- Before `::` there is a class or a variable other than `$this`. -/
def scopedFine (ks : List Node) : Bool :=
  match ks with
  | [] => true
  | k :: _ => silent c u k || (k.isPhrase .simpleVariable && !isRelativeName (c.nodeText k))

/-- A name that is not native type, no alias, not qualified and does not end with a bracket. -/
def plain (s : Bytes) : Bool := s != [] && !Types.isFQN s && Types.aliasOf s == s && s.getLast? != some 93

/-- There is one child of that sort. -/
def one (p : Node → Bool) (ks : List Node) : Bool := (ks.filter p).length == 1

/-- There is one header, with one name in it, which is an identifier only if that is allowed. -/
def named (header : PType) (identifiers : Bool) (ks : List Node) : Bool :=
  one (fun k => k.isPhrase header) ks && ks.all fun k => !k.isPhrase header ||
    (one (fun k => (nameIn c k).isSome) k.kids && (identifiers || k.kids.all fun k => !k.isPhrase .identifier))

/-- What is before the header has nothing to find. -/
def headFirst (header : PType) (ks : List Node) : Bool := silents c u (ks.takeWhile fun k => !k.isPhrase header)

/-- Constants of classes: the name, `=`, the value. -/
def constFine : Bool → List Node → Bool
  | _, [] => true
  | eq, .tok t :: ks => constFine (eq || t.type = .equals) ks
  | eq, .err _ :: ks => constFine eq ks
  | eq, .phr ty ms :: ks =>
    (if eq then place c u (.phr ty ms) && ty != .identifier else silent c u (.phr ty ms)) && constFine eq ks

/-- Assignments: a variable, `=` (or `.=`, or `=` and `&`) and one value; or something else, and everything is looked
at. -/
def assignFine (ty : PType) (ks : List Node) : Bool :=
  match ks with
  | [] => true
  | k :: rest =>
    if k.isPhrase .simpleVariable then
      silents c u (rest.take 1) &&
        oneValue c u ([.whitespace, if ty = .compoundAssignmentExpression then .dotEquals else .equals, .whitespace] ++
          if ty = .byRefAssignmentExpression then [.ampersand, .whitespace] else []) (rest.drop 1)
    else
      (k :: rest).all (place c u) &&
        (!k.isPhrase .propertyAccessExpression || oneValue c u [.whitespace, .equals, .whitespace] rest)

/-- The two sides of `instanceof`. -/
def instanceFine (ks : List Node) : Bool :=
  match ks with
  | [] => true
  | k :: rest =>
    match k, strip [.whitespace, .instanceOf, .whitespace] rest with
    | .phr ty ms, .phr ty' ms' :: more => operand c u (.phr ty ms) && operand c u (.phr ty' ms') && silents c u more
    | _, _ => silents c u (k :: rest)

/-- What is assumed about a phrase. -/
def fine (ty : PType) (ks : List Node) : Bool :=
  (!isExprType ty || ty = .functionCallExpression || !isDefineCall c ks) &&
  match ty with
  | .transparent _ | .compoundStatement | .statementList | .argumentExpressionList | .functionDeclarationBody
  | .methodDeclarationBody | .classDeclarationBody | .interfaceDeclarationBody | .traitDeclarationBody
  | .propertyInitialiser | .constElementList => ks.all (place c u)
  -- expressions
  | .functionCallExpression =>
    if isDefineCall c ks then
      ks.all (only c u [.argumentExpressionList]) && one (fun k => k.isPhrase .argumentExpressionList) ks &&
        (match firstString c ks with | some s => plain s | none => true)
    else
      match ks with
      | [] => true
      | k :: rest => if k.isPhrase .simpleVariable then callFine c u rest else callFine c u ks
  | .scopedPropertyAccessExpression | .classConstantAccessExpression | .errorScopedAccessExpression =>
    scopedFine c u ks && silents c u (ks.drop 1)
  | .scopedCallExpression => scopedFine c u ks && silents c u ((ks.drop 1).take 2) && callFine c u (ks.drop 3)
  | .objectCreationExpression =>
    ks.all (only c u [.classTypeDesignator, .argumentExpressionList, .anonymousClassDeclaration])
  | .classTypeDesignator | .foreachValue | .variableNameList => ks.all (only c u [.simpleVariable])
  | .propertyAccessExpression => (ks.take 1).all (operand c u) && memberFine c u (silent c u) (ks.drop 1)
  | .methodCallExpression =>
    (ks.take 1).all (operand c u) && silents c u ((ks.drop 1).take 1) &&
      memberFine c u (only c u [.argumentExpressionList]) (ks.drop 2)
  | .foreachStatement => ks.all (only c u [.foreachCollection, .foreachValue, .compoundStatement, .statementList])
  | .foreachCollection => ks.all (operand c u)
  | .encapsulatedExpression | .cloneExpression =>
    ks.all (value c u) && (ks.filter Node.isPhr).length ≤ 1
  | .simpleAssignmentExpression | .byRefAssignmentExpression | .compoundAssignmentExpression => assignFine c u ty ks
  | .instanceOfExpression => instanceFine c u ks
  -- functions
  | .functionDeclaration =>
    ks.all (only c u [.functionDeclarationHeader, .functionDeclarationBody]) &&
      named c .functionDeclarationHeader true ks &&
      (match headName c .functionDeclarationHeader ks with | some s => plain s | none => false)
  | .methodDeclaration =>
    ks.all (only c u [.methodDeclarationHeader, .methodDeclarationBody]) &&
      named c .methodDeclarationHeader true ks
  | .functionDeclarationHeader | .methodDeclarationHeader =>
    ks.all (only c u [.parameterDeclarationList]) && (lastOfKids ks).isSome
  | .anonymousFunctionCreationExpression => ks.all (only c u [.anonymousFunctionHeader, .functionDeclarationBody])
  | .anonymousFunctionHeader => ks.all (only c u [.parameterDeclarationList, .anonymousFunctionUseClause])
  | .anonymousFunctionUseClause => ks.all (only c u [.closureUseList])
  | .closureUseList => ks.all (only c u [.anonymousFunctionUseVariable])
  | .anonymousFunctionUseVariable => match ks with | [.tok _] => true | _ => false
  | .parameterDeclarationList => ks.all (only c u [.parameterDeclaration])
  | .parameterDeclaration => silents c u ks && one (fun k => (varTok k).isSome) ks
  | .globalDeclaration => ks.all (only c u [.variableNameList])
  -- classes
  | .classDeclaration =>
    ks.all (only c u [.classDeclarationHeader, .classDeclarationBody]) &&
      named c .classDeclarationHeader false ks && headFirst c u .classDeclarationHeader ks &&
      (match headName c .classDeclarationHeader ks with | some s => plain s | none => false)
  | .anonymousClassDeclaration =>
    ks.all (only c u [.anonymousClassDeclarationHeader, .classDeclarationBody]) &&
      (ks.all fun k => !k.isPhrase .anonymousClassDeclarationHeader || k.kids.all fun k => (nameIn c k).isNone) &&
      plain (c.anonName (c.range (.phr ty ks)).start)
  | .anonymousClassDeclarationHeader => ks.all (only c u [.argumentExpressionList])
  | .interfaceDeclaration =>
    ks.all (only c u [.interfaceDeclarationHeader, .interfaceDeclarationBody]) && !hasClass ks &&
      named c .interfaceDeclarationHeader false ks && headFirst c u .interfaceDeclarationHeader ks &&
      (match headName c .interfaceDeclarationHeader ks with | some s => plain s | none => false)
  | .traitDeclaration =>
    ks.all (only c u [.traitDeclarationHeader, .traitDeclarationBody]) &&
      named c .traitDeclarationHeader false ks && headFirst c u .traitDeclarationHeader ks &&
      (match headName c .traitDeclarationHeader ks with | some s => plain s | none => false)
  | .propertyDeclaration => ks.all (only c u [.propertyElementList])
  | .propertyElementList => ks.all (only c u [.propertyElement])
  | .propertyElement => ks.all (only c u [.propertyInitialiser]) && one (fun k => (varTok k).isSome) ks
  | .classConstDeclaration => ks.all (only c u [.classConstElementList])
  | .classConstElementList => ks.all (only c u [.classConstElement])
  | .classConstElement => constFine c u false ks && one (fun k => k.isPhrase .identifier) ks &&
      one (fun k => (nameIn c k).isSome) ks
  | .constDeclaration => ks.all (only c u [.constElementList])
  | .constElement =>
    silents c u ks && one (fun k => (nameIn c k).isSome) ks && (ks.all fun k => !k.isPhrase .identifier) &&
      (match ks.findSome? (nameIn c) with | some s => plain s | none => false)
  | .documentComment | .scopedMemberName => true
  | .memberName => nameFine c u ks
  | .namespaceDefinition => false
  | _ => silents c u ks

mutual

/-- All phrases are as assumed, up to phrases in which there is nothing to find. -/
def supported : Node → Bool
  | .tok _ => true
  | .err _ => true
  | .phr ty ks => silent c u (.phr ty ks) || (fine c u ty ks && supporteds ks)

/-- The same for some nodes. -/
def supporteds : List Node → Bool
  | [] => true
  | k :: ks => supported k && supporteds ks

end

/-- A statement of a document: as assumed, and with no namespace inside; or a namespace, first its name and then
statements. -/
def statement : Node → Bool
  | .phr .namespaceDefinition ks =>
    supporteds c u ks && !(typesInAll ks).contains .namespaceDefinition && ks.all (only c u [.statementList]) &&
      (ks.filter fun k => k.isPhrase .namespaceName).length ≤ 1 &&
      ((ks.dropWhile fun k => !k.isPhrase .namespaceName).isEmpty ||
        (ks.takeWhile fun k => !k.isPhrase .namespaceName).all fun k => !k.isPhrase .statementList)
  | k => supported c u k && place c u k && !(typesIn k).contains .namespaceDefinition

/-- The trees that are considered when calls and accesses are looked for as well, or not. -/
def SupportedFor (root : Node) : Prop := (root.kids.all (statement c u)) = true

/-- The trees that are considered. -/
abbrev Supported (root : Node) : Prop := SupportedFor c false root

/-- The trees that are considered when calls and accesses are looked for as well. -/
abbrev UsesSupported (root : Node) : Prop := SupportedFor c true root

end

/-! ### what was found -/

mutual

/-- All scopes of a tree. -/
def scopeTree : Tree (Rng × List Rec) → List (Rng × List Rec)
  | .node s kids => s :: scopeList kids

/-- All scopes of some trees. -/
def scopeList : List (Tree (Rng × List Rec)) → List (Rng × List Rec)
  | [] => []
  | t :: ts => scopeTree t ++ scopeList ts

end

/-- The fact is among the symbols and scopes. -/
def Found (syms : List Sym) (scopes : List (Rng × List Rec)) : Fact → Prop
  | .var r name range => ∃ recs, (r, recs) ∈ scopes ∧ ∃ x ∈ recs, x.v.name = name ∧ x.v.range = range
  | .sym s => s ∈ syms
  | .member kind range name => ∃ s ∈ syms, s.kind = kind ∧ s.range = range ∧ s.name = name

end Verif.Analyser
