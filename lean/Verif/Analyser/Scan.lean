import Verif.Analyser.State

/-!
The analysis of a document: what `scanNode` and `scanForExpression` do at a node, constructor by constructor.

In the code a constructor calls `scanNode` and `scanForExpression` on nodes below its own. In the model an `Item` is a
node together with what these two do at it, and a constructor is given the items of its children; `Item.of` puts them
together from the leaves up.
-/

namespace Verif.Analyser
open Verif.Symbols (Tree Var Rec)

/-- A node with what `scanNode` does at it (`run`), what `scanForExpression` does at it (`expr`; the second component
says whether it returns an expression) and the items of its children. -/
inductive Item where
  | mk (node : Node) (run : St → St) (expr : St → St × Bool) (kids : List Item)

namespace Item

/-- The node. -/
def node : Item → Node
  | mk n _ _ _ => n

/-- `scanNode` at the node. -/
def run : Item → St → St
  | mk _ r _ _ => r

/-- `scanForExpression` at the node. -/
def expr : Item → St → St × Bool
  | mk _ _ e _ => e

/-- The children. -/
def kids : Item → List Item
  | mk _ _ _ ks => ks

/-- `p.Type` if the node is a phrase. -/
def type? (k : Item) : Option PType :=
  match k.node with
  | .phr ty _ => some ty
  | _ => none

/-- `child.(*phrase.Phrase)` succeeds. -/
def isPhr (k : Item) : Bool := k.type?.isSome

/-- The token if the node is one. -/
def tok? (k : Item) : Option Tok :=
  match k.node with
  | .tok t => some t
  | _ => none

end Item

/-- A loop over children. -/
def each (f : Item → St → St) (ks : List Item) (st : St) : St := ks.foldl (fun st k => f k st) st

/-- `scanForChildren` (`symbolBlock.go:143-149`). -/
def scanForChildren (n : Item) (st : St) : St := each Item.run n.kids st

/-- What a constructor for expressions returns: nil, an expression that is in the tree already, or a symbol that
`scanForExpression` has to add. -/
inductive Result where
  | nil
  | old
  | fresh (s : Sym)

/-- The key is in `nodeTypeToExprConstructor` (`expression.go:65-84`). -/
def isExprType : PType → Bool
  | .functionCallExpression | .constantAccessExpression | .scopedPropertyAccessExpression | .scopedCallExpression
  | .classConstantAccessExpression | .errorScopedAccessExpression | .objectCreationExpression | .simpleVariable
  | .propertyAccessExpression | .methodCallExpression | .foreachStatement | .encapsulatedExpression | .cloneExpression
  | .simpleAssignmentExpression | .byRefAssignmentExpression | .compoundAssignmentExpression | .instanceOfExpression
  | .instanceofTypeDesignator => true
  | _ => false

/-- The key is in `typesToScanForChildren` (`symbolBlock.go:20-78`). -/
def isTransparent : PType → Bool
  | .transparent _ | .compoundStatement | .statementList | .classConstElementList => true
  | _ => false

section
variable (c : Ctx)

/-- `isDefine` (`functionCall.go:17-33`); `strings.ToLower` is modelled for ASCII (a name that becomes `define` by
lowering a letter outside ASCII is not recognised). -/
def isDefine (ks : List Item) : Bool :=
  ks.any fun k => k.node.isName &&
    (asciiLower (c.nodeText k.node) == b!"\\define" || asciiLower (c.nodeText k.node) == b!"define")

/-- A symbol of that kind with the range and the text of a node. -/
def symOf (k : Kind) (n : Node) : Sym := ⟨k, c.range n, c.nodeText n, []⟩

/-- `newVariable` (`variable.go:22-26`) with `newVariableWithoutPushing` (`28-43`) and `pushVariable`
(`document.go:343-353`), and `addSymbol`, which every caller does with the result. -/
def newVariable (isDeclaration : Bool) (n : Node) (st : St) : St :=
  (st.record (c.nodeText n) (c.range n) (c.range n).stop isDeclaration).add (symOf c .variable n)

/-- `newVariableExpression` (`variable.go:18-20`); the symbol is added by `scanForExpression`. -/
def newVariableExpression (n : Node) (st : St) : St × Result :=
  (st.record (c.nodeText n) (c.range n) (c.range n).stop false, .fresh (symOf c .variable n))

/-- `newArgumentList` (`argumentList.go:38-81`); the ranges of the arguments are in `Symbols/Args.lean`. -/
def newArgumentList (n : Item) (st : St) : St :=
  let st := st.pushBlock (symOf c .argumentList n.node)
  let st := each Item.run (n.kids.filter Item.isPhr) st
  st.popBlock

/-- The arguments that `newArgumentList` finds, without those that are in `IgnoreTokenSet`
(`argumentList.go:21-37, 56-75`): whitespace and comments, for which `ignored` stands. -/
def argumentsOf (ignored : TokType → Bool) (ks : List Item) : List Node :=
  (ks.filter fun k =>
    match k.node with
    | .tok t => t.type != .comma && !ignored t.type
    | .phr _ _ => true
    | .err _ => false).map Item.node

/-- `analyseArgs` (`define.go:65-80`): the name of a constant. -/
def defineName (ignored : TokType → Bool) (args : Item) (st : St) : St :=
  match argumentsOf ignored args.kids with
  | .tok t :: _ =>
    if t.type = .stringLiteral then
      let s := c.tokText t
      if s.length < 2 then { st with crashed := true }
      else st.onTop fun x => { x with name := (tyOf ((s.drop 1).dropLast)).fqn }
    else st
  | _ => st

/-- `newDefine` (`define.go:24-51`). -/
def newDefine (n : Item) (st : St) : St :=
  let st := st.pushBlock ⟨.define, c.range n.node, [], []⟩
  let st := each (fun k st =>
    if k.type? = some .argumentExpressionList then defineName c c.ignored k (newArgumentList c k st) else st) n.kids st
  let st := st.onTop fun x => { x with name := ((⟨x.name, x.name, 0⟩ : Types.Ty).setNamespace st.ns).fqn }
  st.popBlock

/-- The loop of `newFunctionCall` and `newScopedMethodAccess`: the first argument list is scanned
(`functionCall.go:58-66`, `scopedMethodAccess.go:40-46`). -/
def firstArguments (ks : List Item) (st : St) : St :=
  match ks.find? fun k => k.type? = some .argumentExpressionList with
  | some k => k.run st
  | none => st

/-- `newFunctionCall` (`functionCall.go:42-68`). The symbol is added first and gets its range from the first child
after that child is scanned; here it has it from the start. -/
def newFunctionCall (n : Item) (st : St) : St × Result :=
  match n.kids with
  | [] => (st.add ⟨.functionCall, zeroRng, [], []⟩, .old)
  | k :: ks =>
    let st := st.add (symOf c .functionCall k.node)
    let st := if k.type? = some .simpleVariable then (k.expr st).1 else st
    (firstArguments (k :: ks) st, .old)

/-- `IsNameRelative` or `IsNameParent` (`relativeScope.go:10-16`). -/
def isRelativeName (s : Bytes) : Bool := s == b!"static" || s == b!"self" || s == b!"$this" || s == b!"parent"

/-- `newClassAccess` (`classAccess.go:17-46`); the caller adds the symbol `symOf c .classAccess`. -/
def newClassAccess (n : Item) (st : St) : St :=
  if isRelativeName (c.nodeText n.node) then st
  else if n.type? = some .simpleVariable then (n.expr st).1
  else st

/-- `newClassAccess` and `addSymbol`. -/
def addClassAccess (n : Item) (st : St) : St := (newClassAccess c n st).add (symOf c .classAccess n.node)

/-- The beginning of the three constructors for `::` (`scopedPropertyAccess.go:26-32`, `scopedMethodAccess.go:25-31`,
`scopedConstantAccess.go:23-29`). -/
def scopedClass (ks : List Item) (st : St) : St :=
  match ks with
  | k :: _ => if k.isPhr then addClassAccess c k st else st
  | [] => st

/-- The symbol of these constructors (`scopedPropertyAccess.go:33-38` and the like), `analyseMemberName`
(`classAccess.go:48-54`). -/
def scopedMember (k : Kind) (ks : List Item) : Sym :=
  match ks[2]? with
  | some m => ⟨k, c.range m.node, if m.type? = some .scopedMemberName then c.nodeText m.node else [], []⟩
  | none => ⟨k, zeroRng, [], []⟩

/-- `newScopedPropertyAccess` (`scopedPropertyAccess.go:20-40`) and `newScopedConstantAccess`
(`scopedConstantAccess.go:17-37`). -/
def newScopedAccess (k : Kind) (n : Item) (st : St) : St × Result :=
  (scopedClass c n.kids st, .fresh (scopedMember c k n.kids))

/-- `newScopedMethodAccess` (`scopedMethodAccess.go:19-48`). -/
def newScopedMethodAccess (n : Item) (st : St) : St × Result :=
  let st := (scopedClass c n.kids st).add (scopedMember c .scopedMethodAccess n.kids)
  (firstArguments (n.kids.drop 3) st, .old)

/-- `newPropertyAccess`, `newMethodAccess`: the first child (`propertyAccess.go:25-31`, `methodAccess.go:24-30`). -/
def memberScope (ks : List Item) (st : St) : St :=
  match ks with
  | k :: _ => if k.isPhr then (k.expr st).1 else st
  | [] => st

/-- The first loop of `readMemberName` (`memberAccess.go:11-21`): the children that are left, and the range so far. -/
def skipArrow : List Item → Rng → List Item × Rng
  | k :: ks, r =>
    match k.tok? with
    | some t =>
      if t.type = .whitespace then skipArrow ks r
      else if t.type = .arrow then skipArrow ks ⟨c.posAt (t.offset + t.length), c.posAt (t.offset + t.length)⟩
      else (k :: ks, r)
    | none => (k :: ks, r)
  | [], r => ([], r)

/-- The loop over a member name (`memberAccess.go:26-38`): the name, and the variable the name comes from. -/
def memberNameOf : List Item → Bytes → Bytes × Option Item
  | k :: ks, name =>
    if k.type? = some .simpleVariable then (c.nodeText k.node, some k)
    else
      match k.tok? with
      | some t => memberNameOf ks (if t.type = .name then c.tokText t else name)
      | none => memberNameOf ks name
  | [], name => (name, none)

/-- `readMemberName` (`memberAccess.go:10-44`): the children that are left, the name, the range. -/
def readMemberName (ks : List Item) (st : St) : St × List Item × Bytes × Rng :=
  match skipArrow c ks zeroRng with
  | ([], r) => (st, [], [], r)
  | (m :: rest, r) =>
    if m.type? = some .memberName then
      match memberNameOf c m.kids [] with
      | (name, some v) => (newVariable c false v.node st, rest, name, c.range m.node)
      | (name, none) => (st, rest, name, c.range m.node)
    else
      match m.tok? with
      | some t => if t.type = .name then (st, rest, c.tokText t, c.range m.node) else (st, rest, [], r)
      | none => (st, rest, [], r)

/-- `newPropertyAccess` (`propertyAccess.go:18-35`). -/
def newPropertyAccess (n : Item) (st : St) : St × Result :=
  let st := memberScope n.kids st
  let r := readMemberName c (n.kids.drop 1) st
  (r.1, .fresh ⟨.propertyAccess, r.2.2.2, r.2.2.1, []⟩)

/-- `newMethodAccess` (`methodAccess.go:17-45`). -/
def newMethodAccess (n : Item) (st : St) : St × Result :=
  let st := memberScope n.kids st
  let r := readMemberName c (n.kids.drop 2) st
  let st := r.1.add ⟨.methodAccess, r.2.2.2, r.2.2.1, []⟩
  (each (fun k st => if k.type? = some .argumentExpressionList then newArgumentList c k st else st) r.2.1 st, .old)

/-- `analyseNode` (`classTypeDesignator.go:43-66`): variables. The designator is a block, but what is found here is
added next to it. -/
def designatorParts (n : Item) (st : St) : St :=
  each (fun k st => if k.type? = some .simpleVariable then newVariable c false k.node st else st) n.kids st

/-- `newClassTypeDesignator` (`classTypeDesignator.go:18-41`). An object creation has one designator; if there were
more, the code would add the same symbol again. -/
def newClassTypeDesignator (n : Item) (st : St) : St × Result :=
  (each (fun k st =>
    match k.type? with
    | some .classTypeDesignator => designatorParts c k (st.add ⟨.designator, c.range k.node, [], []⟩)
    | some .argumentExpressionList => newArgumentList c k st
    | some .anonymousClassDeclaration => (k.run (st.pushBlock ⟨.designator, c.range k.node, [], []⟩)).popBlock
    | _ => st) n.kids st, .old)

/-- The loop of `newDerivedExpression` (`expression.go:127-142`) and the nodes it leaves for later. -/
def derivedLoop : List Item → List Item → St → St × List Item
  | [], later, st => (st, later)
  | k :: ks, later, st =>
    match k.type? with
    | some ty =>
      let later := if isExprType ty then later else later ++ [k]
      let r := k.expr st
      if r.2 then (r.1, later) else derivedLoop ks later r.1
    | none => derivedLoop ks (later ++ [k]) st

/-- `newDerivedExpression` (`expression.go:116-147`). -/
def newDerivedExpression (n : Item) (st : St) : St × Result :=
  let st := st.pushBlock ⟨.derived, c.range n.node, [], []⟩
  let r := derivedLoop n.kids [] st
  ((each Item.run r.2 r.1).popBlock, .old)

/-- `analyseForeachStatement` (`foreach.go:14-32`), `newForeachCollection` (`34-50`), `analyseForeachValue` (`52-67`). -/
def analyseForeach (n : Item) (st : St) : St × Result :=
  (each (fun k st =>
    match k.type? with
    | some .foreachCollection => each (fun k st => if k.isPhr then (k.expr st).1 else st) k.kids st
    | some .foreachValue =>
      each (fun k st => if k.type? = some .simpleVariable then newVariable c true k.node st else st) k.kids st
    | some .compoundStatement | some .statementList => scanForChildren k st
    | _ => st) n.kids st, .nil)

/-- `Traverser.SkipToken` (`util/traverser.go:70-77`): the children that are left. -/
def skipTok (ty : TokType) : List Item → List Item
  | k :: ks => if k.tok?.map (·.type) = some ty then skipTok ty ks else k :: ks
  | [] => []

/-- `analyseVariableAssignment` (`assignment.go:39-81`); `ks` are the children after the variable. -/
def analyseVariableAssignment (n lhs : Item) (ks : List Item) (st : St) : St :=
  let ks := skipTok .whitespace (ks.drop 1)
  let ks := skipTok (if n.type? = some .compoundAssignmentExpression then .dotEquals else .equals) ks
  let ks := skipTok .whitespace ks
  let ks := if n.type? = some .byRefAssignmentExpression then skipTok .whitespace (skipTok .ampersand ks) else ks
  let st := st.add (symOf c .variable lhs.node)
  let push := fun (st : St) => st.record (c.nodeText lhs.node) (c.range lhs.node) (c.range n.node).stop true
  match ks with
  | [] => push st
  | rhs :: _ =>
    match rhs.type? with
    | none => rhs.run (push st)
    | some ty =>
      let r := rhs.expr st
      let st := push r.1
      if r.2 then st else if isExprType ty then st else rhs.run st

/-- `processPropertyAccessAssignment` (`assignment.go:83-124`). -/
def processPropertyAssignment (lhs : Item) (ks : List Item) (st : St) : St :=
  let st := (lhs.expr st).1
  match skipTok .whitespace (skipTok .equals (skipTok .whitespace ks)) with
  | [] => st
  | rhs :: _ =>
    if rhs.isPhr then
      let r := rhs.expr st
      if r.2 then r.1 else rhs.run r.1
    else rhs.run st

/-- `newAssignment` (`assignment.go:11-37`). -/
def newAssignment (n : Item) (st : St) : St × Result :=
  match n.kids with
  | [] => (st, .nil)
  | k :: ks =>
    if k.type? = some .simpleVariable then (analyseVariableAssignment c n k ks st, .nil)
    else if k.type? = some .propertyAccessExpression ∧ st.top.sym.kind = .method ∧
        asciiLower st.top.sym.name = b!"__construct" then
      (processPropertyAssignment k ks st, .nil)
    else
      let st := if k.isPhr then k.run st else st
      (each Item.run ks st, .nil)

/-- `newInstanceOfTypeDesignator` (`binaryExpression.go:9-22`). -/
def newInstanceOfTypeDesignator (n : Item) (st : St) : St × Result :=
  match n.kids.find? fun k => k.node.isName with
  | some k => (newClassAccess c k st, .fresh (symOf c .classAccess k.node))
  | none => (st, .nil)

/-- `processInstanceOfExpression` (`binaryExpression.go:24-41`). -/
def processInstanceOf (n : Item) (st : St) : St × Result :=
  match n.kids with
  | [] => (st, .nil)
  | lhs :: ks =>
    match skipTok .whitespace (skipTok .instanceOf (skipTok .whitespace ks)) with
    | [] => (st, .nil)
    | rhs :: _ =>
      if lhs.isPhr && rhs.isPhr then ((rhs.expr (lhs.expr st).1).1, .nil) else (st, .nil)

/-- `nodeTypeToExprConstructor` (`expression.go:65-84`). -/
def construct (n : Item) (st : St) : St × Result :=
  match n.type? with
  | some .functionCallExpression => newFunctionCall c n st
  | some .constantAccessExpression => (st, .fresh (symOf c .constantAccess n.node))
  | some .scopedPropertyAccessExpression => newScopedAccess c .scopedPropertyAccess n st
  | some .scopedCallExpression => newScopedMethodAccess c n st
  | some .classConstantAccessExpression => newScopedAccess c .scopedConstantAccess n st
  | some .errorScopedAccessExpression => newScopedAccess c .scopedConstantAccess n st
  | some .objectCreationExpression => newClassTypeDesignator c n st
  | some .simpleVariable => newVariableExpression c n.node st
  | some .propertyAccessExpression => newPropertyAccess c n st
  | some .methodCallExpression => newMethodAccess c n st
  | some .foreachStatement => analyseForeach c n st
  | some .encapsulatedExpression => newDerivedExpression c n st
  | some .cloneExpression => newDerivedExpression c n st
  | some .simpleAssignmentExpression => newAssignment c n st
  | some .byRefAssignmentExpression => newAssignment c n st
  | some .compoundAssignmentExpression => newAssignment c n st
  | some .instanceOfExpression => processInstanceOf n st
  | some .instanceofTypeDesignator => newInstanceOfTypeDesignator c n st
  | _ => (st, .nil)

/-- `scanForExpression` (`expression.go:90-105`). -/
def scanForExpression (n : Item) (st : St) : St × Bool :=
  match construct c n st with
  | (st, .nil) => (st, false)
  | (st, .old) => (st, true)
  | (st, .fresh s) => (st.add s, true)

/-! ### declarations -/

/-- `newParameter` (`parameter.go:23-76`): the symbols in it, its name, and the range of its name. -/
def newParameter (n : Item) (st : St) : St × Bytes × Rng :=
  (each (fun k st =>
      match k.type? with
      | some .typeDeclaration => st.add (symOf c .typeDeclaration k.node)
      | some .constantAccessExpression => st.add (symOf c .constantAccess k.node)
      | _ => st) n.kids st,
    n.kids.foldl (fun r k =>
      match k.tok? with
      | some t => if t.type = .variableName then (c.tokText t, c.range k.node) else r
      | none => r) ([], c.range n.node))

/-- `analyseParameterDeclarationList` (`function.go:86-96`, `method.go:117-127`, `anonymousFunction.go:66-76`), with the
parameters so far. -/
def parameterList (ks : List Item) (r : St × List (Bytes × Rng)) : St × List (Bytes × Rng) :=
  ks.foldl (fun r k =>
    if k.type? = some .parameterDeclaration then
      let p := newParameter c k r.1
      (p.1, r.2 ++ [p.2])
    else r) r

/-- The parameters become variables of the scope (`function.go:50-53`, `method.go:80-83`). -/
def recordParameters (params : List (Bytes × Rng)) (start : Pos) (st : St) : St :=
  params.foldl (fun st p => st.record p.1 p.2 start true) st

/-- The same, from the end of a header, which needs a last token (`util.LastToken(p)` is dereferenced). -/
def recordParametersAt (params : List (Bytes × Rng)) (h : Item) (st : St) : St :=
  match params, lastToken h.node with
  | [], _ => st
  | _ :: _, none => { st with crashed := true }
  | _ :: _, some t => recordParameters params (c.posAt (t.offset + t.length)) st

/-- `Function.analyseHeader` (`function.go:64-84`). -/
def functionHeader (ks : List Item) (r : St × List (Bytes × Rng)) : St × List (Bytes × Rng) :=
  ks.foldl (fun r k =>
    match k.tok?, k.type? with
    | some t, _ => if t.type = .name then (r.1.onTop fun s => { s with name := (tyOf (c.tokText t)).fqn }, r.2) else r
    | none, some .parameterDeclarationList => parameterList c k.kids r
    | none, some .identifier => (r.1.onTop fun s => { s with name := (tyOf (c.nodeText k.node)).fqn }, r.2)
    | _, _ => r) r

/-- `newFunction` (`function.go:28-62`). -/
def newFunction (n : Item) (st : St) : St :=
  let st := st.pushVars (c.range n.node)
  let st := st.pushBlock ⟨.function, c.range n.node, [], []⟩
  let r := n.kids.foldl (fun r k =>
    match k.type? with
    | some .functionDeclarationHeader =>
      let r := functionHeader c k.kids r
      (recordParametersAt c r.2 k r.1, r.2)
    | some .functionDeclarationBody => (scanForChildren k r.1, r.2)
    | _ => r) (st, [])
  let st := r.1
  let st := st.onTop fun s => { s with name := ((⟨s.name, s.name, 0⟩ : Types.Ty).setNamespace st.ns).fqn }
  st.popVars.popBlock

/-- `Method.analyseHeader` (`method.go:93-115`). -/
def methodHeader (ks : List Item) (r : St × List (Bytes × Rng)) : St × List (Bytes × Rng) :=
  ks.foldl (fun r k =>
    match k.tok?, k.type? with
    | some t, _ => if t.type = .name then (r.1.onTop fun s => { s with name := c.tokText t }, r.2) else r
    | none, some .parameterDeclarationList => parameterList c k.kids r
    | none, some .identifier => (r.1.onTop fun s => { s with name := c.nodeText k.node }, r.2)
    | _, _ => r) r

/-- The FQN of the class a method or a constant belongs to (`method.go:138-148`, `classConst.go:70-80`):
`getLastClass` (`document.go:357-362`). -/
def St.lastClassFQN (st : St) : Bytes :=
  match st.classes.getLast? with
  | some x => (x.name.setNamespace st.ns).fqn
  | none => []

/-- `newMethod` (`method.go:129-150`) with `analyseMethodNode` (`60-91`). -/
def newMethod (n : Item) (st : St) : St :=
  let st := st.pushVars (c.range n.node)
  let st := st.pushBlock ⟨.method, c.range n.node, [], []⟩
  let r := n.kids.foldl (fun r k =>
    match k.type? with
    | some .methodDeclarationHeader =>
      let r := methodHeader c k.kids r
      (recordParametersAt c r.2 k r.1, r.2)
    | some .methodDeclarationBody => (scanForChildren k r.1, r.2)
    | _ => r) (st, [])
  let st := r.1
  let st := st.onTop fun s => { s with scope := st.lastClassFQN }
  st.popVars.popBlock

/-- `newPropertyFromPhpDocTag` (`property.go:29-45`) and `newMethodFromPhpDocTag` (`method.go:36-58`). -/
def docMember (range : Rng) (scope : Bytes) (m : Bool × Bytes) : Sym :=
  if m.1 then ⟨.docMethod, range, m.2, scope⟩
  else if m.2 = [] then ⟨.nilProperty, range, [], []⟩
  else ⟨.docProperty, range, m.2, scope⟩

/-- `Class.extends` (`class.go:140-163`): the last name is added. -/
def classExtends (ks : List Item) (st : St) : St :=
  match (ks.filter fun k => k.node.isName).getLast? with
  | some k => addClassAccess c k st
  | none => st

/-- `Class.implements` (`class.go:165-189`): the names in the first list. -/
def classImplements (ks : List Item) (st : St) : St :=
  match ks.find? fun k => k.type? = some .qualifiedNameList with
  | some l => each (fun k st => if k.node.isName then st.add (symOf c .interfaceAccess k.node) else st) l.kids st
  | none => st

/-- `Class.analyseHeader` (`class.go:91-138`). -/
def classHeader (i : Nat) (doc : Option (Rng × List (Bool × Bytes))) (ks : List Item) (st : St) : St :=
  each (fun k st =>
    match k.tok?, k.type? with
    | some t, _ =>
      if t.type = .name then
        let name := (tyOf (c.tokText t)).setNamespace st.ns
        let st := (st.nameClass i name).onTop fun s => { s with name := name.fqn }
        match doc with
        | some d => d.2.foldl (fun st m => st.add (docMember d.1 name.fqn m)) st
        | none => st
      else st
    | none, some .argumentExpressionList => k.run st
    | none, some .classBaseClause => classExtends c k.kids st
    | none, some .classInterfaceClause => classImplements c k.kids st
    | _, _ => st) ks st

/-- `newClass` (`class.go:63-89`). -/
def newClass (n : Item) (st : St) : St :=
  let r := st.addClass .class_ ⟨[], [], 0⟩
  let doc := r.1.validDoc (c.range n.node)
  let st := r.1.pushBlock ⟨.class_, c.range n.node, [], []⟩
  let st := each (fun k st =>
    match k.type? with
    | some .classDeclarationHeader => classHeader c r.2 doc k.kids st
    | some .classDeclarationBody => scanForChildren k st
    | _ => st) n.kids st
  st.popBlock

/-- `newAnonymousClass` (`anonymousClass.go:11-40`); `c.anonName` stands for the name made from the document's URI and
the position. -/
def newAnonymousClass (n : Item) (st : St) : St :=
  let name := (tyOf (c.anonName (c.range n.node).start)).setNamespace st.ns
  let r := st.addClass .class_ name
  let doc := r.1.validDoc (c.range n.node)
  let st := r.1.pushBlock ⟨.class_, c.range n.node, name.fqn, []⟩
  let st := each (fun k st =>
    match k.type? with
    | some .anonymousClassDeclarationHeader => classHeader c r.2 doc k.kids st
    | some .classDeclarationBody => scanForChildren k st
    | _ => st) n.kids st
  st.popBlock

/-- `Interface.analyseHeader` (`interface.go:53-75`) and `Trait.analyseHeader` (`trait.go:46-58`): the name, which a
trait's header completes with the namespace at once. -/
def nameHeader (i : Nat) (complete : Types.Ty → Bytes → Types.Ty) (ks : List Item) (st : St) : St :=
  each (fun k st =>
    match k.tok? with
    | some t =>
      if t.type = .name then
        let name := complete (tyOf (c.tokText t)) st.ns
        (st.nameClass i name).onTop fun s => { s with name := name.fqn }
      else st
    | none => st) ks st

/-- `newInterface` (`interface.go:27-51`); the names the interface extends are not symbols. -/
def newInterface (n : Item) (st : St) : St :=
  let r := st.addClass .interface_ ⟨[], [], 0⟩
  let st := r.1.pushBlock ⟨.interface_, c.range n.node, [], []⟩
  let st := each (fun k st =>
    match k.type? with
    | some .interfaceDeclarationHeader => nameHeader c r.2 (fun t _ => t) k.kids st
    | some .interfaceDeclarationBody => scanForChildren k st
    | _ => st) n.kids st
  let name : Types.Ty := ((st.classes[r.2]?.map fun (x : Cls) => x.name).getD ⟨[], [], 0⟩).setNamespace st.ns
  let st := (st.nameClass r.2 name).onTop fun s => { s with name := name.fqn }
  st.popBlock

/-- `newTrait` (`trait.go:22-44`). -/
def newTrait (n : Item) (st : St) : St :=
  let r := st.addClass .trait_ ⟨[], [], 0⟩
  let st := r.1.pushBlock ⟨.trait_, c.range n.node, [], []⟩
  let st := each (fun k st =>
    match k.type? with
    | some .traitDeclarationHeader => nameHeader c r.2 (fun t ns => t.setNamespace ns) k.kids st
    | some .traitDeclarationBody => scanForChildren k st
    | _ => st) n.kids st
  st.popBlock

/-- `analyseUseClause` (`anonymousFunction.go:78-117`): a variable in `use (...)` is a variable of the function and a
use of the variable of the scope around it. -/
def closureUse (ks : List Item) (st : St) : St :=
  each (fun k st =>
    if k.type? = some .closureUseList then
      each (fun k st =>
        if k.type? = some .anonymousFunctionUseVariable then
          let st := st.record (c.nodeText k.node) (c.range k.node) (c.range k.node).stop true
          let st := st.recordBelow (c.nodeText k.node) (c.range k.node) (c.range k.node).stop false
          st.add (symOf c .variable k.node)
        else st) k.kids st
    else st) ks st

/-- `AnonymousFunction.analyseHeader` (`anonymousFunction.go:49-64`). -/
def anonymousHeader (ks : List Item) (r : St × List (Bytes × Rng)) : St × List (Bytes × Rng) :=
  ks.foldl (fun r k =>
    match k.type? with
    | some .parameterDeclarationList => parameterList c k.kids r
    | some .anonymousFunctionUseClause => (closureUse c k.kids r.1, r.2)
    | _ => r) r

/-- `newAnonymousFunction` (`anonymousFunction.go:20-47`). -/
def newAnonymousFunction (n : Item) (st : St) : St :=
  let st := st.pushVars (c.range n.node)
  let st := st.pushBlock ⟨.anonymousFunction, c.range n.node, [], []⟩
  let r := n.kids.foldl (fun r k =>
    match k.type? with
    | some .anonymousFunctionHeader =>
      let r := anonymousHeader c k.kids r
      (recordParameters r.2 (c.range k.node).stop r.1, r.2)
    | some .functionDeclarationBody => (scanForChildren k r.1, r.2)
    | _ => r) (st, [])
  r.1.popVars.popBlock

/-- `newProperty` (`property.go:77-109`): a property gets the class when it begins, an interface is no class for it. -/
def newProperty (n : Item) (st : St) : St :=
  let scope := match st.classes.getLast? with
    | some x => if x.kind = .interface_ then [] else x.name.fqn
    | none => []
  let name := n.kids.foldl (fun r k =>
    match k.tok? with
    | some t => if t.type = .variableName then c.tokText t else r
    | none => r) []
  let st := each (fun k st => if k.type? = some .propertyInitialiser then scanForChildren k st else st) n.kids st
  st.add ⟨.property, c.range n.node, name, scope⟩

/-- `newPropertyDeclaration` (`property.go:47-64`) and `newPropertyList` (`66-75`). -/
def newPropertyDeclaration (n : Item) (st : St) : St :=
  each (fun k st =>
    if k.type? = some .propertyElementList then
      each (fun k st => if k.type? = some .propertyElement then newProperty c k st else st) k.kids st
    else st) n.kids st

/-- The loop of `newClassConst` (`classConst.go:81-106`): whether `=` has been seen, and the name so far. -/
def classConstLoop : List Item → Bool → Bytes → St → St × Bytes
  | [], _, name, st => (st, name)
  | k :: ks, hasEquals, name, st =>
    match k.tok? with
    | some t => classConstLoop ks (hasEquals || t.type = .equals) name st
    | none =>
      match k.type? with
      | some ty =>
        if hasEquals then classConstLoop ks hasEquals name (k.run st)
        else classConstLoop ks hasEquals (if ty = .identifier then c.nodeText k.node else name) st
      | none => classConstLoop ks hasEquals name st

/-- `newClassConst` (`classConst.go:58-108`). -/
def newClassConst (n : Item) (st : St) : St :=
  let scope := st.lastClassFQN
  let r := classConstLoop c n.kids false [] st
  r.1.add ⟨.classConst, c.range n.node, r.2, scope⟩

/-- `newClassConstDeclaration` (`classConst.go:30-46`) and `newClassConstList` (`48-56`). -/
def newClassConstDeclaration (n : Item) (st : St) : St :=
  each (fun k st =>
    if k.type? = some .classConstElementList then
      each (fun k st => if k.type? = some .classConstElement then newClassConst c k st else st) k.kids st
    else st) n.kids st

/-- `newConstDeclaration` (`const.go:20-30`). -/
def newConstDeclaration (n : Item) (st : St) : St :=
  each (fun k st => if k.type? = some .constElementList then scanForChildren k st else st) n.kids st

/-- `newConst` (`const.go:32-67`): the value is kept as text, nothing in it is scanned. -/
def newConst (n : Item) (st : St) : St :=
  let name := n.kids.foldl (fun r k =>
    match k.tok? with
    | some t => if t.type = TokType.name then tyOf (c.tokText t) else r
    | none => r) ⟨[], [], 0⟩
  st.add ⟨.const_, c.range n.node, (name.setNamespace st.ns).fqn, []⟩

/-- `processTraitUseClause` (`traitAccess.go:15-28`) and `traitAnalyseQualifiedNameList` (`30-49`). -/
def processTraitUse (n : Item) (st : St) : St :=
  each (fun k st =>
    if k.type? = some .qualifiedNameList then
      each (fun k st => if k.node.isName then st.add (symOf c .traitAccess k.node) else st) k.kids st
    else st) n.kids st

/-- `processCatchNameList` (`try.go:8-20`). -/
def processCatchNames (n : Item) (st : St) : St :=
  each (fun k st => if k.node.isName then addClassAccess c k st else st) n.kids st

/-- `newGlobalDeclaration` (`globalVariable.go:18-31`), `analyseVariableNameList` (`33-43`), `newGlobalVariable`
(`45-59`). -/
def newGlobalDeclaration (n : Item) (st : St) : St :=
  each (fun k st =>
    if k.type? = some .variableNameList then
      each (fun k st =>
        if k.type? = some .simpleVariable then
          (st.record (c.nodeText k.node) (c.range k.node) (c.range k.node).stop true).add
            (symOf c .globalVariable k.node)
        else st) k.kids st
    else st) n.kids st

/-- `newNamespace` (`namespace.go:14-32`). -/
def newNamespace (n : Item) (st : St) : St :=
  each (fun k st =>
    match k.type? with
    | some .namespaceName => { st with ns := c.nodeText k.node }
    | some .statementList => scanForChildren k st
    | _ => st) n.kids { st with ns := [] }

/-- `processTypeNode` (`phpDocComment.go:34-47`): a type that is a name becomes a symbol. -/
def docType (n : Item) (st : St) : St :=
  match n.kids with
  | k :: _ =>
    if c.nodeText n.node ≠ [] ∧ k.node.isName = true then st.add (symOf c .typeDeclaration n.node) else st
  | [] => st

/-- A child of a tag that is a type or a union of types (`processTypeUnionNode`, `phpDocComment.go:49-60`). -/
def docTypes (k : Item) (st : St) : St :=
  match k.type? with
  | some .typeDeclaration => docType c k st
  | some .typeUnion => each (fun k st => if k.type? = some .typeDeclaration then docType c k st else st) k.kids st
  | _ => st

/-- `getTagName` (`phpDocComment.go:321-330`). -/
def docTagName (ks : List Item) : Bytes :=
  match ks.find? fun k => k.tok?.map (·.type) = some .docTagName with
  | some k => c.nodeText k.node
  | none => []

/-- The last variable of a tag (`phpDocComment.go:80-83`). -/
def docVariable (ks : List Item) : Bytes :=
  ks.foldl (fun r k =>
    match k.tok? with
    | some t => if t.type = .variableName then c.tokText t else r
    | none => r) []

/-- The last identifier of a tag (`phpDocComment.go:190-192`). -/
def docIdentifier (ks : List Item) : Bytes :=
  ks.foldl (fun r k => if k.type? = some .identifier then c.nodeText k.node else r) []

/-- The symbols that `parseTag` (`phpDocComment.go:332-353`) makes on the way: types, and for `@method` also those of the
parameters (`processParamList`, `methodParam`, `153-168, 221-247`). `@deprecated` and unknown tags have none. -/
def docTagSymbols (n : Item) (st : St) : St :=
  let tag := docTagName c n.kids
  if tag = b!"@param" ∨ tag = b!"@property" ∨ tag = b!"@property-read" ∨ tag = b!"@property-write" ∨ tag = b!"@var" ∨
      tag = b!"@return" ∨ tag = b!"@global" then
    each (docTypes c) n.kids st
  else if tag = b!"@method" then
    each (fun k st =>
      if k.type? = some .parameterDeclarationList then
        each (fun k st => if k.type? = some .parameterDeclaration then each (docTypes c) k.kids st else st) k.kids st
      else docTypes c k st) n.kids st
  else st

/-- The name in a tag, if `parseTag` accepts the tag: `@property` tags need a name (`phpDocComment.go:333-336`). -/
def docTagMember (n : Item) : Option (Bytes × Bytes) :=
  let tag := docTagName c n.kids
  if tag = b!"@property" ∨ tag = b!"@property-read" ∨ tag = b!"@property-write" then
    if docVariable c n.kids = [] then none else some (tag, docVariable c n.kids)
  else if tag = b!"@method" then some (tag, docIdentifier c n.kids)
  else none

/-- The phrase is a tag (`phpDocComment.go:434`). -/
def Item.isDocTag (k : Item) : Bool :=
  match k.type? with
  | some (.docTag _) => true
  | _ => false

/-- The members that a doc comment declares, in the order in which `class.go:103-118` adds them (`prefillTags`,
`phpDocComment.go:379-388`): whether it is a method, and the name. -/
def docMembers (ks : List Item) : List (Bool × Bytes) :=
  let tags := (ks.filter Item.isDocTag).filterMap (docTagMember c)
  ((tags.filter fun t => t.1 == b!"@property") ++ (tags.filter fun t => t.1 == b!"@property-read") ++
    (tags.filter fun t => t.1 == b!"@property-write")).map (fun t => (false, t.2)) ++
  (tags.filter fun t => t.1 == b!"@method").map (fun t => (true, t.2))

/-- `newPhpDocFromNode` (`phpDocComment.go:419-443`); the comment becomes the last doc comment (`document.go:276-279`).
Descriptions, types and parameters in tags are not modelled. -/
def newPhpDoc (n : Item) (st : St) : St :=
  let st := each (fun k st => if k.isDocTag then docTagSymbols c k st else st) n.kids st
  { st with doc := some (c.range n.node, docMembers c n.kids) }

/-- `symbolConstructorMap` (`symbolBlock.go:86-106`) and `addSymbol` (`136-138`): `newFunction`, `newConst` and
`newAnonymousFunction` return their symbol, the others add theirs themselves, `newArgumentList` is not added again
(`125-128`); a doc comment becomes the last doc comment (`document.go:276-279`). `NamespaceUseDeclaration` changes the
import table only (see C38). -/
def declare (n : Item) (st : St) : St :=
  match n.type? with
  | some .interfaceDeclaration => newInterface c n st
  | some .classDeclaration => newClass c n st
  | some .classConstDeclaration => newClassConstDeclaration c n st
  | some .propertyDeclaration => newPropertyDeclaration c n st
  | some .methodDeclaration => newMethod c n st
  | some .traitUseClause => processTraitUse c n st
  | some .functionDeclaration => newFunction c n st
  | some .constDeclaration => newConstDeclaration n st
  | some .constElement => newConst c n st
  | some .argumentExpressionList => newArgumentList c n st
  | some .traitDeclaration => newTrait c n st
  | some .functionCallExpression => if isDefine c n.kids then newDefine c n st else st
  | some .globalDeclaration => newGlobalDeclaration c n st
  | some .anonymousFunctionCreationExpression => newAnonymousFunction c n st
  | some .anonymousClassDeclaration => newAnonymousClass c n st
  | some .documentComment => newPhpDoc c n st
  | some .catchNameList => processCatchNames c n st
  | _ => st

/-- `scanNode` (`symbolBlock.go:108-141`), with `newDirectoryConstantAccess` (`constantAccess.go:14-22`). -/
def scanNode (n : Item) (st : St) : St :=
  match n.node with
  | .phr ty _ =>
    if ty = .namespaceDefinition then newNamespace c n st
    else
      let st := if isDefine c n.kids then st else (scanForExpression c n st).1
      if isTransparent ty then scanForChildren n st else declare c n st
  | .tok t => if t.type = .directoryConstant then st.add (symOf c .constantAccess n.node) else st
  | .err _ => st

mutual

/-- A node with what the analysis does at it. -/
def Item.of : Node → Item
  | .tok t =>
    let n := Item.mk (.tok t) id (fun st => (st, false)) []
    .mk (.tok t) (scanNode c n) (fun st => (st, false)) []
  | .err t => .mk (.err t) id (fun st => (st, false)) []
  | .phr ty kids =>
    let n := Item.mk (.phr ty kids) id (fun st => (st, false)) (Item.ofKids kids)
    .mk (.phr ty kids) (scanNode c n) (scanForExpression c n) (Item.ofKids kids)

/-- The children. -/
def Item.ofKids : List Node → List Item
  | [] => []
  | k :: ks => Item.of k :: Item.ofKids ks

end

/-- A document before it is analysed: no symbols, the scope of the whole document (`document.go:99`). -/
def St.start (root : Node) : St :=
  ⟨⟨⟨.class_, c.range root, [], []⟩, []⟩, [], ⟨c.range root, [], []⟩, [], [], none, [], false⟩

/-- `Load` (`document.go:92-104`). -/
def analyse (root : Node) : St := scanForChildren (Item.of c root) (St.start c root)

/-- The symbols of the document. -/
def symbolsOf (root : Node) : List (Tree Sym) := (analyse c root).top.kids

/-- The scopes of the document. -/
def scopesOf (root : Node) : Tree (Rng × List Rec) :=
  let v := (analyse c root).vars
  .node (v.range, v.recs) v.kids

end

end Verif.Analyser
