import Verif.Common.Position
import Verif.Common.Strings

/-!
Syntax trees as the parser delivers them (package `go-phpparser`, not part of the repository), and the helpers of
`util/parser.go` and `analysis/document.go` on them.
-/

namespace Verif.Analyser

/-- `lexer.TokenType`, as far as the analysis tells tokens apart. -/
inductive TokType where
  | name | variableName | whitespace | equals | dotEquals | ampersand | arrow | comma | stringLiteral
  | directoryConstant | instanceOf
  /-- the names of tags in doc comments, between `DocumentCommentTagNameAnchorStart` and `…End` -/
  | docTagName
  /-- any other token, by number -/
  | other (n : Nat)
  deriving DecidableEq, Repr

/-- `lexer.Token`. -/
structure Tok where
  type : TokType
  offset : Nat
  length : Nat
  deriving DecidableEq, Repr

/-- `phrase.PhraseType`, as far as the analysis tells phrases apart. `transparent n` stands for the types listed in
`typesToScanForChildren` (`symbolBlock.go:20-78`) that have no other meaning for the analysis (`ExpressionStatement`,
`IfStatement`, `AdditiveExpression` and so on), `opaque n` for the types the analysis does not mention (`ListIntrinsic`,
`FinallyClause`, `CoalesceExpression` and so on). -/
inductive PType where
  | transparent (n : Nat)
  | opaque (n : Nat)
  -- in `typesToScanForChildren` and mentioned elsewhere
  | compoundStatement | statementList | classConstElementList
  -- declarations
  | namespaceDefinition | namespaceName
  | interfaceDeclaration | interfaceDeclarationHeader | interfaceDeclarationBody
  | classDeclaration | classDeclarationHeader | classDeclarationBody | classBaseClause | classInterfaceClause
  | traitDeclaration | traitDeclarationHeader | traitDeclarationBody
  | anonymousClassDeclaration | anonymousClassDeclarationHeader
  | classConstDeclaration | classConstElement | propertyDeclaration | propertyElementList | propertyElement
  | propertyInitialiser | methodDeclaration | methodDeclarationHeader | methodDeclarationBody | traitUseClause
  | functionDeclaration | functionDeclarationHeader | functionDeclarationBody | parameterDeclarationList
  | parameterDeclaration | constDeclaration | constElementList | constElement | globalDeclaration | variableNameList
  | anonymousFunctionCreationExpression | anonymousFunctionHeader | anonymousFunctionUseClause | closureUseList
  | anonymousFunctionUseVariable | documentComment | catchNameList
  | identifier | qualifiedName | fullyQualifiedName | qualifiedNameList | typeDeclaration | memberName
  | scopedMemberName | argumentExpressionList
  -- expressions
  | functionCallExpression | constantAccessExpression | scopedPropertyAccessExpression | scopedCallExpression
  | classConstantAccessExpression | errorScopedAccessExpression | objectCreationExpression | simpleVariable
  | propertyAccessExpression | methodCallExpression | foreachStatement | encapsulatedExpression | cloneExpression
  | simpleAssignmentExpression | byRefAssignmentExpression | compoundAssignmentExpression | instanceOfExpression
  | instanceofTypeDesignator | classTypeDesignator | foreachCollection | foreachValue
  -- doc comments: `docTag` stands for the types between `DocumentCommentTagAnchorStart` and `…End`
  | docTag (n : Nat) | typeUnion
  deriving DecidableEq, Repr

/-- `phrase.AstNode`: a token, a phrase or a `ParseError`, of which the analysis looks at the unexpected token only. -/
inductive Node where
  | tok (t : Tok)
  | phr (ty : PType) (kids : List Node)
  | err (unexpected : Tok)
  deriving Repr

mutual

/-- `FirstToken` (`util/parser.go:9-20`). -/
def firstToken : Node → Option Tok
  | .tok t => some t
  | .err t => some t
  | .phr _ kids => firstOfKids kids

/-- `p.Children[0]`, if there is one. -/
def firstOfKids : List Node → Option Tok
  | [] => none
  | k :: _ => firstToken k

end

mutual

/-- `LastToken` (`util/parser.go:23-34`). -/
def lastToken : Node → Option Tok
  | .tok t => some t
  | .err t => some t
  | .phr _ kids => lastOfKids kids

/-- `p.Children[len(p.Children)-1]`, if there is one. -/
def lastOfKids : List Node → Option Tok
  | [] => none
  | [k] => lastToken k
  | _ :: k :: ks => lastOfKids (k :: ks)

end

/-- The document, as far as the analysis reads it: the text, where an offset is (`positionAt`, see C22). `ignored` says
which tokens are in `IgnoreTokenSet` (`argumentList.go:21-37`), `anonName` gives the name of an anonymous class
(`anonymousClass.go:15-16`), made from a hash of the document's URI and the position. -/
structure Ctx where
  text : Bytes
  posAt : Nat → Pos
  ignored : TokType → Bool
  anonName : Pos → Bytes

/-- The zero value of `protocol.Range`. -/
def zeroRng : Rng := ⟨⟨0, 0⟩, ⟨0, 0⟩⟩

/-- `NodeRange` (`document.go:213-222`). -/
def Ctx.range (c : Ctx) (n : Node) : Rng :=
  match firstToken n, lastToken n with
  | some f, some l => ⟨c.posAt f.offset, c.posAt (l.offset + l.length)⟩
  | _, _ => zeroRng

/-- `NodeRange` of a node that may be nil. -/
def Ctx.rangeOpt (c : Ctx) : Option Node → Rng
  | some n => c.range n
  | none => zeroRng

/-- The bytes from `a` to `b`. -/
def Ctx.slice (c : Ctx) (a b : Nat) : Bytes := (c.text.take b).drop a

/-- `getTokenText` (`document.go:253-255`). A token outside of the text would panic; tokens come from the text. -/
def Ctx.tokText (c : Ctx) (t : Tok) : Bytes := c.slice t.offset (t.offset + t.length)

/-- `GetNodeText` (`document.go:265-273`) with `getPhraseText` (`257-263`). -/
def Ctx.nodeText (c : Ctx) : Node → Bytes
  | .tok t => c.tokText t
  | .err _ => []
  | .phr ty kids =>
    match firstToken (.phr ty kids), lastToken (.phr ty kids) with
    | some f, some l => c.slice f.offset (l.offset + l.length)
    | _, _ => []

/-- `child.(*phrase.Phrase)` with `p.Type == ty`. -/
def Node.isPhrase (ty : PType) : Node → Bool
  | .phr t _ => t = ty
  | _ => false

/-- `QualifiedName` or `FullyQualifiedName`. -/
def Node.isName : Node → Bool
  | .phr .qualifiedName _ => true
  | .phr .fullyQualifiedName _ => true
  | _ => false

/-- The children of a phrase. -/
def Node.kids : Node → List Node
  | .phr _ ks => ks
  | _ => []

end Verif.Analyser
