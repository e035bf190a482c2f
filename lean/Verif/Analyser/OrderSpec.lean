import Verif.Analyser.Scan

/-!
What it means that symbols, variables and scopes are in the order of the text, and which syntax trees are considered.
-/

namespace Verif.Analyser
open Verif.Symbols (Tree Var Rec)
open Verif.Position (Before)

/-- `p` is not after `q`. -/
def Le (p q : Pos) : Prop := ¬ Before q p

mutual

/-- The tokens of a node in the order of the tree; a parse error has the token it names. -/
def toks : Node → List Tok
  | .tok t => [t]
  | .err t => [t]
  | .phr _ kids => toksOf kids

/-- The tokens of some nodes. -/
def toksOf : List Node → List Tok
  | [] => []
  | k :: ks => toks k ++ toksOf ks

end

/-- The tokens stand one after the other between the offsets `a` and `b`. -/
def Chain (a b : Nat) : List Tok → Prop
  | [] => a ≤ b
  | t :: ts => a ≤ t.offset ∧ Chain (t.offset + t.length) b ts

/-- After an expression (and spaces) there is `->` or the name of a member. -/
def hasMember : List Node → Bool
  | .tok t :: ks => if t.type = .whitespace then hasMember ks else t.type = .arrow || t.type = .name
  | .phr ty _ :: _ => ty = .memberName
  | _ => false

/-- A node at which the analysis may find something: a phrase or the token `__DIR__`. -/
def Node.active : Node → Bool
  | .tok t => t.type = .directoryConstant
  | .phr _ _ => true
  | .err _ => false

/-- Assignments, `instanceof`, `foreach`. -/
def Node.noValue : Node → Bool
  | .phr .simpleAssignmentExpression _ => true
  | .phr .byRefAssignmentExpression _ => true
  | .phr .compoundAssignmentExpression _ => true
  | .phr .instanceOfExpression _ => true
  | .phr .instanceofTypeDesignator _ => true
  | .phr .foreachStatement _ => true
  | _ => false

/-- What is assumed about a phrase: it is not empty; there is something on both sides of `::`; a member access has its
arrow or its member; a variable that names a member is all there is of the name; parentheses and `clone` have one
operand; no value is assigned to a property that is itself an assignment, an `instanceof` or a `foreach` (such a value
is analysed twice in a constructor); and variables and parameters consist of tokens that are not empty. -/
structure Regular (ty : PType) (kids : List Node) : Prop where
  full : kids ≠ []
  sides : (ty = .scopedPropertyAccessExpression ∨ ty = .scopedCallExpression ∨ ty = .classConstantAccessExpression ∨
    ty = .errorScopedAccessExpression) → 3 ≤ kids.length
  property : ty = .propertyAccessExpression → hasMember (kids.drop 1) = true
  method : ty = .methodCallExpression → hasMember (kids.drop 2) = true
  memberName : ty = .memberName → ∀ k ∈ kids.tail, k.isPhrase .simpleVariable = false
  operand : (ty = .encapsulatedExpression ∨ ty = .cloneExpression) → (kids.filter Node.active).length ≤ 1
  assigned : (ty = .simpleAssignmentExpression ∨ ty = .byRefAssignmentExpression ∨
      ty = .compoundAssignmentExpression) → (∃ k ∈ kids.head?, k.isPhrase .propertyAccessExpression = true) →
    ∀ k ∈ kids.tail, k.noValue = false
  extent : (ty = .simpleVariable ∨ ty = .anonymousFunctionUseVariable ∨ ty = .parameterDeclaration) →
    ∀ t ∈ toksOf kids, 0 < t.length

mutual

/-- A syntax tree all of whose phrases are regular; a string in quotes has its two quotes. -/
def WF (c : Ctx) : Node → Prop
  | .tok t => t.type = .stringLiteral → 2 ≤ (c.tokText t).length
  | .err _ => True
  | .phr ty kids => Regular ty kids ∧ WFs c kids

/-- The same for some nodes. -/
def WFs (c : Ctx) : List Node → Prop
  | [] => True
  | k :: ks => WF c k ∧ WFs c ks

end

/-- Later offsets are later positions. -/
def Increasing (c : Ctx) : Prop := ∀ i j, i < j → Before (c.posAt i) (c.posAt j)

mutual

/-- The symbols of a tree in the order of the tree, a block before its children. -/
def flatTree : Tree Sym → List Sym
  | .node s kids => s :: flat kids

/-- The symbols of some trees. -/
def flat : List (Tree Sym) → List Sym
  | [] => []
  | t :: ts => flatTree t ++ flat ts

end

/-- The kinds of symbols that are added in the order of the text. Properties and constants of classes are added after
what is in their values, and members from doc comments have the range of the comment. -/
def Kind.ordered : Kind → Bool
  | .property | .classConst | .docProperty | .docMethod | .nilProperty => false
  | _ => true

/-- No symbol of an ordered kind ends after a symbol it is in. -/
inductive Nested : List (Tree Sym) → Prop
  | nil : Nested []
  | cons {s : Sym} {kids rest : List (Tree Sym)} : Nested kids →
      (∀ x ∈ flat kids, x.kind.ordered = true → Le x.range.stop s.range.stop) → Nested rest →
      Nested (.node s kids :: rest)

/-- The symbols are between two positions, in the order of the text, and nested. -/
structure SymsOK (lo hi : Pos) (F : List (Tree Sym)) : Prop where
  starts : ∀ s ∈ flat F, Le s.range.start hi
  inside : ∀ s ∈ flat F, s.kind.ordered = true → Le lo s.range.start ∧ Le s.range.stop hi
  order : (flat F).Pairwise fun s t => t.kind.ordered = true → Le s.range.start t.range.start
  nested : Nested F

/-- The recorded variables begin before `hi`, the uses among them not before `lo`, and every use begins after
everything that was recorded before it. No variable counts from before its end. -/
structure RecsOK (lo hi : Pos) (R : List Rec) : Prop where
  upper : ∀ r ∈ R, Before r.v.range.start hi
  lower : ∀ r ∈ R, r.isDeclaration = false → Le lo r.v.range.start
  order : R.Pairwise fun r u => u.isDeclaration = false → Before r.v.range.start u.v.range.start
  counts : ∀ r ∈ R, Le r.v.range.stop r.start

/-- The scopes stand one after the other between two positions, those inside a scope in its range, and their recordings
are in order. -/
inductive ScopesIn : Pos → Pos → List (Tree (Rng × List Rec)) → Prop
  | nil {lo hi : Pos} : Le lo hi → ScopesIn lo hi []
  | cons {lo hi : Pos} {r : Rng} {R : List Rec} {kids rest : List (Tree (Rng × List Rec))} :
      Le lo r.start → RecsOK r.start r.stop R → ScopesIn r.start r.stop kids → ScopesIn r.stop hi rest →
      ScopesIn lo hi (.node (r, R) kids :: rest)

end Verif.Analyser
