import Verif.References.Model

/-! Specification of find references, in terms of what is written in the files. -/

namespace Verif.References
open Verif.Types
open Verif.Imports (Table importTableAtPos inNamespace)
open Verif.Encoding (Range Position)
open Verif.Analyser (Node Tok PType Ctx)
open Verif.Store (Env Store Doc HOp EnvOK HistOK RefsOK run)

/-- `q` is reached from the node `p` by going up through the parents `ps`. -/
def Up (root : Node) : Node → List Node → Prop
  | p, [] => p = root
  | p, q :: qs => p ∈ q.kids ∧ Up root q qs

/-- The token `t` is in the tree, directly below the first of `ps`, which is directly below the second, and so on. -/
def Spine (root : Node) (t : Tok) (ps : List Node) : Prop := Up root (.tok t) ps

/-- The cursor is in the token or directly behind it. -/
def Touched (offset : Nat) (t : Tok) : Prop := t.offset < offset ∧ offset ≤ t.offset + t.length

/-- The symbol, at the place `r`, is the name of the class or interface `X`: in its declaration, or where it is used,
apart from `self`, `static` and `$this`. -/
inductive NamesClass (X : Bytes) : Symbol → Range → Prop where
  | class_ (a b : Range) : NamesClass X ⟨.class_ X, a, b⟩ b
  | interface (a b : Range) : NamesClass X ⟨.interface X, a, b⟩ b
  | used (kind : ClassUse) (name : Bytes) (types : Union) (t : Ty) (a b : Range) (ht : t ∈ types) (hX : t.fqn = X)
    (hs : ¬ (kind = .classAccess ∧ (name = b!"static" ∨ name = b!"self" ∨ name = b!"$this"))) :
    NamesClass X ⟨.classUse kind name types, a, b⟩ a

/-- The symbol, at the place `r`, is the name of a method `n` of whatever class: in a declaration or in a call. -/
inductive NamesMethod (n : Bytes) : Symbol → Range → Prop where
  | declared (a b : Range) : NamesMethod n ⟨.method n, a, b⟩ b
  | called (a b : Range) : NamesMethod n ⟨.methodAccess n, a, b⟩ a
  | static (a b : Range) : NamesMethod n ⟨.scopedMethodAccess n, a, b⟩ a

/-- The symbol is the name of a property `$n` of whatever class. -/
inductive NamesProperty (n : Bytes) : Symbol → Range → Prop where
  | declared (a b : Range) : NamesProperty n ⟨.property (36 :: n), a, b⟩ b
  | used (a b : Range) : NamesProperty n ⟨.propertyAccess n, a, b⟩ a
  | static (a b : Range) : NamesProperty n ⟨.scopedPropertyAccess (36 :: n), a, b⟩ a

/-- The symbol is the name of a class constant `n` of whatever class. -/
inductive NamesConstant (n : Bytes) : Symbol → Range → Prop where
  | declared (a b : Range) : NamesConstant n ⟨.classConst n, a, b⟩ b
  | used (a b : Range) : NamesConstant n ⟨.scopedConstantAccess n, a, b⟩ a

/-- The symbol is the name of the function `F` in its declaration, or in a call that may be a call of it by the imports
and the namespace at that place (C27). -/
inductive NamesFunction (tables : List Table) (F : Bytes) : Symbol → Range → Prop where
  | declared (a b : Range) : NamesFunction tables F ⟨.function F, a, b⟩ b
  | called (name : Bytes) (t : Ty) (i : Table) (a b : Range) (hi : importTableAtPos tables (posOf a.start) = some i)
    (ht : newTypeString name = some t) (hF : F ∈ i.functionPossibleFQNs t) : NamesFunction tables F ⟨.call name, a, b⟩ a

/-- A name of a class: no parenthesis, no dot in front. -/
def ClassName (X : Bytes) : Prop := (40 : UInt8) ∉ X ∧ X.head? ≠ some 46

/-- Names as PHP has them: classes and members have no parenthesis in their names, properties have a dollar sign and
nothing else does; `$a->$b` does not occur. -/
def Named (s : Symbol) : Prop :=
  match s.mark with
  | .class_ n | .interface n => ClassName n
  | .classUse _ _ types => ∀ t ∈ types, ClassName t.fqn
  | .function n => n.head? ≠ some 46
  | .method n | .methodAccess n | .scopedMethodAccess n => (40 : UInt8) ∉ n
  | .classConst n | .scopedConstantAccess n => (40 : UInt8) ∉ n ∧ n.head? ≠ some 36
  | .property n | .scopedPropertyAccess n => (40 : UInt8) ∉ n ∧ n.head? = some 36
  | .propertyAccess n => (40 : UInt8) ∉ n ∧ n.head? ≠ some 36 ∧ n ≠ []
  | _ => True

/-- All names in the files of the index are such names. -/
def AllNamed (src : Doc → File) (h : List HOp) : Prop := ∀ u d, Store.latest h u = some d → ∀ s ∈ (src d).symbols, Named s

/-- The documents of the history are the recordings of the files `src`. -/
def Recorded (src : Doc → File) (h : List HOp) : Prop := ∀ d ∈ Store.docs h, recorded (src d) = some d.refs

/-- The place `r` in the file `u` of the index is one that `P` describes: `u` is indexed and not deleted since, it is not a
bundled stub, and one of its symbols is described. -/
def Somewhere (src : Doc → File) (h : List HOp) (P : File → Symbol → Range → Prop) (u : Bytes) (r : Range) : Prop :=
  ∃ d, Store.latest h u = some d ∧ Store.haveReferences u = true ∧ ∃ s ∈ (src d).symbols, P (src d) s r

/-- The answer holds exactly the places that `P` describes. -/
def Answers (src : Doc → File) (h : List HOp) (P : File → Symbol → Range → Prop) (answer : Option (List (Bytes × Range))) :
    Prop :=
  ∃ res, answer = some res ∧ ∀ u r, (u, r) ∈ res ↔ Somewhere src h P u r

/-- The index after a history of legal operations on files whose recordings are those of `src`. -/
structure Ready (env : Env) (root : Bytes) (h : List HOp) (st : Store) (src : Doc → File) : Prop where
  environment : EnvOK env
  filter : env.FilterOK
  hist : HistOK env h
  inside : RefsOK root h
  result : run env root h = some st
  recorded : Recorded src h

/-- The header of a class, an interface or a trait. -/
def isClassHeader : PType → Bool
  | .classDeclarationHeader | .interfaceDeclarationHeader | .traitDeclarationHeader => true
  | _ => false

/-- The cursor is in or directly behind the token `t`, whose parents are `ps`. -/
def Cursor (root : Node) (offset : Nat) (t : Tok) (ps : List Node) : Prop := Spine root t ps ∧ Touched offset t

/-- Parents of a name that is not the one that a declaration declares. -/
def notDeclared : List Node → Bool
  | .phr .identifier _ :: .phr ty _ :: _ => !(ty = .methodDeclarationHeader || ty = .classConstElement)
  | .phr ty _ :: _ => !(ty = .propertyElement || isClassHeader ty || ty = .functionDeclarationHeader)
  | _ => true

/-- The namespace blocks of a file: the first is `i`, none starts before the beginning of the file, and they come one
after the other. -/
structure Blocks (tables : List Table) (i : Table) : Prop where
  first : tables.head? = some i
  inside : ∀ x ∈ tables, ¬ Position.Before x.start ⟨0, 0⟩
  ordered : tables.Pairwise fun a b => Position.Before a.start b.start

end Verif.References
