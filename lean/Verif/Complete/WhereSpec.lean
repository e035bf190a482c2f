import Verif.Complete.Where

/-! Specification for the handler of completion requests: places in the syntax tree and kinds of symbols. -/

namespace Verif.Complete
open Verif.Analyser (Node Tok PType)
open Verif.References (Spine Touched)
open Verif.Store (Sym)

/-- The cursor is in or directly behind a token that is directly in a phrase of the first type, which is directly in one of
the second type, and so on. -/
def Cursor (q : Ask) (types : List PType) : Prop :=
  ∃ t ps, Spine q.root t ps ∧ Touched q.offset t ∧ types.map some <+: ps.map Decl.typ?

/-- The same, perhaps directly in the name of a member after `::`. -/
def Near (q : Ask) (types : List PType) : Prop := Cursor q types ∨ Cursor q (.scopedMemberName :: types)

/-- The cursor is in or directly behind a variable or a `$` (36 is its character). -/
def AtDollar (q : Ask) : Prop :=
  ∃ t ps, Spine q.root t ps ∧ Touched q.offset t ∧ (t.type = .variableName ∨ t.type = .other 36)

/-- The tokens of the document follow each other. -/
def Sequence (q : Ask) : Prop := ∃ a b, Analyser.Chain a b (Analyser.toks q.root)

/-- At the cursor the name of a class is written: after `new`, as a type, before `::`, after `extends` of a class, after
`instanceof` or in a `catch`. -/
def ClassName : Option CSym → Prop
  | some (.designator _) | some (.classAccess ..) | some (.typeDeclaration _) => True
  | _ => False

instance : DecidablePred ClassName := fun x => by
  unfold ClassName; split <;> infer_instance

/-! Kinds of symbols. -/

def IsClass : Sym → Prop
  | .cla _ => True
  | _ => False

def IsInterface : Sym → Prop
  | .int _ => True
  | _ => False

def IsTrait : Sym → Prop
  | .tra _ => True
  | _ => False

/-- Functions and constants. -/
def IsValue : Sym → Prop
  | .con _ | .def_ _ | .fn _ => True
  | _ => False

/-- All symbols that the list offers are of this kind. -/
def Only (P : Sym → Prop) (l : CList) : Prop := ∀ y ∈ l.symbols, P y

end Verif.Complete
