import Verif.Encoding.Model

/-!
Specification side of the encoding properties: which values are representable at all (lengths are
Go `int`s), and typed sequences of primitive values.
-/

namespace Verif.Encoding

/-- A byte string whose length is a Go `int` (always true of a real Go string). -/
def Str (s : Bytes) : Prop := s.length < 2 ^ 63

/-- A list whose length is a Go `int` and whose elements are all representable. -/
def ListWF {α} (wf : α → Prop) (xs : List α) : Prop := xs.length < 2 ^ 63 ∧ ∀ x ∈ xs, wf x

def Location.WF (l : Location) : Prop := Str l.uri
def TypeString.WF (t : TypeString) : Prop := Str t.original ∧ Str t.fqn
def Types.WF (t : TypeComposite) : Prop := ListWF TypeString.WF t

/-- What `@deprecated` tags look like: `deprecatedTag` (`phpDocComment.go:277-299`) only ever sets
the tag name, version (`Name`) and description. -/
def Tag.WF (t : Tag) : Prop :=
  Str t.name ∧ Str t.description ∧ t.tagName = b!"@deprecated" ∧ t.typeString = [] ∧ t.isStatic = false

def DeprecatedWF : Option Tag → Prop
  | none => True
  | some t => t.WF

def Parameter.WF (p : Parameter) : Prop :=
  p.location.WF ∧ p.varLocation.WF ∧ Str p.name ∧ Types.WF p.type ∧ Str p.value

def Class.WF (c : Class) : Prop :=
  c.location.WF ∧ c.refLocation.WF ∧ Str c.description ∧ c.name.WF ∧ c.extends_.WF ∧
  Types.WF c.interfaces ∧ Types.WF c.use ∧ DeprecatedWF c.deprecated
def Interface.WF (c : Interface) : Prop :=
  c.location.WF ∧ Str c.description ∧ c.name.WF ∧ Types.WF c.extends_ ∧ DeprecatedWF c.deprecated
def Trait.WF (c : Trait) : Prop := c.location.WF ∧ c.name.WF
def Function.WF (c : Function) : Prop :=
  c.location.WF ∧ c.name.WF ∧ ListWF Parameter.WF c.params ∧ Types.WF c.returnTypes ∧
  Str c.description ∧ DeprecatedWF c.deprecated
def Method.WF (c : Method) : Prop :=
  c.location.WF ∧ Str c.name ∧ ListWF Parameter.WF c.params ∧ Types.WF c.returnTypes ∧
  Str c.description ∧ c.scope.WF ∧ DeprecatedWF c.deprecated
def Property.WF (c : Property) : Prop :=
  c.location.WF ∧ Str c.name ∧ c.scope.WF ∧ Types.WF c.types ∧ Str c.description ∧
  DeprecatedWF c.deprecated
def Const.WF (c : Const) : Prop :=
  c.location.WF ∧ Str c.description ∧ DeprecatedWF c.deprecated ∧ c.name.WF ∧ Str c.value
def ClassConst.WF (c : ClassConst) : Prop :=
  c.location.WF ∧ Str c.description ∧ Str c.name ∧ Str c.value ∧ c.scope.WF ∧
  DeprecatedWF c.deprecated
def GlobalVariable.WF (c : GlobalVariable) : Prop :=
  c.location.WF ∧ Types.WF c.types ∧ Str c.description ∧ Str c.name

/-- A primitive value of any of the kinds the encoder supports. -/
inductive Val where
  | int (v : GoInt) | u64 (v : BitVec 64) | u32 (v : BitVec 32)
  | str (s : Bytes) | bool (b : Bool) | pos (p : Position) | loc (l : Location)
  deriving DecidableEq, Repr

/-- The kind of a value: the reader must ask for the kinds in the order they were written. -/
inductive Kind where
  | int | u64 | u32 | str | bool | pos | loc
  deriving DecidableEq, Repr

def Val.kind : Val → Kind
  | .int _ => .int | .u64 _ => .u64 | .u32 _ => .u32 | .str _ => .str
  | .bool _ => .bool | .pos _ => .pos | .loc _ => .loc

def Val.WF : Val → Prop
  | .str s => Str s
  | .loc l => l.WF
  | _ => True

/-- One encoder call per value. -/
def Val.write : Val → Bytes
  | .int v => writeInt v | .u64 v => writeUInt64 v | .u32 v => writeUInt32 v
  | .str s => writeString s | .bool b => writeBool b | .pos p => writePosition p
  | .loc l => writeLocation l

/-- One decoder call per kind. -/
def Kind.read : Kind → Dec Val
  | .int => do return .int (← readInt)
  | .u64 => do return .u64 (← readUInt64)
  | .u32 => do return .u32 (← readUInt32)
  | .str => do return .str (← readString)
  | .bool => do return .bool (← readBool)
  | .pos => do return .pos (← readPosition)
  | .loc => do return .loc (← readLocation)

/-- A program that writes a list of values. -/
def writeAll (vs : List Val) : Bytes := vs.flatMap Val.write

/-- A program that reads values of the given kinds. -/
def readAll : List Kind → Dec (List Val)
  | [] => pure []
  | k :: ks => do
    let v ← k.read
    let vs ← readAll ks
    return v :: vs

end Verif.Encoding
