import Verif.Common.Bytes

/-!
Model of `analysis/storage/encoding.go` and of the `Serialise`/`Read…` functions of all symbol
kinds (`analysis/*.go`).

* A Go `int` is 64 bits wide: `GoInt := BitVec 64` (two's complement).
* An encoder is the byte list it appends; `append(e.buf, …)` is list append.
* A decoder is a function from the remaining buffer to `some (value, rest)`, or `none` when the Go
  code panics (index or slice bounds out of range).
* `d.buf[:len]` may in Go extend beyond the length up to the capacity, but the following
  `d.buf[len:]` panics whenever fewer than `len` bytes are left (`encoding.go:217-222`); so does
  `d.buf[8:]` after the `unsafe` read in `ReadInt`.
* Simplification: the in-memory-only field `children` of classes, functions, … is not part of
  the record and is not modelled here.
-/

namespace Verif.Encoding

/-- Go `int` / `int64` on a 64-bit platform. -/
abbrev GoInt := BitVec 64

/-- little-endian bytes of a natural number: the memory image copied by the `unsafe` slices in
`encoding.go:12-42` on a little-endian machine. -/
def leBytes : Nat → Nat → Bytes
  | 0, _ => []
  | n + 1, v => UInt8.ofNat (v % 256) :: leBytes n (v / 256)

/-- value of little-endian bytes (`encoding.go:66-78`). -/
def leNat : Bytes → Nat
  | [] => 0
  | b :: bs => b.toNat + 256 * leNat bs

/-- `Encoder.WriteInt` (`encoding.go:116-118`, `PutInt64` 34-42). -/
def writeInt (v : GoInt) : Bytes := leBytes 8 v.toNat
/-- `Encoder.WriteUInt64` (`encoding.go:111-113`); `WriteFloat64` (126-128) writes the bit pattern
through the same function. -/
def writeUInt64 (v : BitVec 64) : Bytes := leBytes 8 v.toNat
/-- `Encoder.WriteUInt32` (`encoding.go:121-123`); also `WriteFloat32` (131-133). -/
def writeUInt32 (v : BitVec 32) : Bytes := leBytes 4 v.toNat
/-- `Encoder.WriteBytes` / `WriteString` (`encoding.go:136-144`). -/
def writeString (s : Bytes) : Bytes := writeInt (BitVec.ofNat 64 s.length) ++ s
/-- `Encoder.WriteBool` (`encoding.go:147-153`). -/
def writeBool (b : Bool) : Bytes := [if b then 1 else 0]

/-- `protocol.Position` (`internal/lsp/protocol/protocol.go:2796`). -/
structure Position where
  line : GoInt
  character : GoInt
  deriving DecidableEq, Repr, Inhabited

/-- `protocol.Range` (`internal/lsp/protocol/protocol.go:2838`). -/
structure Range where
  start : Position
  stop : Position
  deriving DecidableEq, Repr, Inhabited

/-- `protocol.Location`. -/
structure Location where
  uri : Bytes
  range : Range
  deriving DecidableEq, Repr, Inhabited

/-- The zero value of `protocol.Location`. -/
def Location.zero : Location := ⟨[], ⟨⟨0, 0⟩, ⟨0, 0⟩⟩⟩

/-- `Encoder.WritePosition` (`encoding.go:156-159`). -/
def writePosition (p : Position) : Bytes := writeInt p.line ++ writeInt p.character
/-- `Encoder.WriteLocation` (`encoding.go:162-166`). -/
def writeLocation (l : Location) : Bytes :=
  writeString l.uri ++ writePosition l.range.start ++ writePosition l.range.stop

/-- A decoder: `none` is a Go panic. -/
abbrev Dec := StateT Bytes Option

/-- Take the first `n` bytes and drop them from the buffer: `ReadX(d.buf); d.buf = d.buf[n:]`.
Slicing `d.buf[n:]` panics when fewer than `n` bytes are left. -/
def takeN (n : Nat) : Dec Bytes := fun buf =>
  if buf.length < n then none else some (buf.take n, buf.drop n)

/-- `Decoder.ReadInt` (`encoding.go:182-186`). -/
def readInt : Dec GoInt := do return BitVec.ofNat 64 (leNat (← takeN 8))
/-- `Decoder.ReadUInt64` (`encoding.go:189-193`), `ReadFloat64` (203-207). -/
def readUInt64 : Dec (BitVec 64) := do return BitVec.ofNat 64 (leNat (← takeN 8))
/-- `Decoder.ReadUInt32` (`encoding.go:196-200`), `ReadFloat32` (210-214). -/
def readUInt32 : Dec (BitVec 32) := do return BitVec.ofNat 32 (leNat (← takeN 4))
/-- `Decoder.ReadBytes` / `ReadString` (`encoding.go:217-227`): a negative length panics in
`d.buf[:len]`, a length beyond the buffer panics too. -/
def readString : Dec Bytes := do
  let len ← readInt
  if len.toInt < 0 then failure else takeN len.toInt.toNat
/-- `Decoder.ReadBool` (`encoding.go:230-234`). -/
def readBool : Dec Bool := do
  let b ← takeN 1
  return b != [0]
/-- `Decoder.ReadPosition` (`encoding.go:237-242`). -/
def readPosition : Dec Position := do return ⟨← readInt, ← readInt⟩
/-- `Decoder.ReadLocation` (`encoding.go:245-253`). -/
def readLocation : Dec Location := do
  let uri ← readString
  let s ← readPosition
  let e ← readPosition
  return ⟨uri, ⟨s, e⟩⟩

/-! ### lists -/

/-- `e.WriteInt(len(xs)); for … { write }` (e.g. `class.go:244-247`). -/
def writeMany {α} (w : α → Bytes) (xs : List α) : Bytes :=
  writeInt (BitVec.ofNat 64 xs.length) ++ xs.flatMap w

/-- the counting loop `for i := 0; i < n; i++ { append(read) }`. -/
def readLoop {α} (r : Dec α) : Nat → Dec (List α)
  | 0 => pure []
  | n + 1 => do
    let x ← r
    let xs ← readLoop r n
    return x :: xs

/-- `n := d.ReadInt(); for i := 0; i < n; i++ {…}` (e.g. `class.go:264-267`): no iteration when
`n` is negative. -/
def readMany {α} (r : Dec α) : Dec (List α) := do
  let n ← readInt
  readLoop r n.toInt.toNat

/-! ### type strings -/

/-- `TypeString` (`analysis/symbolType.go:41-45`). -/
structure TypeString where
  fqn : Bytes
  original : Bytes
  arrayLevel : GoInt
  deriving DecidableEq, Repr, Inhabited

/-- `TypeString.Write` (`symbolType.go:168-172`). -/
def TypeString.write (t : TypeString) : Bytes :=
  writeString t.original ++ writeString t.fqn ++ writeInt t.arrayLevel
/-- `ReadTypeString` (`symbolType.go:174-180`). -/
def readTypeString : Dec TypeString := do
  let original ← readString
  let fqn ← readString
  let arrayLevel ← readInt
  return { original, fqn, arrayLevel }

/-- `TypeComposite` (`symbolType.go:183-185`) as its list of type strings. -/
abbrev TypeComposite := List TypeString
/-- `TypeComposite.Write` (`symbolType.go:254-259`). -/
def writeTypes (t : TypeComposite) : Bytes := writeMany TypeString.write t
/-- `ReadTypeComposite` (`symbolType.go:261-268`). -/
def readTypes : Dec TypeComposite := readMany readTypeString

/-! ### deprecation tag -/

/-- `tag` (`phpDocComment.go:21-30` of that file): the fields used for a `@deprecated` tag;
`Parameters` and `nameLocation` belong to `@method`/`@property` tags only and are not modelled. -/
structure Tag where
  tagName : Bytes
  name : Bytes
  description : Bytes
  typeString : Bytes
  isStatic : Bool
  deriving DecidableEq, Repr, Inhabited

/-- `serialiseDeprecatedTag` (`phpDocComment.go:398-406`). -/
def writeDeprecated : Option Tag → Bytes
  | none => writeBool false
  | some t => writeBool true ++ writeString t.name ++ writeString t.description
/-- `deserialiseDeprecatedTag` (`phpDocComment.go:408-417`). -/
def readDeprecated : Dec (Option Tag) := do
  if ← readBool then
    let name ← readString
    let description ← readString
    return some { tagName := b!"@deprecated", name, description, typeString := [], isStatic := false }
  else return none

/-! ### symbols -/

/-- `Class` (`class.go:14-27`). -/
structure Class where
  location : Location
  refLocation : Location
  modifier : GoInt
  description : Bytes
  name : TypeString
  extends_ : TypeString
  interfaces : List TypeString
  use : List TypeString
  deprecated : Option Tag
  deriving DecidableEq, Repr

/-- `Class.Serialise` (`class.go:237-253`). -/
def Class.serialise (s : Class) : Bytes :=
  writeLocation s.location ++ writeLocation s.refLocation ++ writeInt s.modifier
    ++ writeString s.description ++ s.name.write ++ s.extends_.write
    ++ writeMany TypeString.write s.interfaces ++ writeMany TypeString.write s.use
    ++ writeDeprecated s.deprecated
/-- `ReadClass` (`class.go:255-274`). -/
def readClass : Dec Class := do
  let location ← readLocation
  let refLocation ← readLocation
  let modifier ← readInt
  let description ← readString
  let name ← readTypeString
  let extends_ ← readTypeString
  let interfaces ← readMany readTypeString
  let use ← readMany readTypeString
  let deprecated ← readDeprecated
  return { location, refLocation, modifier, description, name, extends_, interfaces, use, deprecated }

/-- `Interface` (`interface.go:12-20`). -/
structure Interface where
  location : Location
  refLocation : Location
  description : Bytes
  deprecated : Option Tag
  name : TypeString
  extends_ : List TypeString
  deriving DecidableEq, Repr
/-- `Interface.Serialise` (`interface.go:131-140`). -/
def Interface.serialise (s : Interface) : Bytes :=
  writeLocation s.location ++ s.name.write ++ writeMany TypeString.write s.extends_
    ++ writeString s.description ++ writeDeprecated s.deprecated
/-- `ReadInterface` (`interface.go:142-154`): `refLocation` stays the zero value. -/
def readInterface : Dec Interface := do
  let location ← readLocation
  let name ← readTypeString
  let extends_ ← readMany readTypeString
  let description ← readString
  let deprecated ← readDeprecated
  return { location, refLocation := Location.zero, name, extends_, description, deprecated }

/-- `Trait` (`trait.go:12-17`). -/
structure Trait where
  location : Location
  name : TypeString
  deriving DecidableEq, Repr
/-- `Trait.Serialise` (`trait.go:89-92`). -/
def Trait.serialise (s : Trait) : Bytes := writeLocation s.location ++ s.name.write
/-- `ReadTrait` (`trait.go:94-99`). -/
def readTrait : Dec Trait := do
  let location ← readLocation
  let name ← readTypeString
  return { location, name }

/-- `Parameter` (`parameter.go:12-21`). -/
structure Parameter where
  location : Location
  varLocation : Location
  description : Bytes
  hasValue : Bool
  name : Bytes
  type : TypeComposite
  value : Bytes
  deriving DecidableEq, Repr
/-- `Parameter.Write` (`parameter.go:103-110`): the description is not written. -/
def Parameter.write (s : Parameter) : Bytes :=
  writeLocation s.location ++ writeLocation s.varLocation ++ writeBool s.hasValue
    ++ writeString s.name ++ writeTypes s.type ++ writeString s.value
/-- `ReadParameter` (`parameter.go:112-121`). -/
def readParameter : Dec Parameter := do
  let location ← readLocation
  let varLocation ← readLocation
  let hasValue ← readBool
  let name ← readString
  let type ← readTypes
  let value ← readString
  return { location, varLocation, description := [], hasValue, name, type, value }

/-- `Function` (`function.go:12-21`). -/
structure Function where
  location : Location
  refLocation : Location
  name : TypeString
  params : List Parameter
  returnTypes : TypeComposite
  description : Bytes
  deprecated : Option Tag
  deriving DecidableEq, Repr
/-- `Function.Serialise` (`function.go:166-176`). -/
def Function.serialise (s : Function) : Bytes :=
  writeLocation s.location ++ s.name.write ++ writeMany Parameter.write s.params
    ++ writeTypes s.returnTypes ++ writeString s.description ++ writeDeprecated s.deprecated
/-- `ReadFunction` (`function.go:178-192`). -/
def readFunction : Dec Function := do
  let location ← readLocation
  let name ← readTypeString
  let params ← readMany readParameter
  let returnTypes ← readTypes
  let description ← readString
  let deprecated ← readDeprecated
  return { location, refLocation := Location.zero, name, params, returnTypes, description, deprecated }

/-- `Method` (`method.go:14-28`). -/
structure Method where
  location : Location
  refLocation : Location
  name : Bytes
  params : List Parameter
  returnTypes : TypeComposite
  description : Bytes
  scope : TypeString
  visibility : GoInt
  isStatic : Bool
  classModifier : GoInt
  deprecated : Option Tag
  deriving DecidableEq, Repr
/-- `Method.Serialise` (`method.go:221-236`). -/
def Method.serialise (s : Method) : Bytes :=
  writeLocation s.location ++ writeString s.name ++ writeMany Parameter.write s.params
    ++ writeTypes s.returnTypes ++ writeString s.description ++ s.scope.write
    ++ writeInt s.visibility ++ writeBool s.isStatic ++ writeInt s.classModifier
    ++ writeDeprecated s.deprecated
/-- `ReadMethod` (`method.go:238-258`). -/
def readMethod : Dec Method := do
  let location ← readLocation
  let name ← readString
  let params ← readMany readParameter
  let returnTypes ← readTypes
  let description ← readString
  let scope ← readTypeString
  let visibility ← readInt
  let isStatic ← readBool
  let classModifier ← readInt
  let deprecated ← readDeprecated
  return { location, refLocation := Location.zero, name, params, returnTypes, description, scope,
           visibility, isStatic, classModifier, deprecated }

/-- `Property` (`property.go:12-22`). -/
structure Property where
  location : Location
  refLocation : Location
  description : Bytes
  deprecated : Option Tag
  name : Bytes
  scope : TypeString
  visibility : GoInt
  isStatic : Bool
  types : TypeComposite
  deriving DecidableEq, Repr
/-- `Property.Serialise` (`property.go:160-169`). -/
def Property.serialise (s : Property) : Bytes :=
  writeLocation s.location ++ writeString s.name ++ s.scope.write ++ writeInt s.visibility
    ++ writeBool s.isStatic ++ writeTypes s.types ++ writeString s.description
    ++ writeDeprecated s.deprecated
/-- `ReadProperty` (`property.go:171-182`). -/
def readProperty : Dec Property := do
  let location ← readLocation
  let name ← readString
  let scope ← readTypeString
  let visibility ← readInt
  let isStatic ← readBool
  let types ← readTypes
  let description ← readString
  let deprecated ← readDeprecated
  return { location, refLocation := Location.zero, name, scope, visibility, isStatic, types,
           description, deprecated }

/-- `Const` (`const.go:12-18`) and `Define` (`define.go:12-19`): same persisted fields. -/
structure Const where
  location : Location
  description : Bytes
  deprecated : Option Tag
  name : TypeString
  value : Bytes
  deriving DecidableEq, Repr
/-- `Const.Serialise` (`const.go:97-103`), `Define.Serialise` (`define.go:126-132`). -/
def Const.serialise (s : Const) : Bytes :=
  writeLocation s.location ++ writeString s.description ++ writeDeprecated s.deprecated
    ++ s.name.write ++ writeString s.value
/-- `ReadConst` (`const.go:105-113`), `ReadDefine` (`define.go:134-142`). -/
def readConst : Dec Const := do
  let location ← readLocation
  let description ← readString
  let deprecated ← readDeprecated
  let name ← readTypeString
  let value ← readString
  return { location, description, deprecated, name, value }

/-- `ClassConst` (`classConst.go:12-23`). -/
structure ClassConst where
  refLocation : Location
  location : Location
  description : Bytes
  name : Bytes
  value : Bytes
  scope : TypeString
  visibility : GoInt
  deprecated : Option Tag
  deriving DecidableEq, Repr
/-- `ClassConst.Serialise` (`classConst.go:146-153`): neither the visibility nor the reference
location is written. -/
def ClassConst.serialise (s : ClassConst) : Bytes :=
  writeLocation s.location ++ writeString s.description ++ writeString s.name
    ++ writeString s.value ++ s.scope.write ++ writeDeprecated s.deprecated
/-- `ReadClassConst` (`classConst.go:155-164`): the visibility stays the zero value `Public`. -/
def readClassConst : Dec ClassConst := do
  let location ← readLocation
  let description ← readString
  let name ← readString
  let value ← readString
  let scope ← readTypeString
  let deprecated ← readDeprecated
  return { refLocation := Location.zero, location, description, name, value, scope,
           visibility := 0, deprecated }

/-- `GlobalVariable` (`globalVariable.go:10-16`). -/
structure GlobalVariable where
  location : Location
  types : TypeComposite
  description : Bytes
  name : Bytes
  deriving DecidableEq, Repr
/-- `GlobalVariable.Serialise` (`globalVariable.go:99-104`). -/
def GlobalVariable.serialise (s : GlobalVariable) : Bytes :=
  writeLocation s.location ++ writeTypes s.types ++ writeString s.description ++ writeString s.name
/-- `ReadGlobalVariable` (`globalVariable.go:117-124`). -/
def readGlobalVariable : Dec GlobalVariable := do
  let location ← readLocation
  let types ← readTypes
  let description ← readString
  let name ← readString
  return { location, types, description, name }

/-- Visibility values (`analysis/symbol.go:12-19`). -/
def visPublic : GoInt := 0
def visProtected : GoInt := 1
def visPrivate : GoInt := 2

end Verif.Encoding
