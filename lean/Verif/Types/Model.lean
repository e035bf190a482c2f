import Verif.Common.Strings

/-! Model of `analysis/symbolType.go`: type texts and unions of types. Go integers are unbounded here
(an array depth is at most half the length of a text). -/

namespace Verif.Types

/-- `TypeString` (`analysis/symbolType.go:41-45`). -/
structure Ty where
  fqn : Bytes
  original : Bytes
  arrayLevel : Int
  deriving DecidableEq, Repr, Inhabited

/-- `Aliases` (`symbolType.go:11-14`), used as in `symbolType.go:53-55`. -/
def aliasOf (s : Bytes) : Bytes :=
  if s = b!"boolean" then b!"bool" else if s = b!"integer" then b!"int" else s

/-- `Natives` (`symbolType.go:17-38`). -/
def natives : List Bytes :=
  [b!"mixed", b!"null", b!"bool", b!"true", b!"false", b!"int", b!"float", b!"real", b!"double", b!"string",
    b!"binary", b!"array", b!"object", b!"callable", b!"void", b!"static", b!"$this", b!"__DIR__", b!"__FILE__"]

/-- The loop of `resolveRawWithArrayLevel` (`symbolType.go:67-77`) with `n = i + 1`. `none` is the panic of
`o[i-1]` at `i = 0`. In the result, `none` means that the loop ended without `break`, so that `original`
was not changed. -/
def rawLoop (o : Bytes) (level : Int) : Nat → Option (Option Bytes × Int)
  | 0 => some (none, level)
  | 1 => if o[0]? ≠ some 93 then some (some (o.take 1), level) else none
  | n + 2 =>
    if o[n + 1]? ≠ some 93 ∨ o[n]? ≠ some 91 then some (some (o.take (n + 2)), level)
    else rawLoop o (level + 1) n

/-- `NewTypeString` (`symbolType.go:47-60`). `none` is a panic. -/
def newTypeString (s : Bytes) : Option Ty :=
  match rawLoop s 0 s.length with
  | none => none
  | some (o, level) =>
    let original := aliasOf (o.getD s)
    some { fqn := original, original := original, arrayLevel := level }

/-- `Dearray` (`symbolType.go:79-85`). -/
def Ty.dearray (t : Ty) : Ty × Bool :=
  if t.arrayLevel = 0 then (t, false) else ({ t with arrayLevel := t.arrayLevel - 1 }, true)

/-- `TypeString.IsEmpty` (`symbolType.go:88-90`). -/
def Ty.isEmpty (t : Ty) : Bool := t.fqn == [] || t.fqn == b!"\\"

/-- `ToString` (`symbolType.go:103-109`). -/
def Ty.toBytes (t : Ty) : Bytes := t.fqn ++ (List.replicate t.arrayLevel.toNat b!"[]").flatten

/-- `TypeString.GetNamespace` (`symbolType.go:111-120`). -/
def Ty.getNamespace (t : Ty) : Bytes :=
  match lastIndexB 92 t.fqn with
  | none => b!"\\"
  | some 0 => b!"\\"
  | some i => t.fqn.take i

/-- `IsFQN` (`symbolType.go:158-166`). -/
def isFQN (name : Bytes) : Bool :=
  match name with
  | [] => false
  | c :: _ => natives.contains name || c == 92

/-- `SetNamespace` (`symbolType.go:126-134`). -/
def Ty.setNamespace (t : Ty) (ns : Bytes) : Ty :=
  if isFQN t.fqn then t
  else if ns = [] then { t with fqn := 92 :: t.fqn }
  else { t with fqn := 92 :: ns ++ 92 :: t.fqn }

/-- `GetParts` (`symbolType.go:151-157`). -/
def Ty.getParts (t : Ty) : List Bytes :=
  match splitB 92 t.fqn with
  | [] :: rest => rest
  | parts => parts

/-- `GetFirstAndRestParts` (`symbolType.go:143-149`). -/
def Ty.firstAndRest (t : Ty) : Bytes × List Bytes :=
  match t.getParts with
  | [] => ([], [])
  | a :: rest => (a, rest)

/-- `TypeComposite` (`symbolType.go:183-185`). -/
abbrev Union := List Ty

/-- `hasFQN` (`symbolType.go:225-232`). -/
def hasFQN (u : Union) (fqn : Bytes) : Bool := u.any fun t => t.fqn == fqn

/-- `add` (`symbolType.go:234-239`). -/
def add (u : Union) (t : Ty) : Union := if hasFQN u t.fqn then u else u ++ [t]

/-- `merge` (`symbolType.go:241-245`). -/
def merge (u : Union) (ts : Union) : Union := ts.foldl add u

/-- `mergeWithArrayLevel` (`symbolType.go:247-252`). -/
def mergeWithArrayLevel (u : Union) (ts : Union) (level : Int) : Union :=
  ts.foldl (fun u t => add u { t with arrayLevel := t.arrayLevel + level }) u

/-- `TypeComposite.IsEmpty` (`symbolType.go:275-287`). -/
def unionIsEmpty (u : Union) : Bool := u.length == 0 || u.all Ty.isEmpty

/-- `TypeComposite.ToString` (`symbolType.go:289-301`). -/
def unionToBytes (u : Union) : Bytes := joinB 124 ((u.filter fun t => !t.isEmpty).map Ty.toBytes)

end Verif.Types
