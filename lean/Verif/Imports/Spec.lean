import Verif.Common.Strings

/-! Specification: PHP's rules for resolving names (PHP manual, "Name resolution rules"), without relative
names (`namespace\A`), which are not handled anywhere in the code. Names are texts with segments separated by
backslashes; a name starting with a backslash is fully qualified. -/

namespace Verif.Imports

/-- First segment of a name. -/
def firstSegment (n : Bytes) : Bytes := n.takeWhile (· ≠ 92)
/-- What follows the first segment, with its backslash. -/
def afterFirst (n : Bytes) : Bytes := n.dropWhile (· ≠ 92)
/-- The name has several segments. -/
def Qualified (n : Bytes) : Prop := 92 ∈ n
instance (n : Bytes) : Decidable (Qualified n) := inferInstanceAs (Decidable (_ ∈ _))
/-- The name starts with a backslash. -/
def FullyQualified (n : Bytes) : Prop := n.head? = some 92
instance (n : Bytes) : Decidable (FullyQualified n) := inferInstanceAs (Decidable (_ = _))
/-- A name in a namespace. -/
def inNamespace (ns n : Bytes) : Bytes := if ns = [] then 92 :: n else 92 :: ns ++ 92 :: n

/-- What is imported under an alias; class aliases do not depend on case. -/
def importedAs (imports : List (Bytes × Bytes)) (alias : Bytes) : Option Bytes :=
  (imports.find? fun e => asciiLower e.1 == asciiLower alias).map Prod.snd

/-- What is imported under an alias, exactly (constants). -/
def importedAsExactly (imports : List (Bytes × Bytes)) (alias : Bytes) : Option Bytes :=
  (imports.find? fun e => e.1 == alias).map Prod.snd

/-- The class a name refers to. -/
def phpClassName (builtin : List Bytes) (ns : Bytes) (imports : List (Bytes × Bytes)) (n : Bytes) : Bytes :=
  if FullyQualified n then n
  else if n ∈ builtin then n
  else match importedAs imports (firstSegment n) with
    | some full => 92 :: full ++ afterFirst n
    | none => inNamespace ns n

/-- The function a name refers to, `defined` being the functions that exist. -/
def phpFunctionName (defined : Bytes → Bool) (ns : Bytes) (classes functions : List (Bytes × Bytes)) (n : Bytes) :
    Bytes :=
  if FullyQualified n then n
  else if Qualified n then
    match importedAs classes (firstSegment n) with
    | some full => 92 :: full ++ afterFirst n
    | none => inNamespace ns n
  else
    match importedAs functions n with
    | some full => 92 :: full
    | none => if defined (inNamespace ns n) then inNamespace ns n else 92 :: n

/-- The constant a name refers to, `defined` being the constants that exist. -/
def phpConstName (defined : Bytes → Bool) (ns : Bytes) (classes constants : List (Bytes × Bytes)) (n : Bytes) :
    Bytes :=
  if FullyQualified n then n
  else if Qualified n then
    match importedAs classes (firstSegment n) with
    | some full => 92 :: full ++ afterFirst n
    | none => inNamespace ns n
  else
    match importedAsExactly constants n with
    | some full => 92 :: full
    | none => if defined (inNamespace ns n) then inNamespace ns n else 92 :: n

end Verif.Imports
