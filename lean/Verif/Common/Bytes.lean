/-!
Byte strings.  A Go `string` or `[]byte` value is modelled as the list of its bytes.
`b!"..."` is the list of UTF-8 bytes of a string literal (expanded at elaboration time).
-/

namespace Verif

/-- Go `string` / `[]byte` contents. -/
abbrev Bytes := List UInt8

open Lean in
/-- `b!"abc"` is the byte list `[97, 98, 99]`. -/
macro:max "b!" s:str : term => do
  let bs := s.getString.toUTF8.toList
  let elems ← bs.toArray.mapM fun b => `(($(Syntax.mkNumLit (toString b.toNat)) : UInt8))
  `(([$elems,*] : Verif.Bytes))

end Verif
