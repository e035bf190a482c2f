import Verif.Whole.Model
import Verif.Query.Hover
import Verif.Show.Model

/-! Hovering over a name, on top of the store. -/

namespace Verif.Whole

open Verif.Encoding Verif.Storage Verif.Store Verif.Query

/-- The declarations that hovering shows (`internal/lsp/hover.go:11-205`) with the store in this state. -/
def hoverIn (env : Env) (s : Store) (tbl : Imports.Table) (keyOf : Bytes → Bytes) (n ni : Nat) (u : Use) :
    Option (List Sym) :=
  (hover (siteOf env s) tbl keyOf n ni u).map fun r => r.filterMap fun d => (decls s)[d]?

/-- The text for one declaration: `formatClasses`, `formatInterfaces`, `formatConsts`, `formatDefines`, `functionsToHover`,
`traitsToHover` (`symbolConverter.go:74-227`). Members, whose text also names the class they were found in, are left out
here. -/
def showText (md : Bytes → Option Bytes) : Sym → Bytes
  | .cla c => Show.classHover md c
  | .int c => Show.interfaceHover md c
  | .tra c => Show.traitHover c
  | .fn c => Show.functionHover md c
  | .con c => Show.constHover md c
  | .def_ c => Show.defineHover md c
  | _ => []

/-- The text of the answer (`hover.go:54-66`, `72-74`, `80-82`, `88-102`, `106-109`, `183-199`): all declarations one after
the other. Without declarations there is no text. -/
def hoverTextIn (env : Env) (s : Store) (md : Bytes → Option Bytes) (tbl : Imports.Table) (keyOf : Bytes → Bytes)
    (n ni : Nat) (u : Use) : Option Bytes :=
  (hoverIn env s tbl keyOf n ni u).map fun r => r.flatMap (showText md)

end Verif.Whole
