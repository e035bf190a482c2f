import Verif.Complete.Names
import Verif.Show.Model
import Verif.Imports.Model

/-! What a completion item says besides its label: kind, detail and documentation. -/

namespace Verif.Whole

open Verif.Encoding Verif.Store

/-- `CompletionItemKind`, as far as it is used. -/
inductive ItemKind where
  | method | function | variable_ | class_ | interface_ | property | constant
  deriving DecidableEq, Repr

/-- `Kind`, `Detail` and `Documentation` of a `CompletionItem`; `markdown` tells whether the documentation is Markdown or
plain text. -/
structure Details where
  kind : ItemKind
  detail : Bytes
  documentation : Bytes
  markdown : Bool
  deriving DecidableEq, Repr

/-- `getDetailFromTextEdit` (`symbolConverter.go:454-460`). -/
def nameDetail (name : TypeString) (edit : Option Bytes) : Bytes :=
  match edit with
  | some text => name.fqn ++ (b!"\n\n" ++ text)
  | none => name.fqn

/-- `hasParamsDetailWithTextEdit` (`symbolConverter.go:395-406`). -/
def paramsDetail (nameLabel : Bytes) (params : List Parameter) (edit : Option Bytes) : Bytes :=
  let s := nameLabel ++ b!"(" ++ Show.concatParams params ++ b!")"
  match edit with
  | some text => s ++ b!"\n" ++ text
  | none => s

/-- `Method.GetNameLabel` (`method.go:200-207`). -/
def methodLabel (m : Method) : Bytes :=
  Show.visibilityText m.visibility ++ (if m.isStatic then b!" static" else []) ++ (b!" " ++ m.name)

/-- `methodDocumentation`, `propDocumentation` (`symbolConverter.go:408-428`). -/
def memberDocumentation (md : Bytes → Option Bytes) (s : Show.Scope) (description : Bytes) : Bytes :=
  Show.scopeText s false ++ b!"\n\n" ++ Show.descriptionText md description false

/-- The text that the additional edit of an item inserts: `ResolveToQualified` passes on what `GetUseEdit` gives
(`importTable.go`, `insertUse.go:69-104`). -/
def editText (c : Imports.InsertUse) (eol : Bytes) (use : Option (Bytes × Imports.SymKind)) : Option Bytes :=
  use.bind fun u => (c.useEdit eol u.1 u.2 []).map Prod.snd

/-- What the item of a name says: `classToCompletionItem`, `interfaceToCompletionItem`, `traitToCompletionItem`
(`symbolConverter.go:462-502`), the literals of `nameCompletion` (`completion.go:233-285`) and, if `asType`, those of
`typeCompletion` (`completion.go:420-449`). A trait has no description (`trait.go:68-71`). -/
def nameDetails (asType : Bool) (edit : Option Bytes) : Sym → Option Details
  | .cla c => some ⟨.class_, nameDetail c.name edit, c.description, false⟩
  | .int c => some ⟨if asType then .class_ else .interface_, nameDetail c.name edit, c.description, false⟩
  | .tra c => some ⟨.class_, nameDetail c.name edit, [], false⟩
  | .con c => some ⟨.constant, nameDetail c.name edit, Show.constDescription c, false⟩
  | .def_ c => some ⟨.constant, nameDetail c.name edit, Show.constDescription c, false⟩
  | .fn f => some ⟨.function, paramsDetail f.name.original f.params edit, f.description, false⟩
  | _ => none

/-- What the item of a member says: `methodToCompletionItem`, `propToCompletionItem`, `classConstToCompletionItem`
(`symbolConverter.go:504-540`); `s` is the symbol that the member was found in. -/
def memberDetails (md : Bytes → Option Bytes) (s : Show.Scope) : Sym → Option Details
  | .met m => some ⟨.method, paramsDetail (methodLabel m) m.params none, memberDocumentation md s m.description, true⟩
  | .pro p => some ⟨.property, Show.typesText p.types, memberDocumentation md s p.description, true⟩
  | .claCon c => some ⟨.constant, [], c.description, false⟩
  | _ => none

end Verif.Whole
