import Verif.Whole.Model
import Verif.Query.Hover
import Verif.Show.Model

/-! Signature help, on top of the store. -/

namespace Verif.Whole

open Verif.Encoding Verif.Storage Verif.Store Verif.Query

/-- The declarations that signature help describes (`internal/lsp/signature.go:40-44`) with the store in this state. `last`
is the last import table of the document. -/
def describedIn (env : Env) (s : Store) (last : Imports.Table) (n ni : Nat) (u : Use) : Option (List Sym) :=
  (signatures (siteOf env s) last n ni u).map fun r => r.filterMap fun d => (decls s)[d]?

/-- What it says about one of them: `hasParamToSignatureInformation` (`signature.go:94-120`); only functions and methods
have parameters. -/
def signatureOf : Sym → Option Show.Signature
  | .fn f => some (Show.functionSignature f)
  | .met m => some (Show.methodSignature m)
  | _ => none

/-- The signatures of the answer (`signature.go:40-44`). The number of the active parameter is in `Marks`. -/
def signatureHelpIn (env : Env) (s : Store) (last : Imports.Table) (n ni : Nat) (u : Use) :
    Option (List Show.Signature) :=
  (describedIn env s last n ni u).map fun r => r.filterMap signatureOf

end Verif.Whole
