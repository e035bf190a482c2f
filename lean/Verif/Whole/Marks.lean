import Verif.Whole.Model

/-! Marks for uses of deprecated declarations, on top of the store. -/

namespace Verif.Whole

open Verif.Encoding Verif.Storage Verif.Store Verif.Query

/-- `DeprecatedDiagnostics` (`analysis/diagnostic.go:82-327`) with the store in this state: the ranges that are marked and the
declarations because of which they are. -/
def deprecatedIn (env : Env) (s : Store) (n ni : Nat) (us : List (Rng × Imports.Table × Use)) :
    Option (List (Rng × Sym)) :=
  (deprecatedDiagnostics (siteOf env s) n ni us).map fun r => r.filterMap fun x => ((decls s)[x.2]?).map fun y => (x.1, y)

end Verif.Whole
