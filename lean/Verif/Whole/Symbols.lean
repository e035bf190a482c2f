import Verif.Store.Model

/-! The request `workspace/symbol`: all folders are searched for a word. -/

namespace Verif.Whole

open Verif.Encoding Verif.Storage Verif.Store

/-- The kinds of the protocol that occur in answers (`protocol.SymbolKind`). -/
inductive InfoKind where
  | class_ | constant | function | interface | method | property
  deriving DecidableEq, Repr

/-- An entry of the answer (`protocol.SymbolInformation`). -/
structure SymbolInfo where
  kind : InfoKind
  name : Bytes
  location : Location
  container : Bytes
  deriving DecidableEq, Repr

/-- `internal/lsp/symbol.go:137-144`. -/
def classInfo (c : Class) : SymbolInfo := ⟨.class_, c.name.fqn, c.location, []⟩
/-- `internal/lsp/symbol.go:145-152`. -/
def constInfo (c : Const) : SymbolInfo := ⟨.constant, c.name.fqn, c.location, []⟩
/-- `internal/lsp/symbol.go:153-161`. -/
def classConstInfo (c : ClassConst) : SymbolInfo := ⟨.constant, c.name, c.location, c.scope.fqn⟩
/-- `internal/lsp/symbol.go:162-169`. -/
def defineInfo (c : Const) : SymbolInfo := ⟨.constant, c.name.fqn, c.location, []⟩
/-- `internal/lsp/symbol.go:170-177`. -/
def functionInfo (c : Function) : SymbolInfo := ⟨.function, c.name.fqn, c.location, []⟩
/-- `internal/lsp/symbol.go:178-185`. -/
def interfaceInfo (c : Interface) : SymbolInfo := ⟨.interface, c.name.fqn, c.location, []⟩
/-- `internal/lsp/symbol.go:186-194`. -/
def methodInfo (c : Method) : SymbolInfo := ⟨.method, c.name, c.location, c.scope.fqn⟩
/-- `internal/lsp/symbol.go:195-203`. -/
def propertyInfo (c : Property) : SymbolInfo := ⟨.property, c.name, c.location, c.scope.fqn⟩
/-- `internal/lsp/symbol.go:204-211`. -/
def traitInfo (c : Trait) : SymbolInfo := ⟨.class_, c.name.fqn, c.location, []⟩

/-- One search and the loop over its results (e.g. `internal/lsp/symbol.go:137-144`). The number is the counter of
the limiter, which all searches of a request share (`opts`, 135). `none` is a panic. -/
def listed {α} (info : α → SymbolInfo) (search : Nat → Option (Found α × Bool)) (acc : Option (List SymbolInfo × Nat)) :
    Option (List SymbolInfo × Nat) :=
  acc.bind fun a => (search a.2).map fun r => (a.1 ++ r.1.results.map info, r.1.count)

/-- `baseSearchOptions` (`internal/lsp/server.go:76-78`). -/
def baseLimit : Option Int := some 1000

/-- One round of the loop over the folders (`internal/lsp/symbol.go:136-212`). -/
def storeSymbols (env : Env) (query : Bytes) (acc : Option (List SymbolInfo × Nat)) (s : Store) :
    Option (List SymbolInfo × Nat) :=
  let acc := listed classInfo (s.searchClasses env query (fun _ => true) baseLimit) acc
  let acc := listed constInfo (s.searchConsts env query (fun _ => true) baseLimit) acc
  let acc := listed classConstInfo (s.searchClassConsts env [] query (fun _ => true) baseLimit) acc
  let acc := listed defineInfo (s.searchDefines env query (fun _ => true) baseLimit) acc
  let acc := listed functionInfo (s.searchFunctions env query (fun _ => true) baseLimit) acc
  let acc := listed interfaceInfo (s.searchInterfaces env query (fun _ => true) baseLimit) acc
  let acc := listed methodInfo (s.searchMethods env [] query (fun _ => true) baseLimit) acc
  let acc := listed propertyInfo (s.searchProperties env [] query (fun _ => true) baseLimit) acc
  listed traitInfo (s.searchTraits env query (fun _ => true) baseLimit) acc

/-- `workspaceSymbol` (`internal/lsp/symbol.go:132-215`). -/
def workspaceSymbol (env : Env) (stores : List Store) (query : Bytes) : Option (List SymbolInfo) :=
  if query = [] then some []
  else (stores.foldl (storeSymbols env query) (some ([], 0))).map (·.1)

end Verif.Whole
