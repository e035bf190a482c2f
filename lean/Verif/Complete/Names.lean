import Verif.Store.Model
import Verif.Imports.Model

/-! Model of the completion of names (`internal/lsp/completion.go:214-317`, `413-457`, `516-546`): what is offered, with
which text, and whether the list is marked as incomplete. -/

namespace Verif.Complete

open Verif.Encoding Verif.Store Verif.Types Verif.Imports

/-- A name that the index stores, as `ResolveToQualified` takes it. -/
def nameTy (t : TypeString) : Ty := { fqn := t.fqn, original := t.original, arrayLevel := t.arrayLevel.toInt }

/-- A `CompletionItem` for a name: the symbol it was made from, the label, the text that is inserted and the name that
an additional `use` statement imports. Documentation and detail are left out. -/
inductive Item where
  | sym (x : Sym) (label insert : Bytes) (use : Option (Bytes × SymKind))
  /-- `namespaceToCompletionItem` (`symbolConverter.go:446-452`) -/
  | ns (name insert : Bytes)
  deriving DecidableEq, Repr

/-- `hasParamsInsertText` (`symbolConverter.go:388-393`). -/
def callText (hasParams : Bool) (label : Bytes) : Bytes := if hasParams then label ++ b!"($0)" else label ++ b!"()"

/-- The item of a symbol with an offer of `ResolveToQualified`: `classToCompletionItem`, `interfaceToCompletionItem`,
`traitToCompletionItem` (`symbolConverter.go:462-502`) and the literals in `completion.go:239-285`. An item without an
insert text inserts its label. -/
def itemOf (insert : Bytes → Bytes) (x : Sym) (o : Option Offer) : Option Item :=
  o.map fun o => .sym x o.label (insert o.label) o.use

/-- `normaliseNamespaceName` (`symbolConverter.go:430-435`). -/
def normaliseNamespace (name : Bytes) : Bytes :=
  match name with
  | [] => []
  | c :: cs => if c = 92 then c :: cs else 92 :: c :: cs

/-- `namespaceDiff` (`symbolConverter.go:437-444`); `strings.Index(full, sub) == 0` says that `full` starts with `sub`. -/
def namespaceDiff (full sub : Bytes) : Bytes :=
  let full := normaliseNamespace full
  let sub := normaliseNamespace sub
  if sub.isPrefixOf full then
    match lastIndexB 92 (full.take sub.length) with
    | some i => full.drop (i + 1)
    | none => full
  else full

/-- The list under construction: items, `IsIncomplete`, and the counter of the limiter that all searches of a request
share (`baseSearchOptions`, `server.go:76-78`). -/
structure CList where
  items : List Item
  incomplete : Bool
  count : Nat

/-- One search with the loop over its results: `xs, searchResult := store.SearchX(word, opts)`,
`completionList.IsIncomplete = !searchResult.IsComplete`, then one item per result (e.g. `completion.go:220-226`). -/
def searchAll {α} (search : Nat → Option (Found α × Bool)) (item : α → Option Item) (l : CList) : Option CList :=
  match search l.count with
  | none => none
  | some (f, complete) =>
    (f.results.mapM item).map fun is => { items := l.items ++ is, incomplete := !complete, count := f.count }

section
variable (env : Env) (s : Store) (tbl : Table) (word : Bytes) (limit : Option Int)

/-- `SearchClasses` and the items of the classes (`completion.go:220-226`, `300-315`, `419-434`). -/
def addClasses : CList → Option CList :=
  searchAll (s.searchClasses env word (fun _ => true) limit) fun c : Class =>
    itemOf id (.cla c) (tbl.resolveToQualified .other (nameTy c.name) word)

/-- `SearchInterfaces` and the items (`completion.go:227-232`, `435-449`, `522-528`). -/
def addInterfaces : CList → Option CList :=
  searchAll (s.searchInterfaces env word (fun _ => true) limit) fun c : Interface =>
    itemOf id (.int c) (tbl.resolveToQualified .other (nameTy c.name) word)

/-- `SearchTraits` and the items (`completion.go:538-544`). -/
def addTraits : CList → Option CList :=
  searchAll (s.searchTraits env word (fun _ => true) limit) fun c : Trait =>
    itemOf id (.tra c) (tbl.resolveToQualified .other (nameTy c.name) word)

/-- `SearchConsts` and the items (`completion.go:233-248`). -/
def addConsts : CList → Option CList :=
  searchAll (s.searchConsts env word (fun _ => true) limit) fun c : Const =>
    itemOf id (.con c) (tbl.resolveToQualified .constant (nameTy c.name) word)

/-- `SearchDefines` and the items (`completion.go:249-265`). -/
def addDefines : CList → Option CList :=
  searchAll (s.searchDefines env word (fun _ => true) limit) fun c : Const =>
    itemOf id (.def_ c) (tbl.resolveToQualified .define (nameTy c.name) word)

/-- `SearchFunctions` and the items (`completion.go:266-285`). -/
def addFunctions : CList → Option CList :=
  searchAll (s.searchFunctions env word (fun _ => true) limit) fun c : Function =>
    itemOf (callText (!c.params.isEmpty)) (.fn c) (tbl.resolveToQualified .function (nameTy c.name) word)

/-- The namespaces, for words with a leading `\` (`completion.go:286-291`, `452-457`). -/
def addNamespaces (l : CList) : Option CList :=
  if isFQN word then
    (s.searchNamespaces env word).map fun (names, _) =>
      { l with items := l.items ++ names.map fun n => .ns n (namespaceDiff n word) }
  else some l

/-- A new list and a new limiter. -/
def CList.empty : CList := { items := [], incomplete := true, count := 0 }

/-- `nameCompletion` (`completion.go:214-293`): in expressions. `tbl` is the import table at the position. -/
def nameCompletion : Option CList := do
  let l ← addClasses env s tbl word limit CList.empty
  let l ← addInterfaces env s tbl word limit l
  let l ← addConsts env s tbl word limit l
  let l ← addDefines env s tbl word limit l
  let l ← addFunctions env s tbl word limit l
  addNamespaces env s word l

/-- `classCompletion` (`completion.go:295-317`): after `extends` and `new`. -/
def classCompletion : Option CList := addClasses env s tbl word limit CList.empty

/-- `interfaceCompletion` (`completion.go:516-530`): after `implements`. -/
def interfaceCompletion : Option CList := addInterfaces env s tbl word limit CList.empty

/-- `traitCompletion` (`completion.go:532-546`): after `use` in a class. -/
def traitCompletion : Option CList := addTraits env s tbl word limit CList.empty

/-- `typeCompletion` (`completion.go:413-459`): for declared types and in front of `::`. -/
def typeCompletion : Option CList := do
  let l ← addClasses env s tbl word limit CList.empty
  let l ← addInterfaces env s tbl word limit l
  addNamespaces env s word l

end

/-- The limit of every completion request (`baseSearchOptions`, `server.go:76-78`). -/
def baseLimit : Option Int := some 1000

end Verif.Complete
