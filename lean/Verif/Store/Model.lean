import Verif.Common.Strings
import Verif.Encoding.Model
import Verif.Storage.Model

/-!
Model of the symbol store: `analysis/store.go`, `analysis/completionIndex.go`,
`analysis/referenceIndex.go`, `analysis/filter/filter.go` and the key functions of the symbols.

* `db` and `comDB` are the two goleveldb stores (`store.go:114-115`), `greb` the pogreb hash table
  (`store.go:116`; contract: a map with durable puts).
* Parsing is not modelled: a `Doc` carries what `writeAllSymbols` collects from the parsed document.
* Library and Unicode functions are parameters (`Env`).
* A Go panic (decoding a damaged record) is `none`.
* Logging and timing are omitted. Operations of the store run one at a time (callers hold the
  document lock; interleavings of different documents are sequences of these operations).
-/

namespace Verif.Store

open Verif.Encoding Verif.Storage

/-- `KeySep` (`store.go:59`). -/
def sep : UInt8 := 0

/-- `xorfilter.Xor8`. -/
structure XorHead where
  seed : BitVec 64
  blockLength : BitVec 32
  fingerprints : Bytes
  deriving DecidableEq, Repr

/-- External functions. -/
structure Env where
  /-- `strings.ToLower` -/
  lower : Bytes → Bytes
  /-- `wordtokeniser.Tokenise` (modelled separately in `Verif.Tokenise`) -/
  tokenise : Bytes → List Bytes
  /-- `string([]rune(s)[1:])` (`property.go:141-146`) for non-empty `s` -/
  dropRune : Bytes → Bytes
  /-- `xorfilter.Populate` on the xxhash sums of the keys; `none` is the error case -/
  populate : List Bytes → Option XorHead
  /-- `Xor8.Contains(xxhash.Sum64(key))` -/
  contains : XorHead → Bytes → Bool

/-! ### keys -/

def cDocSym : Bytes := b!"docSym"
def cCla : Bytes := b!"cla"
def cInt : Bytes := b!"int"
def cTra : Bytes := b!"tra"
def cFun : Bytes := b!"fun"
def cCon : Bytes := b!"con"
def cDef : Bytes := b!"def"
def cMet : Bytes := b!"met"
def cClaCon : Bytes := b!"claCon"
def cPro : Bytes := b!"pro"
def cGloVar : Bytes := b!"gloVar"
def cDoc : Bytes := b!"doc"
def cDocNs : Bytes := b!"docNs"
def cDocCom : Bytes := b!"docCom"
def cFunCom : Bytes := b!"funCom"
def cConCom : Bytes := b!"conCom"
def cDefCom : Bytes := b!"defCom"
def cClaCom : Bytes := b!"claCom"
def cIntCom : Bytes := b!"intCom"
def cTraCom : Bytes := b!"traCom"
def cMetCom : Bytes := b!"metCom"
def cProCom : Bytes := b!"proCom"
def cClaConCom : Bytes := b!"claConCom"
def cNamCom : Bytes := b!"namCom"
def cRefInd : Bytes := b!"refInd"
/-- `filterCollection` (`referenceIndex.go:15`). -/
def cFilter : Bytes := b!"filter"
/-- `versionKey` (`store.go:56`). -/
def versionKey : Bytes := b!"Version"

/-- `newEntry(collection, key).getKeyBytes()` (`store.go:66-75`). -/
def entryKey (collection key : Bytes) : Bytes := collection ++ sep :: key

/-- `GetClassFQNLowerCase` (`class.go:209-215`). -/
def classFQNLower (env : Env) (fqn : Bytes) : Bytes :=
  match lastIndexB 92 fqn with
  | some i => fqn.take i ++ 92 :: env.lower (fqn.drop (i + 1))
  | none => fqn

/-- `Position.String` (`protocol.go:2818-2824`). -/
def posString (p : Position) : Bytes := itoa p.line.toInt ++ 58 :: itoa p.character.toInt
/-- `Range.String` (`protocol.go:2851-2857`). -/
def rangeString (r : Range) : Bytes := posString r.start ++ 45 :: posString r.stop

/-- The serialisable symbols of a document. -/
inductive Sym where
  | cla (c : Class) | int (c : Interface) | tra (c : Trait) | fn (c : Function) | con (c : Const)
  | def_ (c : Const) | met (c : Method) | claCon (c : ClassConst) | pro (c : Property)
  | gloVar (c : GlobalVariable)
  deriving DecidableEq, Repr

/-- `GetCollection` of each kind (`class.go:203`, `interface.go:107`, `trait.go:73`,
`function.go:134`, `const.go:81`, `define.go:110`, `method.go:184`, `classConst.go:122`,
`property.go:133`, `globalVariable.go:88`). -/
def Sym.coll : Sym → Bytes
  | .cla _ => cCla | .int _ => cInt | .tra _ => cTra | .fn _ => cFun | .con _ => cCon
  | .def_ _ => cDef | .met _ => cMet | .claCon _ => cClaCon | .pro _ => cPro | .gloVar _ => cGloVar

/-- `TypeString.IsEmpty` (`symbolType.go:87-89`), `TypeComposite.IsEmpty` (`275-287`). -/
def typesEmpty (t : TypeComposite) : Bool := t.all fun s => s.fqn == [] || s.fqn == [92]

/-- `GetKey` of each kind (`class.go:217`, `interface.go:111`, `trait.go:77`, `function.go:138`,
`const.go:85`, `define.go:114`, `method.go:188`, `classConst.go:126`, `property.go:137`,
`globalVariable.go:92-97`). -/
def Sym.key (env : Env) : Sym → Bytes
  | .cla c => classFQNLower env c.name.fqn ++ sep :: c.location.uri
  | .int c => c.name.fqn ++ sep :: c.location.uri
  | .tra c => c.name.fqn ++ sep :: c.location.uri
  | .fn c => c.name.fqn ++ sep :: c.location.uri
  | .con c => c.name.fqn ++ sep :: c.location.uri
  | .def_ c => c.name.fqn ++ sep :: c.location.uri
  | .met c => c.scope.fqn ++ sep :: (env.lower c.name ++ sep :: c.location.uri)
  | .claCon c => c.scope.fqn ++ sep :: c.name
  | .pro c => c.scope.fqn ++ sep :: (c.name ++ sep :: (c.location.uri ++ rangeString c.location.range))
  | .gloVar c => if typesEmpty c.types then [] else c.name ++ sep :: c.location.uri

/-- `Serialise` of each kind. -/
def Sym.serialise : Sym → Bytes
  | .cla c => c.serialise | .int c => c.serialise | .tra c => c.serialise | .fn c => c.serialise
  | .con c => c.serialise | .def_ c => c.serialise | .met c => c.serialise
  | .claCon c => c.serialise | .pro c => c.serialise | .gloVar c => c.serialise

/-- `GetIndexCollection` and `GetIndexableName` of the kinds that are `NameIndexable`
(`class.go:221-227`, `interface.go:115-121`, `trait.go:81-87`, `function.go:142-148`,
`const.go:89-95`, `define.go:118-124`, `method.go:192-198`, `classConst.go:130-136`,
`property.go:141-150`); global variables are not indexed. -/
def Sym.indexable (env : Env) : Sym → Option (Bytes × Bytes)
  | .cla c => some (cClaCom, c.name.original)
  | .int c => some (cIntCom, c.name.original)
  | .tra c => some (cTraCom, c.name.original)
  | .fn c => some (cFunCom, c.name.original)
  | .con c => some (cConCom, c.name.original)
  | .def_ c => some (cDefCom, c.name.original)
  | .met c => some (cMetCom, c.name)
  | .claCon c => some (cClaConCom, c.name)
  | .pro c => some (cProCom, if c.name.length = 0 then [] else env.dropRune c.name)
  | .gloVar _ => none

/-- Key in `db` of a symbol. -/
def Sym.dbKey (env : Env) (s : Sym) : Bytes := entryKey s.coll (s.key env)

/-- What `writeAllSymbols` (`store.go:498-556`) takes from a parsed document. -/
structure Doc where
  uri : Bytes
  /-- `document.GetHash()` -/
  hash : Bytes
  /-- serialisable symbols in traversal order -/
  symbols : List Sym
  /-- `GetNamespace()` of each import table -/
  namespaces : List Bytes
  /-- reference entries collected at 534-551: FQN and range -/
  refs : List (Bytes × Range)
  deriving DecidableEq, Repr

/-- Symbols with a non-empty key; the others are skipped (`store.go:514-517`). -/
def Doc.keyed (env : Env) (d : Doc) : List Sym := d.symbols.filter fun s => s.key env != []

/-! ### document symbols (pogreb) -/

/-- `indexDocumentSymbols` (`store.go:558-566`) with `documentSymbol.serialise` (`87-91`);
`indexableName` is never set (`521-524`). -/
def docSymBytes (env : Env) (ss : List Sym) : Bytes :=
  writeMany (fun s => writeString s.coll ++ writeString (s.key env) ++ writeString []) ss

/-- `readDocumentSymbol` (`store.go:93-99`). -/
def readDocSym : Dec (Bytes × Bytes) := do
  let collection ← readString
  let key ← readString
  let _ ← readString
  return (collection, key)

/-- `readDocumentSymbols` (`store.go:126-141`) as used by `newSymbolDeletor` (`148-158`): the db keys
to delete. `none` is a panic. -/
def readDocSyms (greb : Entries) (uri : Bytes) : Option (List Bytes) :=
  match Storage.get (entryKey cDocSym uri) greb with
  | none => some []
  | some b =>
    if b.length = 0 then some [] else
    (readMany readDocSym b).map fun r => r.1.map fun p => entryKey p.1 p.2

/-- `symbolDeletor` after `MarkNotDelete` of every written symbol (`store.go:160-162`): what
`Delete` (`164-168`) will delete. `symbols` is a set; order is irrelevant for deletes. -/
def remaining (env : Env) (old : List Bytes) (written : List Sym) : List Bytes :=
  old.filter fun k => !(written.any fun s => s.dbKey env == k)

/-! ### completion index -/

/-- `getCompletionKeys` (`completionIndex.go:112-124`). -/
def completionKeys (env : Env) (name symbolKey : Bytes) : List Bytes :=
  (env.tokenise name).map fun token => env.lower token ++ sep :: symbolKey

/-- `createCompletionEntries` and `createEntryToReferCompletionIndex` (`completionIndex.go:45-68`),
written by `indexName` (`store.go:568-573`). -/
def indexNameOps (env : Env) (uri indexColl name symbolKey : Bytes) : List BOp :=
  let keys := (completionKeys env name symbolKey).map (entryKey indexColl)
  keys.map (fun k => BOp.put k (writeString symbolKey)) ++
    [BOp.put (entryKey cDocCom (uri ++ sep :: symbolKey)) (writeMany writeString keys)]

/-- `indexablesFromNamespaceName` (`namespace.go:43-65`): (scope, name) per level, and the key. -/
def nsLevels (scope : Bytes) : List Bytes → List (Bytes × Bytes)
  | [] => []
  | part :: parts =>
    (scope, part) :: nsLevels ((if scope = [] then [] else scope ++ [92]) ++ part) parts

/-- The leading `\\` is dropped (`namespace.go:46-48`). -/
def dropBackslash : Bytes → Bytes
  | [] => []
  | c :: t => if c = 92 then t else c :: t

def indexablesFromNamespaceName (ns : Bytes) : List (Bytes × Bytes) × Bytes :=
  let name := dropBackslash ns
  (if name.length > 0 then nsLevels [] (splitB 92 name) else [], 92 :: name)

/-- `indexableNamespace.GetIndexCollection` (`namespace.go:71-78`). -/
def nsCollection (scope : Bytes) : Bytes :=
  if scope = [] ∨ scope = [92] then cNamCom else cNamCom ++ sep :: 92 :: scope

/-- the namespace part of `writeAllSymbols` (`store.go:501-508`). -/
def namespaceOps (env : Env) (uri : Bytes) (ns : Bytes) : List BOp :=
  let (is, key) := indexablesFromNamespaceName ns
  is.zipIdx.flatMap fun (i, index) =>
    indexNameOps env uri (nsCollection i.1) i.2 (key ++ sep :: itoa index)

/-- all operations put in the completion batch by `writeAllSymbols`. -/
def completionOps (env : Env) (d : Doc) : List BOp :=
  d.namespaces.flatMap (namespaceOps env d.uri) ++
  (d.keyed env).flatMap fun s =>
    match s.indexable env with
    | some (c, name) => indexNameOps env d.uri c name (s.key env)
    | none => []

/-- `newCompletionIndexDeletor` + `Delete` (`completionIndex.go:75-110`) on the store given: delete
the completion entries registered for every URI that *starts with* `uri`, and the registrations. -/
def completionDeletorOps (db : LevelDB) (uri : Bytes) : Option (List BOp) :=
  db.prefixStream (entryKey cDocCom uri) (σ := Option (List BOp)) (fun acc e =>
    (match acc, readMany readString e.2 with
      | some ops, some (keys, _) => some (ops ++ keys.map BOp.del ++ [BOp.del e.1])
      | _, _ => none, false)) (some [])

/-! ### reference index -/

/-- `filter.Filter` (`filter/filter.go:16-21`). -/
structure Filter where
  isCommited : Bool
  head : Option XorHead
  buffer : List Bytes
  deriving DecidableEq, Repr

/-- `NewFilter` (`filter.go:24-29`). -/
def Filter.new : Filter := ⟨false, none, []⟩
/-- `Filter.Insert` (`filter.go:32-35`). -/
def Filter.insert (f : Filter) (k : Bytes) : Filter := { f with buffer := f.buffer ++ [k] }
/-- `Filter.Commit` (`filter.go:38-61`): `dataWithoutDup` (102-117) sorts and removes duplicates;
only the *set* of keys matters to the filter, so we pass the buffer without duplicates. An error of
`Populate` leaves a nil head. -/
def Filter.commit (env : Env) (f : Filter) : Filter :=
  if f.buffer.length = 0 then { f with isCommited := true }
  else { isCommited := true, head := env.populate f.buffer.eraseDups, buffer := [] }
/-- `Filter.Lookup` (`filter.go:63-70`): an error counts as "no" for the caller
(`referenceIndex.go:147-151`). -/
def Filter.lookup (env : Env) (f : Filter) (k : Bytes) : Bool :=
  match f.head with
  | none => false
  | some h => f.isCommited && env.contains h k
/-- `Filter.Encode` (`filter.go:73-84`), called after `Commit`. -/
def Filter.encode (f : Filter) : Bytes :=
  match f.head with
  | none => []
  | some h => writeUInt64 h.seed ++ writeUInt32 h.blockLength ++ writeString h.fingerprints
/-- `FilterDecode` (`filter.go:87-100`). -/
def filterDecode (b : Bytes) : Option Filter :=
  if b.length = 0 then some ⟨true, none, []⟩ else do
    let (seed, b) ← readUInt64 b
    let (blockLength, b) ← readUInt32 b
    let (fingerprints, _) ← readString b
    return ⟨true, some { seed, blockLength, fingerprints }, []⟩

/-- In-memory reference entries: canonical URI to filter (`referenceIndex.go:65-68`). The map is
unordered; we keep insertion order. -/
abbrev RefMap := List (Bytes × Filter)

def RefMap.find (m : RefMap) (k : Bytes) : Option Filter := (m.find? fun e => e.1 == k).map (·.2)
def RefMap.set (m : RefMap) (k : Bytes) (f : Filter) : RefMap :=
  if m.any (fun e => e.1 == k) then m.map (fun e => if e.1 == k then (k, f) else e) else m ++ [(k, f)]

/-- `haveReferences` (`referenceIndex.go:164-166`). -/
def haveReferences (uri : Bytes) : Bool := !(b!"phpstorm-stubs://".isPrefixOf uri)

/-- `CanonicaliseURI` (`util/uri.go:92-94`). -/
def canonicaliseURI (parent child : Bytes) : Bytes := trimPrefix child parent
/-- `URIFromCanonicalURI` (`util/uri.go:98-103`). -/
def uriFromCanonical (parent canonical : Bytes) : Bytes :=
  if parent.isPrefixOf canonical then canonical else parent ++ canonical

/-- `entryInfo.serialise` (`referenceIndex.go:22-26`). -/
def writeEntryInfo (i : Bytes × Range) : Bytes :=
  writeString i.1 ++ writePosition i.2.start ++ writePosition i.2.stop
/-- `entryInfoDecode` (`referenceIndex.go:28-36`). -/
def readEntryInfo : Dec (Bytes × Range) := do
  let ref ← readString
  let s ← readPosition
  let e ← readPosition
  return (ref, ⟨s, e⟩)

def refKey (canonical : Bytes) : Bytes := entryKey cRefInd canonical
def refFilterKey (canonical : Bytes) : Bytes := entryKey cRefInd (cFilter ++ sep :: canonical)

/-- `referenceIndex.index` (`referenceIndex.go:94-126`): new in-memory map and batch operations. -/
def refIndexOps (env : Env) (root : Bytes) (m : RefMap) (uri : Bytes) (infos : List (Bytes × Range)) :
    RefMap × List BOp :=
  if !haveReferences uri then (m, []) else
  let c := canonicaliseURI root uri
  let f := (m.find c).getD Filter.new
  let f := (infos.foldl (fun f i => f.insert i.1) f).commit env
  (m.set c f, [BOp.put (refKey c) (writeMany writeEntryInfo infos), BOp.put (refFilterKey c) f.encode])

/-- `referenceIndex.deleteURI` (`referenceIndex.go:128-139`). -/
def refDeleteOps (root : Bytes) (m : RefMap) (uri : Bytes) : List BOp :=
  if !haveReferences uri then [] else
  let c := canonicaliseURI root uri
  if (m.find c).isSome then [BOp.del (refKey c), BOp.del (refFilterKey c)] else []

/-- The callback of `newReferenceIndex` (`referenceIndex.go:80-87`). -/
def loadStep (acc : Option RefMap) (e : Bytes × Bytes) : Option RefMap :=
  match acc, filterDecode e.2 with
  | some m, some f => some (m.set ((splitB sep e.1).getD 2 []) f)
  | _, _ => none

/-- `newReferenceIndex` (`referenceIndex.go:70-92`): load all filters from the store. -/
def loadRefs (db : LevelDB) : Option RefMap :=
  db.prefixStream (refFilterKey []) (fun acc e => (loadStep acc e, false)) (some [])

/-! ### the store -/

/-- `Store` (`store.go:111-124`). -/
structure Store where
  uri : Bytes
  db : LevelDB
  comDB : LevelDB
  greb : Entries
  refs : RefMap
  /-- `syncedDocumentURIs`: URI to recorded hash -/
  synced : List (Bytes × Bytes)
  deriving DecidableEq, Repr

def Store.new (uri : Bytes) : Store := ⟨uri, LevelDB.new, LevelDB.new, [], [], []⟩

/-- The batch `SyncDocument` (`store.go:429-449`) commits to `db`, in order: remove the references
(435), write the symbols (512-520), index the references (555), delete the symbols that are no longer
declared (439), record the hash (440-441). -/
def syncOps (env : Env) (s : Store) (d : Doc) (old : List Bytes) : List BOp :=
  refDeleteOps s.uri s.refs d.uri
  ++ (d.keyed env).map (fun x => BOp.put (x.dbKey env) x.serialise)
  ++ (refIndexOps env s.uri s.refs d.uri d.refs).2
  ++ (remaining env old (d.keyed env)).map BOp.del
  ++ [BOp.put (entryKey cDoc d.uri) d.hash]

/-- `SyncDocument`; `none` if the recorded symbol list cannot be decoded (panic). The completion
deletor built at 433 is never applied, so it has no effect and is left out. -/
def Store.sync (env : Env) (s : Store) (d : Doc) : Option Store := do
  let old ← readDocSyms s.greb d.uri
  let greb := Storage.put (entryKey cDocSym d.uri) (docSymBytes env (d.keyed env)) s.greb
  let greb := Storage.put (entryKey cDocNs d.uri) (writeInt 0) greb   -- 554, 575-583: always empty
  let comDB := s.comDB.writeBatch [] (completionOps env d) true
  let db := s.db.writeBatch [] (syncOps env s d old) true
  let refs := (refIndexOps env s.uri s.refs d.uri d.refs).1
  return { s with db, comDB, greb, refs }

/-- `DeleteDocument` (`store.go:368-382`): one batch on `db`; note the completion deletor is built
from `db`, the deletor's record in `greb` and the completion store stay as they are. -/
def Store.deleteDocument (s : Store) (uri : Bytes) : Option Store := do
  let com ← completionDeletorOps s.db uri
  let old ← readDocSyms s.greb uri
  let ops := com ++ old.map BOp.del ++ refDeleteOps s.uri s.refs uri ++ [BOp.del (entryKey cDoc uri)]
  return { s with db := s.db.writeBatch [] ops true }

/-- `DeleteFolder` (`store.go:385-391`): stream the recorded documents whose key starts with the
folder URI (an engine iterator works on a snapshot), delete each. -/
def Store.deleteFolder (s : Store) (uri : Bytes) : Option Store :=
  s.db.prefixStream (entryKey cDoc uri) (σ := Option Store) (fun acc e =>
    (acc.bind fun s => s.deleteDocument ((splitB sep e.1).getD 1 []), false)) (some s)

def mapFind (m : List (Bytes × Bytes)) (k : Bytes) : Option Bytes := (m.find? fun e => e.1 == k).map (·.2)

/-- `CompareAndIndexDocument` (`store.go:396-425`) for a document that could be read; `parse` stands
for `Load`. The flag says whether the document was (re-)indexed. -/
def Store.compareAndIndex (env : Env) (s : Store) (d : Doc) : Option (Store × Bool) :=
  let (saved, s) := match mapFind s.synced d.uri with
    | some v => (some v, { s with synced := s.synced.filter fun e => e.1 != d.uri })
    | none => (s.db.get (entryKey cDoc d.uri), s)
  if saved = some d.hash then some (s, false)
  else (s.sync env d).map fun s => (s, true)

/-- `PrepareForIndexing` with `getSyncedDocumentURIs` (`store.go:465-471`, `489-496`). -/
def Store.prepareForIndexing (s : Store) : Store :=
  { s with synced :=
      s.db.prefixStream (entryKey cDoc b!"file://") (fun m e =>
        let u := (splitB sep e.1).getD 1 []
        (m.filter (fun x => x.1 != u) ++ [(u, e.2)], false)) s.synced }

/-- `FinishIndexing` (`store.go:476-487`): the surrounding batch stays empty. -/
def Store.finishIndexing (s : Store) : Option Store :=
  s.synced.foldl (fun acc e =>
    acc.bind fun s => (s.deleteDocument e.1).map fun s =>
      { s with synced := s.synced.filter fun x => x.1 != e.1 }) (some s)

/-- `Store.Clear` (`store.go:270-272`): only `db`. -/
def Store.clear (s : Store) : Store := { s with db := s.db.clear }

/-- `GetStoreVersion` (`store.go:256-262`). -/
def Store.version (s : Store) : Bytes := (s.db.get versionKey).getD b!"v0.0.0"

/-- `PutVersion` (`store.go:265-267`). -/
def Store.putVersion (s : Store) (v : Bytes) : Store := { s with db := s.db.put versionKey v }

/-- `Migrate` (`store.go:276-290`). `older v` is the outcome of parsing `v` and comparing it with
`v0.0.13`: `none` when it does not parse (`semver.NewVersion` is a dependency). -/
def Store.migrate (older : Bytes → Option Bool) (s : Store) (newVersion : Bytes) : Store :=
  match older s.version with
  | none => s
  | some false => s
  | some true => s.clear.putVersion newVersion

/-! ### lookups by name -/

/-- The callback shared by all `GetX` (e.g. `store.go:655-658`): decode the value, append it. -/
def scanStep {α} (read : Dec α) (acc : Option (List α)) (e : Bytes × Bytes) : Option (List α) :=
  match acc, read e.2 with
  | some xs, some (x, _) => some (xs ++ [x])
  | _, _ => none

/-- `PrefixStream` decoding every value: the body shared by all `GetX` (e.g. `store.go:652-660`). -/
def scanDecode {α} (db : LevelDB) (prefix_ : Bytes) (read : Dec α) : Option (List α) :=
  db.prefixStream prefix_ (fun acc e => (scanStep read acc e, false)) (some [])

/-- `Store.GetClasses` (`store.go:652-660`). -/
def Store.getClasses (s : Store) (name : Bytes) := scanDecode s.db (entryKey cCla (name ++ [sep])) readClass
/-- `Query.GetClasses` (`query.go:30-41`), without the per-request cache. -/
def Store.queryClasses (env : Env) (s : Store) (name : Bytes) := s.getClasses (classFQNLower env name)
/-- `Store.GetInterfaces` (`store.go:731-739`). -/
def Store.getInterfaces (s : Store) (name : Bytes) :=
  scanDecode s.db (entryKey cInt (name ++ [sep])) readInterface
/-- `Store.GetTraits` (`store.go:772-780`). -/
def Store.getTraits (s : Store) (name : Bytes) := scanDecode s.db (entryKey cTra (name ++ [sep])) readTrait
/-- `Store.GetFunctions` (`store.go:813-821`). -/
def Store.getFunctions (s : Store) (name : Bytes) :=
  scanDecode s.db (entryKey cFun (name ++ [sep])) readFunction
/-- `Store.GetConsts` (`store.go:858-866`). -/
def Store.getConsts (s : Store) (name : Bytes) := scanDecode s.db (entryKey cCon (name ++ [sep])) readConst
/-- `Store.GetDefines` (`store.go:896-904`). -/
def Store.getDefines (s : Store) (name : Bytes) := scanDecode s.db (entryKey cDef (name ++ [sep])) readConst
/-- `Store.GetMethods` (`store.go:934-942`). -/
def Store.getMethods (env : Env) (s : Store) (scope name : Bytes) :=
  scanDecode s.db (entryKey cMet (scope ++ sep :: (env.lower name ++ [sep]))) readMethod
/-- `Store.GetAllMethods` (`store.go:947-955`). -/
def Store.getAllMethods (s : Store) (scope : Bytes) :=
  scanDecode s.db (entryKey cMet (scope ++ [sep])) readMethod
/-- `Store.GetClassConsts` (`store.go:999-1007`): no separator after the name. -/
def Store.getClassConsts (s : Store) (scope name : Bytes) :=
  scanDecode s.db (entryKey cClaCon (scope ++ sep :: name)) readClassConst
/-- `Store.GetAllClassConsts` (`store.go:1011-1019`). -/
def Store.getAllClassConsts (s : Store) (scope : Bytes) :=
  scanDecode s.db (entryKey cClaCon (scope ++ [sep])) readClassConst
/-- `Store.GetProperties` (`store.go:1057-1065`). -/
def Store.getProperties (s : Store) (scope name : Bytes) :=
  scanDecode s.db (entryKey cPro (scope ++ sep :: (name ++ [sep]))) readProperty
/-- `Store.GetAllProperties` (`store.go:1068-1076`). -/
def Store.getAllProperties (s : Store) (scope : Bytes) :=
  scanDecode s.db (entryKey cPro (scope ++ [sep])) readProperty
/-- `Store.GetGlobalVariables` (`store.go:1112-1120`). -/
def Store.getGlobalVariables (s : Store) (name : Bytes) :=
  scanDecode s.db (entryKey cGloVar (name ++ [sep])) readGlobalVariable

/-! ### references -/

/-- `referenceEntry.search` (`referenceIndex.go:48-63`). -/
def refSearchEntry (s : Store) (uri ref : Bytes) : Option (List Range) :=
  match s.db.get (refKey (canonicaliseURI s.uri uri)) with
  | none => some []
  | some data =>
    if data.length = 0 then some [] else
    (readMany readEntryInfo data).map fun r => (r.1.filter fun i => i.1 == ref).map (·.2)

/-- `referenceIndex.search` (`referenceIndex.go:141-162`), behind `GetReferences`
(`store.go:1123-1125`). -/
def Store.getReferences (env : Env) (s : Store) (ref : Bytes) : Option (List (Bytes × Range)) :=
  s.refs.foldl (fun acc e =>
    acc.bind fun rs =>
      if e.2.lookup env ref then
        let uri := uriFromCanonical s.uri e.1
        (refSearchEntry s uri ref).map fun xs => rs ++ xs.map fun r => (uri, r)
      else some rs) (some [])

/-- Restart: `NewStore` (`store.go:208-242`) over the same directories. -/
def Store.restart (s : Store) : Option Store :=
  (loadRefs s.db).map fun refs => { s with refs, synced := [] }

/-- The process dies while `SyncDocument d` runs and the server is started again. The durable writes
happen in this order: symbol list (`store.go:565`), namespace list (582), commit of the completion
batch (432), commit of the main batch (431); `point` of them have happened. A batch is committed as a
whole (C05); what was written before the crash stays written. In-memory state is lost. -/
def Store.crashDuring (env : Env) (s : Store) (d : Doc) (point : Nat) : Option Store := do
  let done ← s.sync env d
  Store.restart { s with
    greb := if point = 0 then s.greb
      else if point = 1 then Storage.put (entryKey cDocSym d.uri) (docSymBytes env (d.keyed env)) s.greb
      else done.greb
    comDB := if point < 3 then s.comDB else done.comDB
    db := if point < 4 then s.db else done.db }

/-! ### searches -/

/-- State of `searchCompletions` (`completionIndex.go:126-152`). -/
structure SearchSt (σ : Type) where
  user : σ
  seen : List Bytes
  isComplete : Bool
  shouldStop : Bool

/-- The stream callback of `searchCompletions` (`completionIndex.go:136-149`). `onData` returns its new
state and `shouldStop`; `none` is a panic in it or in the decoder. -/
def searchStep {σ} (onData : σ → Bytes → Option (σ × Bool)) (acc : Option (SearchSt σ)) (e : Bytes × Bytes) :
    Option (SearchSt σ) × Bool :=
  match acc with
  | none => (none, true)
  | some st =>
    match readString e.2 with
    | none => (none, true)
    | some (v, _) =>
      if v ∈ st.seen then (some st, false) else
      match onData st.user v with
      | none => (none, true)
      | some (u, stop) =>
        if stop then (some ⟨u, v :: st.seen, false, true⟩, true)
        else (some ⟨u, v :: st.seen, st.isComplete, st.shouldStop⟩, false)

/-- One round of the loop over the words of the keyword (`completionIndex.go:131-150`). -/
def searchWord {σ} (env : Env) (db : LevelDB) (collection : Bytes) (onData : σ → Bytes → Option (σ × Bool))
    (acc : Option (SearchSt σ)) (word : Bytes) : Option (SearchSt σ) :=
  match acc with
  | none => none
  | some st =>
    if st.shouldStop then some st
    else db.prefixStream (entryKey collection (env.lower word)) (searchStep onData) (some st)

/-- `searchCompletions` (`completionIndex.go:126-152`). -/
def searchCompletions {σ} (env : Env) (db : LevelDB) (collection keyword : Bytes)
    (onData : σ → Bytes → Option (σ × Bool)) (init : σ) : Option (σ × Bool) :=
  ((env.tokenise keyword).foldl (searchWord env db collection onData) (some ⟨init, [], true, false⟩)).map
    fun st => (st.user, st.isComplete)

/-- Results so far and the call counter of the limiter (`WithLimit`, `store.go:189-196`). -/
structure Found (α : Type) where
  results : List α
  count : Nat

/-- `IsLimitReached` (`store.go:199-204`): counts the call. -/
def limitReached (limit : Option Int) (count : Nat) : Nat × Bool :=
  match limit with
  | none => (count, false)
  | some l => (count + 1, decide ((count + 1 : Int) ≥ l))

/-- "if valid, append and check the limit" (e.g. `store.go:717-723`). -/
def addFound {α} (valid : α → Bool) (limit : Option Int) (f : Found α) (x : α) : Found α × Bool :=
  if valid x then
    let (c, stop) := limitReached limit f.count
    (⟨f.results ++ [x], c⟩, stop)
  else (f, false)

/-- The `onData` of all searches over the completion index (e.g. `store.go:705-724`): look the symbol
up; skip it if it is gone (or, for some kinds, empty); decode; filter; count. -/
def lookupFound {α} (s : Store) (coll : Bytes) (read : Dec α) (skipEmpty : Bool) (valid : α → Bool)
    (limit : Option Int) (f : Found α) (cv : Bytes) : Option (Found α × Bool) :=
  match s.db.get (entryKey coll cv) with
  | none => some (f, false)
  | some value =>
    if skipEmpty && value.length == 0 then some (f, false) else
    (read value).map fun r => addFound valid limit f r.1

/-- `GetScopeAndNameFromString` (`symbolType.go:303-320`). -/
def scopeAndName (name : Bytes) : Bytes × Bytes :=
  if name = [] then ([92], []) else
  let parts := splitB 92 name
  if parts.length = 1 then ([], parts.headD []) else
  if parts.headD [] = [] then
    if parts.length = 2 then ([92], parts.getD 1 [])
    else
      let parts := parts.tail
      (92 :: joinB 92 parts.dropLast, parts.getLastD [])
  else (92 :: joinB 92 parts.dropLast, parts.getLastD [])

/-- `TypeString.GetNamespace` (`symbolType.go:110-119`). -/
def namespaceOf (fqn : Bytes) : Bytes :=
  match lastIndexB 92 fqn with
  | none => [92]
  | some 0 => [92]
  | some i => fqn.take i

/-- `namespacePredicate` (`store.go:609-622`) on a symbol whose `GetScope()` is given. -/
def inScope (scope symbolScope : Bytes) : Bool := if scope = [] then true else symbolScope == scope

/-- `strings.Contains`. -/
def containsB (s sub : Bytes) : Bool := (List.range (s.length + 1)).any fun i => sub.isPrefixOf (s.drop i)

/-- The callback of the scoped class search on one entry (`store.go:688-698`). -/
def classStep (valid : Class → Bool) (limit : Option Int) (acc : Option (Found Class)) (e : Bytes × Bytes) :
    Option (Found Class) × Bool :=
  match acc, readClass e.2 with
  | some f, some (c, _) => let r := addFound valid limit f c; (some r.1, r.2)
  | _, _ => (none, true)

/-- `SearchClasses` (`store.go:678-728`). With a scope, the classes are streamed by key
(`getClassesByScopeStream`, 662-674) and the result is always marked complete (699). -/
def Store.searchClasses (env : Env) (s : Store) (keyword : Bytes) (valid : Class → Bool)
    (limit : Option Int) (count : Nat) : Option (Found Class × Bool) :=
  let (scope, kw) := scopeAndName keyword
  if scope ≠ [] then
    let valid' := fun c : Class => valid c && (kw == [] || containsB c.name.original kw)
    let scope' := if scope.getLastD 0 ≠ 92 then scope ++ [92] else scope
    let r := s.db.prefixStream (entryKey cCla scope') (classStep valid' limit) (some ⟨[], count⟩)
    r.map fun f => (f, true)
  else
    searchCompletions env s.comDB cClaCom kw (lookupFound s cCla readClass true valid limit) ⟨[], count⟩

/-- `SearchInterfaces` (`store.go:743-769`). -/
def Store.searchInterfaces (env : Env) (s : Store) (keyword : Bytes) (valid : Interface → Bool)
    (limit : Option Int) (count : Nat) : Option (Found Interface × Bool) :=
  let (scope, kw) := scopeAndName keyword
  searchCompletions env s.comDB cIntCom kw
    (lookupFound s cInt readInterface false
      (fun c => valid c && inScope scope (namespaceOf c.name.fqn)) limit) ⟨[], count⟩

/-- `SearchTraits` (`store.go:784-810`); a trait has no `GetScope`, so its scope counts as "". -/
def Store.searchTraits (env : Env) (s : Store) (keyword : Bytes) (valid : Trait → Bool)
    (limit : Option Int) (count : Nat) : Option (Found Trait × Bool) :=
  let (scope, kw) := scopeAndName keyword
  searchCompletions env s.comDB cTraCom kw
    (lookupFound s cTra readTrait false (fun c => valid c && inScope scope []) limit) ⟨[], count⟩

/-- `SearchFunctions` (`store.go:825-855`). -/
def Store.searchFunctions (env : Env) (s : Store) (keyword : Bytes) (valid : Function → Bool)
    (limit : Option Int) (count : Nat) : Option (Found Function × Bool) :=
  let (scope, kw) := scopeAndName keyword
  searchCompletions env s.comDB cFunCom kw
    (lookupFound s cFun readFunction true
      (fun c => valid c && inScope scope (namespaceOf c.name.fqn)) limit) ⟨[], count⟩

/-- `SearchConsts` (`store.go:869-893`), `SearchDefines` (`907-931`). -/
def Store.searchConsts (env : Env) (s : Store) (keyword : Bytes) (valid : Const → Bool)
    (limit : Option Int) (count : Nat) : Option (Found Const × Bool) :=
  searchCompletions env s.comDB cConCom keyword (lookupFound s cCon readConst false valid limit) ⟨[], count⟩
def Store.searchDefines (env : Env) (s : Store) (keyword : Bytes) (valid : Const → Bool)
    (limit : Option Int) (count : Nat) : Option (Found Const × Bool) :=
  searchCompletions env s.comDB cDefCom keyword (lookupFound s cDef readConst false valid limit) ⟨[], count⟩

/-- `SearchMethods` (`store.go:961-994`): an empty keyword gives nothing and "incomplete". -/
def Store.searchMethods (env : Env) (s : Store) (scope keyword : Bytes) (valid : Method → Bool)
    (limit : Option Int) (count : Nat) : Option (Found Method × Bool) :=
  if keyword = [] then some (⟨[], count⟩, false) else
  searchCompletions env s.comDB cMetCom keyword
    (lookupFound s cMet readMethod true (fun c => valid c && inScope scope c.scope.fqn) limit) ⟨[], count⟩

/-- `SearchClassConsts` (`store.go:1025-1054`). -/
def Store.searchClassConsts (env : Env) (s : Store) (scope keyword : Bytes) (valid : ClassConst → Bool)
    (limit : Option Int) (count : Nat) : Option (Found ClassConst × Bool) :=
  if keyword = [] then (s.getAllClassConsts scope).map fun l => (⟨l, count⟩, true) else
  searchCompletions env s.comDB cClaConCom keyword
    (lookupFound s cClaCon readClassConst false (fun c => valid c && inScope scope c.scope.fqn) limit)
    ⟨[], count⟩

/-- `SearchProperties` (`store.go:1080-1109`). -/
def Store.searchProperties (env : Env) (s : Store) (scope keyword : Bytes) (valid : Property → Bool)
    (limit : Option Int) (count : Nat) : Option (Found Property × Bool) :=
  if keyword = [] then (s.getAllProperties scope).map fun l => (⟨l, count⟩, true) else
  searchCompletions env s.comDB cProCom keyword
    (lookupFound s cPro readProperty false (fun c => valid c && inScope scope c.scope.fqn) limit)
    ⟨[], count⟩

/-- `SearchNamespaces` (`store.go:626-649`): no check that the namespace still exists, no limit. -/
def Store.searchNamespaces (env : Env) (s : Store) (keyword : Bytes) : Option (List Bytes × Bool) :=
  let (scope, kw) := scopeAndName keyword
  let scope := if scope = [92] then [] else scope
  let collection := if scope.length ≠ 0 then cNamCom ++ sep :: scope else cNamCom
  searchCompletions env s.comDB collection kw
    (fun acc cv => some (acc ++ [(splitB sep cv).headD []], false)) []

end Verif.Store
