import Verif.Common.Bytes

/-!
Model of `analysis/storage/{main,memory,goleveldb}.go`.

The two engines underneath (go-immutable-radix for `memory`, goleveldb for disk) are library code;
their contract is an ordered map from byte strings to byte strings, represented here by the list of
its entries in ascending key order. Everything the repository adds on top of the engines (batches,
prefix iteration with `Stop`, `Clear`, the combination of two stores) is modelled as written.
Disk errors are not modelled (`Put`/`Delete`/`Write` of goleveldb succeed).
-/

namespace Verif.Storage

/-- `bytes.Compare(a, b) < 0`: the order both engines iterate in. -/
def bLt : Bytes → Bytes → Bool
  | [], [] => false
  | [], _ :: _ => true
  | _ :: _, [] => false
  | a :: as, b :: bs => if a.toNat < b.toNat then true else if b.toNat < a.toNat then false else bLt as bs

/-- `bytes.HasPrefix(k, p)`. -/
def hasPrefix : Bytes → Bytes → Bool
  | [], _ => true
  | _ :: _, [] => false
  | p :: ps, k :: ks => p == k && hasPrefix ps ks

/-- Contents of an engine, ascending by key. -/
abbrev Entries := List (Bytes × Bytes)

/-- Engine `Insert` / `Put`. -/
def put (k v : Bytes) : Entries → Entries
  | [] => [(k, v)]
  | (k', v') :: t =>
    if k = k' then (k, v) :: t
    else if bLt k k' then (k, v) :: (k', v') :: t
    else (k', v') :: put k v t

/-- Engine `Delete`. -/
def del (k : Bytes) (m : Entries) : Entries := m.filter (fun e => e.1 != k)

/-- Engine `Get`. -/
def get (k : Bytes) : Entries → Option Bytes
  | [] => none
  | (k', v) :: t => if k' = k then some v else get k t

/-- One operation collected in a batch (`storage.Batch`, `main.go:14-17`). -/
inductive BOp where
  | put (k v : Bytes)
  | del (k : Bytes)
  deriving DecidableEq, Repr

def BOp.apply (m : Entries) : BOp → Entries
  | .put k v => Storage.put k v m
  | .del k => Storage.del k m

def applyOps (m : Entries) (ops : List BOp) : Entries := ops.foldl BOp.apply m

/-! ### memory.go -/

/-- `memory` (`memory.go:10-12`). -/
structure Memory where
  radix : Entries
  deriving DecidableEq, Repr

/-- `NewMemory` (`memory.go:16-20`). -/
def Memory.new : Memory := ⟨[]⟩
/-- `memory.Clear` (`memory.go:22-24`). -/
def Memory.clear (_ : Memory) : Memory := ⟨[]⟩
/-- `memory.Delete` (`memory.go:28-31`). -/
def Memory.delete (m : Memory) (k : Bytes) : Memory := ⟨del k m.radix⟩
/-- `memory.Put` (`memory.go:33-36`). -/
def Memory.put (m : Memory) (k v : Bytes) : Memory := ⟨Storage.put k v m.radix⟩
/-- `memory.Get` (`memory.go:38-46`): `none` is "Key not found"; all stored values are `[]byte`. -/
def Memory.get (m : Memory) (k : Bytes) : Option Bytes := Storage.get k m.radix
/-- `memory.WriteBatch` (`memory.go:48-55`): the transaction starts from the tree as it was when
the batch was created; `f` collects `ops` and may meanwhile write directly (`during`); if it reports
no error the transaction's tree *replaces* the current one. -/
def Memory.writeBatch (m : Memory) (during : List BOp) (ops : List BOp) (ok : Bool) : Memory :=
  let txn := applyOps m.radix ops            -- newMemoryBatch (69-73), Delete/Put (75-81)
  let m' : Memory := ⟨applyOps m.radix during⟩
  if ok then ⟨txn⟩ else m'

/-- `memoryIterator` (`memory.go:87-93`): the engine iterator holds the entries still to come. -/
structure MemIt where
  it : Entries
  cur : Bytes × Bytes
  shouldStop : Bool
  ended : Bool

/-- `memoryIterator.next` (`memory.go:123-135`). -/
def MemIt.next (i : MemIt) : MemIt :=
  if i.shouldStop then i else
  match i.it with
  | e :: rest => { i with it := rest, cur := e }
  | [] => { i with ended := true }
/-- `memoryIterator.valid` (`memory.go:137-145`). -/
def MemIt.valid (i : MemIt) : Bool := if i.shouldStop then false else if i.ended then false else true
/-- `newMemoryIterator` (`memory.go:97-106`); `SeekPrefix` of the engine positions the iterator on
the sub-tree of keys with the prefix. -/
def MemIt.new (m : Memory) (prefix_ : Bytes) : MemIt :=
  MemIt.next ⟨m.radix.filter (fun e => hasPrefix prefix_ e.1), ([], []), false, false⟩

/-- A consumer: `onData(it)` may update its own state and may call `it.Stop()`. -/
abbrev Consumer (σ : Type) := σ → Bytes × Bytes → σ × Bool

/-- The loop of `memory.PrefixStream` (`memory.go:57-61`):
`for ; it.valid(); it.next() { onData(it) }`. `fuel` bounds the number of iterations. -/
def MemIt.loop {σ} (f : Consumer σ) : Nat → MemIt → σ → σ
  | 0, _, s => s
  | n + 1, i, s =>
    if i.valid then
      let (s', stop) := f s i.cur
      MemIt.loop f n (MemIt.next { i with shouldStop := i.shouldStop || stop }) s'
    else s

/-- `memory.PrefixStream`; more entries than the store holds cannot be delivered. -/
def Memory.prefixStream {σ} (m : Memory) (prefix_ : Bytes) (f : Consumer σ) (s : σ) : σ :=
  MemIt.loop f (m.radix.length + 1) (MemIt.new m prefix_) s

/-! ### goleveldb.go -/

/-- `goLevelDB` (`goleveldb.go:11-13`). -/
structure LevelDB where
  db : Entries
  deriving DecidableEq, Repr

def LevelDB.new : LevelDB := ⟨[]⟩
/-- `goLevelDB.Delete` (`goleveldb.go:33-35`). -/
def LevelDB.delete (m : LevelDB) (k : Bytes) : LevelDB := ⟨del k m.db⟩
/-- `goLevelDB.Put` (`goleveldb.go:37-39`). -/
def LevelDB.put (m : LevelDB) (k v : Bytes) : LevelDB := ⟨Storage.put k v m.db⟩
/-- `goLevelDB.Get` (`goleveldb.go:41-43`). -/
def LevelDB.get (m : LevelDB) (k : Bytes) : Option Bytes := Storage.get k m.db
/-- `goLevelDB.WriteBatch`, `Commit` (`goleveldb.go:45-52`, `71-73`): the batch is a list of
operations applied by one engine `Write` to the store as it is *then*. -/
def LevelDB.writeBatch (m : LevelDB) (during : List BOp) (ops : List BOp) (ok : Bool) : LevelDB :=
  let m' : LevelDB := ⟨applyOps m.db during⟩
  if ok then ⟨applyOps m'.db ops⟩ else m'

/-- goleveldb `util.BytesPrefix`: the smallest key above all keys with the prefix; `none` (no
limit) if the prefix consists of 0xff bytes only. Library code, modelled because the iterator of
`goleveldb.go:83-92` relies on it. -/
def bytesPrefixLimit : Bytes → Option Bytes
  | [] => none
  | c :: cs =>
    match bytesPrefixLimit cs with
    | some l => some (c :: l)
    | none => if c.toNat < 255 then some [c + 1] else none

/-- An engine iterator over a key range `[start, limit)`. -/
def inRange (start : Bytes) (limit : Option Bytes) (k : Bytes) : Bool :=
  !(bLt k start) && match limit with | none => true | some l => bLt k l

/-- `goLevelDBPrefixIterator` (`goleveldb.go:75-79`): `it` holds the current and later entries; the
engine iterator is `Valid` while there is a current entry. -/
structure LvlIt where
  it : Entries
  shouldStop : Bool

/-- `newGoLevelDBPrefixIterator` (`goleveldb.go:83-92`): no range for an empty prefix. -/
def LvlIt.new (m : LevelDB) (prefix_ : Bytes) : LvlIt :=
  if prefix_.length > 0 then
    ⟨m.db.filter (fun e => inRange prefix_ (bytesPrefixLimit prefix_) e.1), false⟩
  else ⟨m.db, false⟩
/-- `valid` (`goleveldb.go:94-96`). -/
def LvlIt.valid (i : LvlIt) : Bool := !i.shouldStop && !i.it.isEmpty
/-- `next` (`goleveldb.go:98-103`). -/
def LvlIt.next (i : LvlIt) : LvlIt := if i.shouldStop then i else { i with it := i.it.tail }

/-- The loop of `goLevelDB.PrefixStream` (`goleveldb.go:54-60`). -/
def LvlIt.loop {σ} (f : Consumer σ) : Nat → LvlIt → σ → σ
  | 0, _, s => s
  | n + 1, i, s =>
    if i.valid then
      let (s', stop) := f s (i.it.headD ([], []))
      LvlIt.loop f n (LvlIt.next { i with shouldStop := i.shouldStop || stop }) s'
    else s

def LevelDB.prefixStream {σ} (m : LevelDB) (prefix_ : Bytes) (f : Consumer σ) (s : σ) : σ :=
  LvlIt.loop f (m.db.length + 1) (LvlIt.new m prefix_) s

/-- `goLevelDB.Clear` (`goleveldb.go:62-69`): one batch deleting every key found by streaming the
nil prefix. -/
def LevelDB.clear (m : LevelDB) : LevelDB :=
  let ops : List BOp := m.prefixStream [] (fun (acc : List BOp) e => (acc ++ [BOp.del e.1], false)) []
  m.writeBatch [] ops true

/-! ### main.go: histories and the combined store -/

/-- Operations of the `DB` interface (`main.go:19-27`) that change the store. -/
inductive Op where
  | put (k v : Bytes)
  | delete (k : Bytes)
  | clear
  | batch (ops : List BOp) (ok : Bool)
  deriving DecidableEq, Repr

def Memory.step (m : Memory) : Op → Memory
  | .put k v => m.put k v
  | .delete k => m.delete k
  | .clear => m.clear
  | .batch ops ok => m.writeBatch [] ops ok

def LevelDB.step (m : LevelDB) : Op → LevelDB
  | .put k v => m.put k v
  | .delete k => m.delete k
  | .clear => m.clear
  | .batch ops ok => m.writeBatch [] ops ok

def Memory.run (h : List Op) : Memory := h.foldl Memory.step Memory.new
def LevelDB.run (h : List Op) : LevelDB := h.foldl LevelDB.step LevelDB.new

/-- `Combined` (`main.go:30-33`): a memory store and, unless `memOnly`, a disk store. -/
structure Combined where
  mem : Memory
  disk : LevelDB
  memOnly : Bool

inductive Mode where | memory | disk
  deriving DecidableEq, Repr

/-- `Combined.mode` + `Put`/`Delete`/`Clear`/`WriteBatch` (`main.go:69-86`, `111-117`). -/
def Combined.step (c : Combined) (m : Mode) (op : Op) : Combined :=
  if c.memOnly then { c with mem := c.mem.step op } else
  match m with
  | .memory => { c with mem := c.mem.step op }
  | .disk => { c with disk := c.disk.step op }
/-- `Combined.Get` (`main.go:88-90`). -/
def Combined.get (c : Combined) (m : Mode) (k : Bytes) : Option Bytes :=
  if c.memOnly then c.mem.get k else
  match m with
  | .memory => c.mem.get k
  | .disk => c.disk.get k
/-- `Combined.GetFromAll` (`main.go:92-99`): first store that has the key. -/
def Combined.getFromAll (c : Combined) (k : Bytes) : Option Bytes :=
  match c.mem.get k with
  | some v => some v
  | none => if c.memOnly then none else c.disk.get k
/-- `Combined.PrefixStreamFromAll` (`main.go:105-109`): memory first, then disk; a `Stop` ends only
the stream it was called on. -/
def Combined.prefixStreamFromAll {σ} (c : Combined) (p : Bytes) (f : Consumer σ) (s : σ) : σ :=
  let s := c.mem.prefixStream p f s
  if c.memOnly then s else c.disk.prefixStream p f s

end Verif.Storage
