import Verif.Server.Docs

/-!
Model of the documents in memory while background workers are active. The handlers of the editor's messages run one
after the other (C36), but the workers that index the files of a pass or those reported by the file watcher call
`CompareAndIndexDocument` and `DeleteDocument` at the same time (`internal/lsp/workspaceStore.go` 51-92). The calls
are cut into the steps in which they look at or change what they share: the map of documents, the document objects,
the files and the index. `SyncDocument` is one step here (what happens when several overlap is C103-C107). As in
`Verif.Server.Docs`, a text stands for its hash.
-/

namespace Verif.Server.Races

/-- How far `Load` has come with a document (document.go 92-104): `hasChanges` is still set, it was unset and the
analysis is going on, or the symbols are complete. -/
inductive Phase where
  | fresh | loading | loaded
  deriving DecidableEq, Repr

/-- A document object. -/
structure Obj where
  uri : Bytes
  text : Bytes
  phase : Phase
  isOpen : Bool
  locked : Bool
  deriving DecidableEq, Repr

/-- What the index records about a file: the text whose hash it has, and how much of the symbols of this text. -/
structure Rec where
  text : Bytes
  symbols : Phase
  deriving DecidableEq, Repr

/-- What is being done: `didOpen`, `didChange`, `didClose`, a request that loads the document (hover, definition,
document symbols), `CompareAndIndexDocument`, `DeleteDocument`. -/
inductive Job where
  | openDoc (text : Bytes)
  | change (f : Bytes → Bytes)
  | close
  | request
  | create
  | delete

/-- How far a call has come. -/
inductive PC where
  /-- before the look at the map of documents (store.go 316) -/
  | look
  /-- the document is not in memory -/
  | miss
  /-- the file was read (317) -/
  | read (text : Bytes)
  /-- `GetOrCreateDocument` has returned this object (327) -/
  | got (id : Nat)
  /-- its lock is held (338, 357, 401) -/
  | locked (id : Nat)
  /-- the file is not in the map filled by `PrepareForIndexing` (408-410) -/
  | unsynced (id : Nat)
  /-- before `Load` (344, 422) -/
  | toLoad (id : Nat)
  /-- inside `Load` -/
  | loading (id : Nat)
  /-- `Load` has returned, or is not called -/
  | ready (id : Nat)
  /-- before the lock is released -/
  | written (id : Nat)
  /-- in `releaseDocIfNotOpen` (451) -/
  | unlocked (id : Nat)
  /-- it has seen that the document is not open (452) -/
  | drop (id : Nat)
  /-- `changeDocument` has made the new object (workspaceStore.go 250-251) -/
  | cloned (id : Nat)
  /-- and written it to the index (252) -/
  | stored (id : Nat)
  /-- before `DeleteDocument` -/
  | del
  deriving DecidableEq, Repr

structure Call where
  uri : Bytes
  job : Job
  pc : PC

/-- Files, document objects, the map of documents, the index, the map `syncedDocumentURIs`, the message being handled
and the workers' calls. -/
structure RState where
  disk : Bytes → Option Bytes
  heap : List Obj
  docs : Bytes → Option Nat
  index : Bytes → Option Rec
  synced : Bytes → Option Bytes
  front : Option Call
  workers : List Call

def RState.init : RState := ⟨fun _ => none, [], fun _ => none, fun _ => none, fun _ => none, none, []⟩

def RState.setObj (c : RState) (id : Nat) (f : Obj → Obj) : RState := { c with heap := c.heap.modify id f }

/-- `SyncDocument` (store.go 429-449): the symbols the document has now and the hash of its text. -/
def RState.sync (c : RState) (u : Bytes) (o : Obj) : RState :=
  { c with index := upd c.index u (some ⟨o.text, o.phase⟩) }

/-- The comparison with the recorded hash in `CompareAndIndexDocument` (store.go 418-420). -/
def compare (id : Nat) (o : Obj) (h : Option Bytes) : PC := if h = some o.text then .written id else .toLoad id

/-- One step of a call: the new state and where the call is then (`none`: it has returned). No result: the call waits
for a lock. `GetOrCreateDocument` (store.go 314-328), `OpenDocument` (332-348), `CloseDocument` (351-364),
`DeleteDocument` (368-382), `CompareAndIndexDocument` (396-425), `releaseDocIfNotOpen` (451-455), `changeDocument`
(workspaceStore.go 240-256) with `CloneForMutate` and `ApplyChanges` (document.go 545-600), `Load` (document.go
92-104). -/
def Call.next (c : RState) (t : Call) : Option (RState × Option PC) :=
  match t.pc with
  | .look =>
    match c.docs t.uri with
    | some id => some (c, some (.got id))
    | none => some (c, some .miss)
  | .miss =>
    match c.disk t.uri with
    | none => some (c, none)
    | some x => some (c, some (.read x))
  | .read x =>
    some ({ c with heap := c.heap ++ [⟨t.uri, x, .fresh, false, false⟩], docs := upd c.docs t.uri (some c.heap.length) },
      some (.got c.heap.length))
  | .got id =>
    match c.heap[id]? with
    | none => none
    | some o =>
      match t.job with
      | .change f =>
        some ({ c with heap := c.heap ++ [⟨t.uri, f o.text, .loaded, o.isOpen, false⟩] }, some (.cloned c.heap.length))
      | .request => some (c, some (.toLoad id))
      | _ => if o.locked then none else some (c.setObj id fun o => { o with locked := true }, some (.locked id))
  | .locked id =>
    match t.job with
    | .openDoc _ => some (c.setObj id fun o => { o with isOpen := true }, some (.toLoad id))
    | .close => some (c.setObj id fun o => { o with isOpen := false }, some (.ready id))
    | _ =>
      match c.heap[id]?, c.synced t.uri with
      | none, _ => none
      | some o, some h => some ({ c with synced := upd c.synced t.uri none }, some (compare id o (some h)))
      | some _, none => some (c, some (.unsynced id))
  | .unsynced id =>
    match c.heap[id]? with
    | none => none
    | some o => some (c, some (compare id o ((c.index t.uri).map Rec.text)))
  | .toLoad id =>
    match c.heap[id]? with
    | none => none
    | some o =>
      match o.phase with
      | .fresh => some (c.setObj id fun o => { o with phase := .loading }, some (.loading id))
      | _ => some (c, some (.ready id))
  | .loading id => some (c.setObj id fun o => { o with phase := .loaded }, some (.ready id))
  | .ready id =>
    match c.heap[id]?, t.job with
    | none, _ => none
    | some _, .request => some (c, none)
    | some o, _ => some (c.sync t.uri o, some (.written id))
  | .written id => some (c.setObj id fun o => { o with locked := false }, some (.unlocked id))
  | .unlocked id =>
    match c.heap[id]? with
    | none => none
    | some o => if o.isOpen then some (c, none) else some (c, some (.drop id))
  | .drop _ => some ({ c with docs := upd c.docs t.uri none }, none)
  | .cloned id =>
    match c.heap[id]? with
    | none => none
    | some o => some (c.sync t.uri o, some (.stored id))
  | .stored id => some ({ c with docs := upd c.docs t.uri (some id) }, none)
  | .del => some ({ c with index := upd c.index t.uri none }, none)

def Job.start : Job → PC
  | .delete => .del
  | _ => .look

/-- The editor's jobs. -/
def Job.ofEditor : Job → Bool
  | .create | .delete => false
  | _ => true

/-- A schedule: a message of the editor is taken up (when the one before it has been handled), a worker takes up a
job, the handler or a worker makes a step, somebody writes or removes a file, a pass begins (`PrepareForIndexing`,
store.go 465-471) or ends (`FinishIndexing`, 476-487: the files it did not meet are deleted). -/
inductive REv where
  | message (u : Bytes) (j : Job)
  | worker (u : Bytes) (j : Job)
  | handler
  | work (i : Nat)
  | write (u : Bytes) (text : Option Bytes)
  | prepare
  | finish

def RState.step (c : RState) : REv → Option RState
  | .message u j =>
    if j.ofEditor && c.front.isNone then some { c with front := some ⟨u, j, j.start⟩ } else none
  | .worker u j => if j.ofEditor then none else some { c with workers := c.workers ++ [⟨u, j, j.start⟩] }
  | .handler =>
    match c.front with
    | none => none
    | some t =>
      match t.next c with
      | none => none
      | some (c, pc) => some { c with front := pc.map fun pc => { t with pc } }
  | .work i =>
    match c.workers[i]? with
    | none => none
    | some t =>
      match t.next c with
      | none => none
      | some (c, none) => some { c with workers := c.workers.eraseIdx i }
      | some (c, some pc) => some { c with workers := c.workers.set i { t with pc } }
  | .write u x => some { c with disk := upd c.disk u x }
  | .prepare => some { c with synced := fun u => ((c.index u).map Rec.text).or (c.synced u) }
  | .finish => some { c with synced := fun _ => none, index := fun u => if (c.synced u).isSome then none else c.index u }

def RState.run (c : RState) : List REv → Option RState
  | [] => some c
  | e :: es => (c.step e).bind fun c => c.run es

end Verif.Server.Races
