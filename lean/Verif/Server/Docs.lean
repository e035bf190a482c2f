import Verif.Common.Bytes

/-!
Model of the life of documents: what the server keeps in memory, what is on disk and what is in the index
(`analysis/store.go` 312-425, `internal/lsp/sync.go`, `internal/lsp/workspaceStore.go` 240-256). A text stands for
itself and for its hash (SHA-1 is taken to be injective); parsing is not modelled: the symbols of a loaded document
are identified with the text they were read from.
-/

namespace Verif.Server

/-- A `Document` in memory: its text, whether `Load` has filled in its symbols, and `isOpen` (document.go 21-40). -/
structure CDoc where
  text : Bytes
  loaded : Bool
  isOpen : Bool
  deriving DecidableEq, Repr

/-- What the index holds about a file: the text whose hash is recorded, and the text whose symbols are recorded
(`none`: no symbols at all). -/
structure Indexed where
  hash : Bytes
  symbols : Option Bytes
  deriving DecidableEq, Repr

/-- Files on disk, documents in memory (`Store.documents`), and the index. -/
structure DState where
  disk : Bytes → Option Bytes
  cache : Bytes → Option CDoc
  index : Bytes → Option Indexed

def DState.init : DState := ⟨fun _ => none, fun _ => none, fun _ => none⟩

def upd {α : Type} (f : Bytes → Option α) (u : Bytes) (v : Option α) : Bytes → Option α :=
  fun x => if x = u then v else f x

/-- `GetOrCreateDocument` (store.go 314-328) with `NewDocument` (document.go 54-65): the copy in memory, else a new,
not yet loaded document from disk, which is kept in memory. -/
def DState.getOrCreate (s : DState) (u : Bytes) : DState × Option CDoc :=
  match s.cache u with
  | some d => (s, some d)
  | none =>
    match s.disk u with
    | none => (s, none)
    | some t => ({ s with cache := upd s.cache u (some ⟨t, false, false⟩) }, some ⟨t, false, false⟩)

/-- `SyncDocument` (store.go 429-449), as far as it matters here: the symbols the document has now and the hash of
its text are recorded. -/
def DState.sync (s : DState) (u : Bytes) (d : CDoc) : DState :=
  { s with index := upd s.index u (some ⟨d.text, if d.loaded then some d.text else none⟩) }

/-- `releaseDocIfNotOpen` (store.go 451-455). -/
def DState.release (s : DState) (u : Bytes) (d : CDoc) : DState :=
  if d.isOpen then s else { s with cache := upd s.cache u none }

/-- `didOpen` and `OpenDocument` (sync.go 16-27, store.go 332-347): the text sent by the editor is not looked at. -/
def DState.openDoc (s : DState) (u : Bytes) (_text : Bytes) : DState :=
  match s.getOrCreate u with
  | (s, none) => s
  | (s, some d) =>
    let d := { d with isOpen := true, loaded := true }
    ({ s with cache := upd s.cache u (some d) }.sync u d).release u d

/-- `changeDocument` (workspaceStore.go 240-256) with `CloneForMutate` and `ApplyChanges` (document.go 543-600); the
effect of the changes on the text is `f` (see C23). -/
def DState.change (s : DState) (u : Bytes) (f : Bytes → Bytes) : DState :=
  match s.getOrCreate u with
  | (s, none) => s
  | (s, some d) =>
    let d := { d with text := f d.text, loaded := true }
    let s := s.sync u d
    { s with cache := upd s.cache u (some d) }

/-- `didClose` and `CloseDocument` (sync.go 33-41, store.go 351-364): the document is not loaded before it is
synchronised. -/
def DState.close (s : DState) (u : Bytes) : DState :=
  match s.getOrCreate u with
  | (s, none) => s
  | (s, some d) =>
    let d := { d with isOpen := false }
    ({ s with cache := upd s.cache u (some d) }.sync u d).release u d

/-- A request about a file (hover.go 17, definition.go 18, completion.go 68, signature.go 28, symbol.go 34,
reference.go 34): `GetOrCreateDocument` and `Load`; the document stays in memory. -/
def DState.request (s : DState) (u : Bytes) : DState :=
  match s.getOrCreate u with
  | (s, none) => s
  | (s, some d) => { s with cache := upd s.cache u (some { d with loaded := true }) }

/-- `CompareAndIndexDocument` (store.go 396-425), outside an indexing pass: what a worker does when a file was
reported created or changed. -/
def DState.watched (s : DState) (u : Bytes) : DState :=
  match s.getOrCreate u with
  | (s, none) => s
  | (s, some d) =>
    if (s.index u).map Indexed.hash = some d.text then s.release u d
    else
      let d := { d with loaded := true }
      ({ s with cache := upd s.cache u (some d) }.sync u d).release u d

/-- A file reported deleted: `removeDocument` (workspaceStore.go 235-238), for the file itself. The copy in memory
stays. -/
def DState.deleted (s : DState) (u : Bytes) : DState := { s with index := upd s.index u none }

inductive DEv where
  | openDoc (u text : Bytes)
  | change (u : Bytes) (f : Bytes → Bytes)
  | close (u : Bytes)
  | request (u : Bytes)
  /-- somebody writes or removes a file -/
  | write (u : Bytes) (text : Option Bytes)
  /-- the server processes the notification that a file was created or changed -/
  | watched (u : Bytes)
  /-- ... or deleted -/
  | deleted (u : Bytes)

def DState.step (s : DState) : DEv → DState
  | .openDoc u t => s.openDoc u t
  | .change u f => s.change u f
  | .close u => s.close u
  | .request u => s.request u
  | .write u t => { s with disk := upd s.disk u t }
  | .watched u => s.watched u
  | .deleted u => s.deleted u

def DState.run (h : List DEv) : DState := h.foldl DState.step DState.init

end Verif.Server
