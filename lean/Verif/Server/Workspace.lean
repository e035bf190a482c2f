import Verif.Common.Strings

/-!
Model of the list of workspace folders the server works with (`internal/lsp/workspaceStore.go`) and of the on-disk
databases it holds open for them.
-/

namespace Verif.Server

/-- The three databases of a folder's storage directory (store.go 217-229). -/
inductive Part where | main | completion | symbols
  deriving DecidableEq, Repr

/-- What `addView` needs to know about URIs and is not modelled here. -/
structure WEnv where
  /-- the URI parses and there is a file system for it (workspaceStore.go 100-124) -/
  usable : Bytes → Bool
  /-- the storage directory, `util.GetURIID` (workspaceStore.go 125) -/
  dirOf : Bytes → Bytes

/-- `workspaceStore` (workspaceStore.go 26-32): the URIs of the stores, in order; and the databases that are held
open. A database can be opened once only: both database libraries lock the directory (this is a fact about
`goleveldb` and `pogreb`, not code of this repository). -/
structure WS where
  stores : List Bytes
  held : List (Bytes × Part)
  deriving DecidableEq, Repr

def WS.new : WS := ⟨[], []⟩

/-- `leveldb.OpenFile`, `pogreb.Open`: fails if the database is held open. -/
def openPart (held : List (Bytes × Part)) (d : Bytes) (p : Part) : Option (List (Bytes × Part)) :=
  if (d, p) ∈ held then none else some ((d, p) :: held)

/-- `NewStore` (store.go 205-242): the three databases are opened in turn; on an error those that are open already
stay open. The second component says whether the store was created. -/
def newStore (held : List (Bytes × Part)) (d : Bytes) : List (Bytes × Part) × Bool :=
  match openPart held d .main with
  | none => (held, false)
  | some held =>
    match openPart held d .completion with
    | none => (held, false)
    | some held =>
      match openPart held d .symbols with
      | none => (held, false)
      | some held => (held, true)

/-- `Store.Close` (store.go 245-252): the main database and the symbol lists are closed, the completion index is
not. -/
def closeStore (held : List (Bytes × Part)) (d : Bytes) : List (Bytes × Part) :=
  held.filter fun e => e ≠ (d, .main) && e ≠ (d, .symbols)

/-- `getStore` (workspaceStore.go 217-224): the first store whose URI is a prefix of the text of `uri`. -/
def WS.getStore (w : WS) (uri : Bytes) : Option Bytes := w.stores.find? fun f => f.isPrefixOf uri

/-- `addView` (workspaceStore.go 99-143), without the indexing it starts (see C40) and the registration of the file
watcher (see `WS.requests`). -/
def WS.addView (env : WEnv) (w : WS) (uri : Bytes) : WS :=
  if env.usable uri then
    let r := newStore w.held (env.dirOf uri)
    if r.2 then ⟨w.stores ++ [uri], r.1⟩ else { w with held := r.1 }
  else w

/-- `removeView` (workspaceStore.go 145-153) with `removeStore` (226-233). -/
def WS.removeView (env : WEnv) (w : WS) (uri : Bytes) : WS :=
  match w.getStore uri with
  | none => w
  | some f => ⟨w.stores.erase f, closeStore w.held (env.dirOf f)⟩

/-- What the editor does to the list of folders: `initialized` adds the folders of `initialize` one by one
(general.go 100-102), `workspace/didChangeWorkspaceFolders` adds and removes (server.go 103-111). -/
inductive WEv where
  | add (uri : Bytes)
  | remove (uri : Bytes)
  deriving DecidableEq, Repr

def WS.step (env : WEnv) (w : WS) : WEv → WS
  | .add u => w.addView env u
  | .remove u => w.removeView env u

def WS.run (env : WEnv) (h : List WEv) : WS := h.foldl (WS.step env) WS.new

end Verif.Server
