import Verif.Server.Workspace

/-!
Model of the file watchers the server asks the editor for (`internal/lsp/workspaceStore.go`): one per folder, under
an id made from the folder's URI.
-/

namespace Verif.Server

/-- The requests `client/registerCapability` and `client/unregisterCapability`, by the id they carry
(workspaceStore.go 159-184). What is watched is the same for all of them (`**/*`, all kinds) and is left out. -/
inductive WatchReq where
  | register (id : Bytes)
  | unregister (id : Bytes)
  deriving DecidableEq, Repr

/-- `getFileWatcherID` (workspaceStore.go 155-157). -/
def watcherId (base : Bytes) : Bytes := base ++ b!"-fileWatcher"

/-- The requests that `addView` (workspaceStore.go 99-143) and `removeView` (145-153) send. `addView` comes to its
last step only if the store could be made; `removeView` sends nothing if there is no store for the URI, and otherwise
the id of the URI it was given, not that of the store. A failing request is only logged. -/
def WS.requests (env : WEnv) (w : WS) : WEv → List WatchReq
  | .add u => if env.usable u && (newStore w.held (env.dirOf u)).2 then [.register (watcherId u)] else []
  | .remove u =>
    match w.getStore u with
    | none => []
    | some _ => [.unregister (watcherId u)]

/-- All requests of a history, in order (server.go 103-111, general.go 100-102: the folders are taken one by one, and
each request is answered before the next folder is taken). -/
def WS.sent (env : WEnv) (w : WS) : List WEv → List WatchReq
  | [] => []
  | e :: h => w.requests env e ++ (w.step env e).sent env h

end Verif.Server
