import Verif.Common.Bytes

/-! The life cycle of the server: internal/lsp/general.go. -/

namespace Verif.Server

/-- `serverState`, internal/lsp/server.go 56-63; `serverShutDown` is never set. -/
inductive LState where
  | created | initializing | initialized
deriving DecidableEq, Repr

/-- The integer behind the constants (`iota`). -/
def LState.rank : LState → Nat
  | .created => 0
  | .initializing => 1
  | .initialized => 2

/-- What the handlers of life-cycle messages use: `stateMu` (`true`: somebody holds it), `state`, `pendingFolders`,
and of the workspace store the folders for which `addView` was called and how often each was closed. -/
structure LServer where
  locked : Bool
  state : LState
  pending : List Bytes
  views : List Bytes
  closed : Nat
deriving DecidableEq, Repr

def LServer.init : LServer := ⟨false, .created, [], [], 0⟩

/-- A life-cycle message: `start` is `initialize` (a keyword of Lean) with its folders and root, `initialized`, `shutdown`. -/
inductive LReq where
  | start (folders : List Bytes) (root : Bytes)
  | initialized
  | shutdown
deriving DecidableEq, Repr

inductive LAns where
  | ok | refused
deriving DecidableEq, Repr

/-- `initialize`, general.go 27-47. `none`: the goroutine waits for the lock for ever. The early return at line 31
keeps the lock. -/
def onInitialize (s : LServer) (folders : List Bytes) (root : Bytes) : Option (LServer × LAns) :=
  if s.locked then none
  else if LState.initializing.rank ≤ s.state.rank then some ({ s with locked := true }, .refused)
  else if folders ≠ [] then some ({ s with state := .initializing, pending := folders }, .ok)
  else if root ≠ [] then some ({ s with state := .initializing, pending := [root] }, .ok)
  else some ({ s with state := .initializing, pending := [] }, .refused)

/-- `initialized`, general.go 94-104. `addView` is called for every folder; that the client answers the calls in it is
assumed. -/
def onInitialized (s : LServer) : Option (LServer × LAns) :=
  if s.locked then none
  else some ({ s with state := .initialized, views := s.views ++ s.pending }, .ok)

/-- `shutdown`, general.go 106-126 without the profile. `closed` counts the calls of `store.close`. -/
def onShutdown (s : LServer) : Option (LServer × LAns) :=
  if s.locked then none
  else if s.state.rank < LState.initialized.rank then some (s, .refused)
  else some ({ s with closed := s.closed + 1 }, .ok)

def handle (s : LServer) : LReq → Option (LServer × LAns)
  | .start f r => onInitialize s f r
  | .initialized => onInitialized s
  | .shutdown => onShutdown s

/-- The answers to a sequence of messages. The handlers run one after the other, since none of them declares itself
parallel (C36), so a handler that waits for ever keeps all later ones from running. -/
def answers (s : LServer) : List LReq → List (Option LAns)
  | [] => []
  | r :: rs => match handle s r with
    | none => (r :: rs).map fun _ => none
    | some (s', a) => some a :: answers s' rs

/-- The state after a sequence of messages; `none` if a handler waits for ever. -/
def after (s : LServer) : List LReq → Option LServer
  | [] => some s
  | r :: rs => match handle s r with
    | none => none
    | some (s', _) => after s' rs

end Verif.Server
