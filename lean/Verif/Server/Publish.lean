import Verif.Common.Strings
import Verif.Common.Tactics

/-! Publication of diagnostics (`internal/lsp/diagnostics.go`) with the debouncing of the deprecation check
(`store.go:239`, `github.com/bep/debounce`). -/

namespace Verif.Server.Publish

/-- What the diagnostics of a version of a document are: `quick`, the syntax errors and unused names
(`diagnostics.go:13-14`), and `deprecated`, the uses of deprecated names, which depend on the index
(`diagnostics.go:20`). -/
structure Checks (D I M : Type) where
  quick : D → List M
  deprecated : I → D → List M

/-- The diagnostics of a version of a document. -/
def Checks.all {D I M : Type} (ch : Checks D I M) (i : I) (d : D) : List M := ch.quick d ++ ch.deprecated i d

/-- A folder of the server. `sending`: the handler that is between the two halves of `provideDiagnostics`. `timer`: the
function that the debouncer will call. `running`: timer functions that were called and have not published yet. `sent`:
the messages to the editor, each with the document it is for. -/
structure St (D I M : Type) where
  index : I
  sending : Option (Bytes × D) := none
  timer : Option (Bytes × D) := none
  running : List (Bytes × D) := []
  sent : List (Bytes × List M) := []

/-- What happens. -/
inductive Ev (D I : Type)
  /-- a document is opened or changed (`sync.go:23-25`, `workspaceStore.go:254`): `provideDiagnostics` computes the quick
  diagnostics and hands the rest to the debouncer -/
  | edit (uri : Bytes) (d : D)
  /-- the handler publishes the quick diagnostics (`diagnostics.go:27-31`) -/
  | send
  /-- two seconds have passed since the debouncer was called last: the timer function is called in a goroutine of its own -/
  | fire
  /-- the `n`-th of the timer functions that run computes the deprecations and publishes (`diagnostics.go:16-25`) -/
  | finish (n : Nat)
  /-- the index changes -/
  | index (i : I)

variable {D I M : Type}

/-- One step. Handlers of opening and changing run one after the other. A call of the debouncer stops the timer and
starts a new one; a function that was called already is not stopped. -/
def step (ch : Checks D I M) (st : St D I M) : Ev D I → St D I M
  | .edit uri d =>
    match st.sending with
    | some _ => st
    | none => { st with sending := some (uri, d), timer := some (uri, d) }
  | .send =>
    match st.sending with
    | some (uri, d) => { st with sending := none, sent := st.sent ++ [(uri, ch.quick d)] }
    | none => st
  | .fire =>
    match st.timer with
    | some f => { st with timer := none, running := st.running ++ [f] }
    | none => st
  | .finish n =>
    match st.running[n]? with
    | some (uri, d) =>
      { st with running := st.running.eraseIdx n, sent := st.sent ++ [(uri, ch.all st.index d)] }
    | none => st
  | .index i => { st with index := i }

def run (ch : Checks D I M) (st : St D I M) (evs : List (Ev D I)) : St D I M := evs.foldl (step ch) st

/-- A folder at the start. -/
def start (i : I) : St D I M := { index := i }

/-- What the editor shows for a document: the last message for it. -/
def St.shown (st : St D I M) (uri : Bytes) : Option (List M) :=
  ((st.sent.filter fun p => p.1 = uri).getLast?).map (·.2)

/-- Nothing is going on. -/
def St.Quiet (st : St D I M) : Prop := st.sending = none ∧ st.timer = none ∧ st.running = []

end Verif.Server.Publish
