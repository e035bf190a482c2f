import Verif.Common.Bytes

/-!
Model of background indexing (`internal/lsp/workspaceStore.go`): passes over folders that send the files they find,
over an unbuffered channel, to a fixed number of workers. A pass is `indexFolder` or the goroutine of
`didChangeWatchedFiles` (sync.go 44-100).
-/

namespace Verif.Server

/-- A file to index. `decodes` says whether `DecodeURIFromQuery` accepts its URI. What a worker does with it after
that (no store found, or `CompareAndIndexDocument`) always ends with `Done`. -/
structure Job where
  uri : Bytes
  decodes : Bool
  deriving DecidableEq, Repr

/-- A pass: the files it has still to send, its wait group, and whether its last step has been made. -/
structure Pass where
  todo : List Job
  count : Nat
  finished : Bool
  deriving DecidableEq, Repr

/-- The passes, the workers (what each is busy with: the number of the pass and the file), and what has been
processed, latest first. -/
structure Crew where
  passes : List Pass
  workers : List (Option (Nat × Job))
  log : List (Nat × Job)
  deriving DecidableEq, Repr

/-- The start: `n` idle workers (`newWorkspaceStore`, workspaceStore.go 42-44) and passes over the given files. -/
def Crew.start (n : Nat) (files : List (List Job)) : Crew :=
  ⟨files.map fun l => ⟨l, 0, false⟩, List.replicate n none, []⟩

inductive CEv where
  /-- pass `p` hands its next file to worker `w` -/
  | send (p w : Nat)
  /-- worker `w` is done with its file -/
  | done (w : Nat)
  /-- pass `p` has sent everything and sees its wait group at zero -/
  | finish (p : Nat)
  deriving DecidableEq, Repr

/-- `waitGroup.Add(1)` and the channel send (workspaceStore.go 197-202, sync.go 67-72, 85-90). The two are one step
here: nobody but the sender looks at the wait group between them. -/
def Crew.send (c : Crew) (p w : Nat) : Option Crew :=
  match c.passes[p]?, c.workers[w]? with
  | some ⟨j :: rest, n, false⟩, some none =>
    some { c with passes := c.passes.set p ⟨rest, n + 1, false⟩, workers := c.workers.set w (some (p, j)) }
  | _, _ => none

/-- The rest of a turn of `newCreator` (workspaceStore.go 53-73): a URI that can not be decoded is skipped without
`Done` (54-57). -/
def Crew.done (c : Crew) (w : Nat) : Option Crew :=
  match c.workers[w]? with
  | some (some (p, j)) =>
    match c.passes[p]? with
    | some a =>
      some { passes := c.passes.set p (if j.decodes then { a with count := a.count - 1 } else a)
             workers := c.workers.set w none
             log := (p, j) :: c.log }
    | none => none
  | _ => none

/-- `waitGroup.Wait()` returns, then `FinishIndexing` (workspaceStore.go 209-210; sync.go 99). -/
def Crew.finish (c : Crew) (p : Nat) : Option Crew :=
  match c.passes[p]? with
  | some ⟨[], 0, false⟩ => some { c with passes := c.passes.set p ⟨[], 0, true⟩ }
  | _ => none

def Crew.step (c : Crew) : CEv → Option Crew
  | .send p w => c.send p w
  | .done w => c.done w
  | .finish p => c.finish p

def Crew.run (c : Crew) : List CEv → Option Crew
  | [] => some c
  | e :: es => (c.step e).bind fun c => c.run es

end Verif.Server
