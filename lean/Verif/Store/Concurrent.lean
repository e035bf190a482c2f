import Verif.Store.Model
import Verif.Store.Spec

/-!
Model of indexing and deleting files at the same time. Background workers, the handlers of the editor's notifications
and the clean-up after a pass (`internal/lsp/workspaceStore.go` 42-47, 212, 253) all call `SyncDocument` and
`DeleteDocument` of one store; neither takes a lock that covers the store. The calls are cut here into the steps in
which they look at or change what they share: a read or a write of the two databases, of the file store or of the map
of reference filters. Each of these is atomic in the libraries (goleveldb, pogreb, concurrent-map).
-/

namespace Verif.Store

open Verif.Encoding Verif.Storage

/-- What can be asked of the index while other work is going on. -/
inductive Work where
  | index (d : Doc)
  | delete (u : Bytes)
  deriving DecidableEq, Repr

def Work.uri : Work → Bytes
  | .index d => d.uri
  | .delete u => u

/-- The same as an operation of a history. -/
def Work.op : Work → HOp
  | .index d => .index d
  | .delete u => .delete u

/-- How far a call has come, and what it holds in its local variables. -/
inductive Task where
  /-- `SyncDocument` was called (`store.go:429-432`) -/
  | sync0 (d : Doc)
  /-- `newSymbolDeletor` has read the recorded symbol list (434) -/
  | sync1 (d : Doc) (old : List Bytes)
  /-- `deleteURI` has looked at the map of filters (435) -/
  | sync2 (d : Doc) (old : List Bytes) (ops : List BOp)
  /-- the new symbol list is written (553, 565) -/
  | sync3 (d : Doc) (old : List Bytes) (ops : List BOp)
  /-- the namespace list is written (554, 582) -/
  | sync4 (d : Doc) (old : List Bytes) (ops : List BOp)
  /-- the filter is replaced (555) and the main batch is complete (439-441) -/
  | sync5 (d : Doc) (batch : List BOp)
  /-- the completion batch is committed (432) -/
  | sync6 (d : Doc) (batch : List BOp)
  /-- `DeleteDocument` was called (368-369) -/
  | del0 (u : Bytes)
  /-- the completion deletor has read the main store (370-371) -/
  | del1 (u : Bytes) (com : List BOp)
  /-- the symbol deletor has read the symbol list (372-373) -/
  | del2 (u : Bytes) (ops : List BOp)
  /-- `deleteURI` has looked at the map of filters (374) and the batch is complete (375-376) -/
  | del3 (u : Bytes) (batch : List BOp)
  deriving DecidableEq, Repr

/-- What the call was asked to do. -/
def Task.work : Task → Work
  | .sync0 d | .sync1 d _ | .sync2 d _ _ | .sync3 d _ _ | .sync4 d _ _ | .sync5 d _ | .sync6 d _ => .index d
  | .del0 u | .del1 u _ | .del2 u _ | .del3 u _ => .delete u

def Work.start : Work → Task
  | .index d => .sync0 d
  | .delete u => .del0 u

/-- One step of a call: the store after it and what is left to do; `none` is a panic. `SyncDocument`
(`store.go:429-449`) with `writeAllSymbols` (`498-556`), `DeleteDocument` (`368-382`). The completion deletor of
`SyncDocument` (433) is never applied, so its reads have no effect and are left out. -/
def Task.next (env : Env) (s : Store) : Task → Option (Store × Option Task)
  | .sync0 d => (readDocSyms s.greb d.uri).map fun old => (s, some (.sync1 d old))
  | .sync1 d old => some (s, some (.sync2 d old (refDeleteOps s.uri s.refs d.uri)))
  | .sync2 d old ops =>
    some ({ s with greb := Storage.put (entryKey cDocSym d.uri) (docSymBytes env (d.keyed env)) s.greb },
      some (.sync3 d old ops))
  | .sync3 d old ops =>
    some ({ s with greb := Storage.put (entryKey cDocNs d.uri) (writeInt 0) s.greb }, some (.sync4 d old ops))
  | .sync4 d old ops =>
    let r := refIndexOps env s.uri s.refs d.uri d.refs
    some ({ s with refs := r.1 }, some (.sync5 d (ops
      ++ (d.keyed env).map (fun x => BOp.put (x.dbKey env) x.serialise)
      ++ r.2
      ++ (remaining env old (d.keyed env)).map BOp.del
      ++ [BOp.put (entryKey cDoc d.uri) d.hash])))
  | .sync5 d batch => some ({ s with comDB := s.comDB.writeBatch [] (completionOps env d) true }, some (.sync6 d batch))
  | .sync6 _ batch => some ({ s with db := s.db.writeBatch [] batch true }, none)
  | .del0 u => (completionDeletorOps s.db u).map fun com => (s, some (.del1 u com))
  | .del1 u com => (readDocSyms s.greb u).map fun old => (s, some (.del2 u (com ++ old.map BOp.del)))
  | .del2 u ops =>
    some (s, some (.del3 u (ops ++ refDeleteOps s.uri s.refs u ++ [BOp.del (entryKey cDoc u)])))
  | .del3 _ batch => some ({ s with db := s.db.writeBatch [] batch true }, none)

/-- The store, the calls under way, and those that have returned, in the order in which they did. -/
structure Conc where
  store : Store
  tasks : List Task
  finished : List Work
  deriving DecidableEq, Repr

/-- A schedule: somebody calls the index, or one of the calls under way makes its next step. -/
inductive Ev where
  | start (w : Work)
  | step (i : Nat)
  deriving DecidableEq, Repr

def Conc.step (env : Env) (c : Conc) : Ev → Option Conc
  | .start w => some { c with tasks := c.tasks ++ [w.start] }
  | .step i =>
    match c.tasks[i]? with
    | none => none
    | some t =>
      match t.next env c.store with
      | none => none
      | some (s, some t') => some { c with store := s, tasks := c.tasks.set i t' }
      | some (s, none) => some { store := s, tasks := c.tasks.eraseIdx i, finished := c.finished ++ [t.work] }

def Conc.run (env : Env) (c : Conc) : List Ev → Option Conc
  | [] => some c
  | e :: es => (c.step env e).bind fun c => c.run env es

/-- The work started by a schedule. -/
def started (es : List Ev) : List Work := es.filterMap fun
  | .start w => some w
  | .step _ => none

/-- Whenever somebody calls the index for a file, no other call for that file is under way. -/
def Apart (env : Env) (c : Conc) : List Ev → Prop
  | [] => True
  | e :: es =>
    (match e with
      | .start w => ∀ t ∈ c.tasks, t.work.uri ≠ w.uri
      | .step _ => True) ∧
    ∀ c', c.step env e = some c' → Apart env c' es

end Verif.Store
