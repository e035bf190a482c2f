import Verif.Common.Bytes

/-! The life of incoming requests and notifications: `Conn.Run` and `Request` of internal/jsonrpc2/jsonrpc2.go as a
state machine. Every goroutine of a request takes its own steps; a schedule is a list of steps. -/

namespace Verif.Rpc

/-- internal/jsonrpc2/wire.go 85-88 -/
structure ID where
  name : Bytes
  number : Int
deriving DecidableEq, Repr

/-- `requestState`, jsonrpc2.go 31-39; `requestDone` is never used. -/
inductive RState where
  | waiting | serial | parallel | replied
deriving DecidableEq, Repr

/-- The integer behind the constants (`iota`). -/
def RState.rank : RState → Nat
  | .waiting => 0
  | .serial => 1
  | .parallel => 2
  | .replied => 3

/-- Where the goroutine of a request is: before `<-thisRequest`, in the handlers, in the deferred function, gone. -/
inductive Phase where
  | queued | running | returning | finished
deriving DecidableEq, Repr

/-- `Request`, jsonrpc2.go 42-50. `released`: the channel `nextRequest` is closed. `cancelled`: the context `reqCtx`
is cancelled. `writing`: the goroutine is inside of `Reply` in front of `stream.Write`; the value says whether the
context it uses is detached from the cancellation of the request. -/
structure Req where
  id : Option ID
  state : RState
  phase : Phase
  released : Bool
  cancelled : Bool
  writing : Option Bool
deriving DecidableEq, Repr

/-- The request objects in order of arrival; the replies that were put on the stream, each with the index of its
request; the order in which handlers were started; whether the program has panicked. -/
structure Conn where
  reqs : List Req
  sent : List (Nat × ID)
  started : List Nat
  panicked : Bool
deriving DecidableEq, Repr

def Conn.init : Conn := ⟨[], [], [], false⟩

/-- `Request.Parallel`, jsonrpc2.go 216-222. `none`: panic, the channel was closed already. -/
def Req.toParallel (r : Req) : Option Req :=
  if RState.parallel.rank ≤ r.state.rank then some r
  else if r.released then none
  else some { r with state := .parallel, released := true }

/-- `Request.Reply`, jsonrpc2.go 231-278, up to `stream.Write`. In the two error cases nothing happens. The result is
assumed to be convertible to JSON: if it is not, jsonrpc2.go 246-249 reports that error instead. -/
def Req.toReplied (r : Req) (detached : Bool) : Option Req :=
  if RState.replied.rank ≤ r.state.rank then some r
  else if r.id = none then some r
  else match r.toParallel with
    | none => none
    | some r => some { r with state := .replied, writing := some detached }

inductive Ev where
  /-- `Run` has read a message with a method, jsonrpc2.go 333-353 -/
  | receive (id : Option ID)
  /-- `<-thisRequest` returns, jsonrpc2.go 355-356 -/
  | start (i : Nat)
  /-- a handler calls `Parallel` -/
  | parallel (i : Nat)
  /-- a handler calls `Reply` -/
  | reply (i : Nat) (detached : Bool)
  /-- `stream.Write` inside of `Reply`, jsonrpc2.go 267: nothing is sent if the context is cancelled, stream.go 136-140 -/
  | write (i : Nat)
  /-- the handlers have returned; the deferred function replies if nobody has, jsonrpc2.go 357-361 -/
  | ret (i : Nat)
  /-- the rest of the deferred function, jsonrpc2.go 362-366 -/
  | finish (i : Nat)
  /-- `Conn.Cancel`, jsonrpc2.go 87-94, has found the request and calls `cancel`. It may do so at any moment after the
  request was received: the table of requests is unlocked before the call. -/
  | cancel (i : Nat)
deriving DecidableEq, Repr

/-- Replace request `i`; `none` is a panic. -/
def Conn.put (c : Conn) (i : Nat) : Option Req → Conn
  | none => { c with panicked := true }
  | some r => { c with reqs := c.reqs.set i r }

/-- The step of the goroutine of request `i`; `none`: not possible now. -/
def Conn.stepReq (c : Conn) (i : Nat) (r : Req) : Ev → Option Conn
  | .start _ =>
    if r.phase = .queued ∧ (i = 0 ∨ (c.reqs[i - 1]?.map (·.released)) = some true) then
      some { c with reqs := c.reqs.set i { r with state := .serial, phase := .running }, started := c.started ++ [i] }
    else none
  | .parallel _ => if r.phase = .running ∧ r.writing = none then some (c.put i r.toParallel) else none
  | .reply _ d => if r.phase = .running ∧ r.writing = none then some (c.put i (r.toReplied d)) else none
  | .write _ =>
    match r.writing, r.id with
    | some d, some id =>
      let c' := { c with reqs := c.reqs.set i { r with writing := none } }
      some (if d || !r.cancelled then { c' with sent := c.sent ++ [(i, id)] } else c')
    | _, _ => none
  | .ret _ =>
    if r.phase = .running ∧ r.writing = none then
      let r' := { r with phase := .returning }
      some (c.put i (if r.id ≠ none ∧ r.state.rank < RState.replied.rank then r'.toReplied false else some r'))
    else none
  | .finish _ =>
    if r.phase = .returning ∧ r.writing = none then
      some (c.put i (r.toParallel.map fun r => { r with phase := .finished, cancelled := true }))
    else none
  | .cancel _ => some { c with reqs := c.reqs.set i { r with cancelled := true } }
  | .receive _ => none

/-- The request an event is about. -/
def Ev.index : Ev → Nat
  | .receive _ => 0
  | .start i | .parallel i | .reply i _ | .write i | .ret i | .finish i | .cancel i => i

def Conn.step (c : Conn) (e : Ev) : Option Conn :=
  if c.panicked then none
  else match e with
    | .receive id => some { c with reqs := c.reqs ++ [⟨id, .waiting, .queued, false, false, none⟩] }
    | e => match c.reqs[e.index]? with
      | none => none
      | some r => c.stepReq e.index r e

def Conn.run : Conn → List Ev → Option Conn
  | c, [] => some c
  | c, e :: es => match c.step e with
    | none => none
    | some c' => c'.run es

/-- The replies that were sent for request `i`. -/
def Conn.replies (c : Conn) (i : Nat) : List ID := (c.sent.filter (·.1 = i)).map (·.2)

end Verif.Rpc
