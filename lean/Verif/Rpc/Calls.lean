import Verif.Rpc.Requests
import Verif.Common.GoMap

/-! The life of outgoing calls: `Conn.Call` and the response branch of `Conn.Run` in internal/jsonrpc2/jsonrpc2.go, as
a state machine. -/

namespace Verif.Rpc

/-- Where a goroutine in `Conn.Call` is: it has an id but is not yet in `pending`; it is in `stream.Write`; it is in
the `select`; it is on the way out; it has returned (jsonrpc2.go 132-148, 149-166, 175-201, 155-163). -/
inductive CPhase where
  | created | writing | waiting | leaving | done
deriving DecidableEq, Repr

/-- An outgoing call: `cancelled` says that its context is done, `got` which response (by number of arrival) it has
received. -/
structure Call where
  id : ID
  phase : CPhase
  cancelled : Bool
  got : Option Nat
deriving DecidableEq, Repr

/-- The loop of `Run`: in front of `stream.Read`, or at `rchan <- response` (jsonrpc2.go 389) with the channel of a
call, or with a nil channel. The number is that of the response. -/
inductive Loop where
  | idle
  | sending (chan : Option Nat) (k : Nat)
deriving DecidableEq, Repr

/-- The calls in the order of their ids; `Conn.pending`, jsonrpc2.go 27: the channel is named by the index of its
call; the ids of the responses that arrived; the deliveries (number of response, index of call); how many other
messages the loop has handled. -/
structure Calls where
  calls : List Call
  pending : GoMap ID Nat
  loop : Loop
  resps : List ID
  delivered : List (Nat × Nat)
  handled : Nat
deriving DecidableEq, Repr

def Calls.init : Calls := ⟨[], [], .idle, [], [], 0⟩

inductive CallEv where
  /-- some goroutine enters `Call` and takes an id -/
  | call
  | register (i : Nat)
  /-- `stream.Write` returns, with or without success -/
  | wrote (i : Nat) (ok : Bool)
  /-- `stream.Read` returns a message without method and with this id -/
  | response (id : ID)
  /-- the send of the loop and the receive of the call meet -/
  | deliver
  /-- the context of the call is cancelled -/
  | cancel (i : Nat)
  /-- the `select` takes the branch of the context -/
  | giveUp (i : Nat)
  /-- the deferred function runs and the call returns -/
  | leave (i : Nat)
  /-- `stream.Read` returns any other message -/
  | message
deriving DecidableEq, Repr

/-- `atomic.AddInt64(&c.seq, 1)`, jsonrpc2.go 132, the `i`-th time: a signed number of 64 bits. -/
def callNumber (i : Nat) : Int := Int.bmod ((i : Int) + 1) (2 ^ 64)

/-- jsonrpc2.go 132 -/
def callId (i : Nat) : ID := ⟨[], callNumber i⟩

/-- One step. `none`: the goroutine cannot take this step in this state. -/
def Calls.step (s : Calls) : CallEv → Option Calls
  -- jsonrpc2.go 132; a call whose parameters cannot be marshalled stays here
  | .call => some { s with calls := s.calls ++ [⟨callId s.calls.length, .created, false, none⟩] }
  -- 150-153
  | .register i =>
    match s.calls[i]? with
    | some c =>
      if c.phase = .created then
        some { s with pending := s.pending.set c.id i, calls := s.calls.set i { c with phase := .writing } }
      else none
    | none => none
  -- 166-173
  | .wrote i ok =>
    match s.calls[i]? with
    | some c =>
      if c.phase = .writing then
        some { s with calls := s.calls.set i { c with phase := if ok then .waiting else .leaving } }
      else none
    | none => none
  -- 375-388
  | .response id =>
    if s.loop = .idle then
      some { s with
        resps := s.resps ++ [id]
        loop := .sending (s.pending.get id) s.resps.length
        pending := if s.pending.get id = none then s.pending else s.pending.erase id }
    else none
  -- 389 and 176
  | .deliver =>
    match s.loop with
    | .sending (some i) k =>
      match s.calls[i]? with
      | some c =>
        if c.phase = .waiting then
          some { s with
            loop := .idle
            calls := s.calls.set i { c with phase := .leaving, got := some k }
            delivered := s.delivered ++ [(k, i)] }
        else none
      | none => none
    | _ => none
  | .cancel i =>
    match s.calls[i]? with
    | some c => some { s with calls := s.calls.set i { c with cancelled := true } }
    | none => none
  -- 192-200
  | .giveUp i =>
    match s.calls[i]? with
    | some c =>
      if c.phase = .waiting ∧ c.cancelled = true then
        some { s with calls := s.calls.set i { c with phase := .leaving } }
      else none
    | none => none
  -- 155-163
  | .leave i =>
    match s.calls[i]? with
    | some c =>
      if c.phase = .leaving then
        some { s with pending := s.pending.erase c.id, calls := s.calls.set i { c with phase := .done } }
      else none
    | none => none
  -- 316-374, 391-395
  | .message => if s.loop = .idle then some { s with handled := s.handled + 1 } else none

/-- A schedule. -/
def Calls.run (s : Calls) : List CallEv → Option Calls
  | [] => some s
  | e :: es => match s.step e with
    | some s' => s'.run es
    | none => none

/-- The ids of the responses in a schedule. -/
def responses (es : List CallEv) : List ID := es.filterMap fun | .response id => some id | _ => none

/-- The number of calls in a schedule. -/
def callCount (es : List CallEv) : Nat := (es.filter (· == .call)).length

end Verif.Rpc
