import Verif.Rpc.Stream

/-! Goroutines that write to one `headerStream` at the same time: handlers that reply, background jobs that send
notifications and calls. -/

namespace Verif.Rpc

/-- The lock `outMu`, the bytes put out so far, and the goroutines: the messages each of them still has to send.
`cur` are the bytes that the holder of the lock still has to put out. -/
structure Out where
  todo : List (List Bytes)
  lock : Option Nat
  cur : Bytes
  out : Bytes
deriving DecidableEq

/-- A step of goroutine `i`. -/
inductive OutEv where
  /-- enter the critical section with the next message, stream.go 141 -/
  | acquire (i : Nat)
  /-- the next byte of `fmt.Fprintf(s.out, ...)` and `s.out.Write(data)`, stream.go 143-147 -/
  | put (i : Nat)
  /-- leave the critical section, stream.go 142 -/
  | release (i : Nat)
  /-- the operating system refuses to take the rest; the error is returned and the lock is given back -/
  | fail (i : Nat)

def Out.init (todo : List (List Bytes)) : Out := ⟨todo, none, [], []⟩

/-- `headerStream.Write`, stream.go 135-150, cut into steps between which other goroutines can run. A byte is the
finest unit in which the writer could be interrupted. `none`: the step is not possible. -/
def Out.step (st : Out) : OutEv → Option Out
  | .acquire i =>
    match st.lock, st.todo.getD i [] with
    | none, m :: ms => some { st with todo := st.todo.set i ms, lock := some i, cur := write m }
    | _, _ => none
  | .put i =>
    match st.cur with
    | c :: cs => if st.lock = some i then some { st with cur := cs, out := st.out ++ [c] } else none
    | [] => none
  | .release i => if st.lock = some i ∧ st.cur = [] then some { st with lock := none } else none
  | .fail i => if st.lock = some i ∧ st.cur ≠ [] then some { st with lock := none, cur := [] } else none

/-- A schedule. -/
def Out.run : Out → List OutEv → Option Out
  | st, [] => some st
  | st, e :: es => match st.step e with
    | none => none
    | some st' => st'.run es

def OutEv.isFail : OutEv → Bool
  | .fail _ => true
  | _ => false

end Verif.Rpc
