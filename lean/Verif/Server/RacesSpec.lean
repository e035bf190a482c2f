import Verif.Server.Races

/-!
Specification for the documents in memory while background workers are active: the editor's text, the text the server
has, and what is assumed of a schedule.
-/

namespace Verif.Server.Races

/-- The editor's text of the file `u`, if it is open: from the messages it has sent. -/
def typedStep (u : Bytes) (e : Option Bytes) : REv → Option Bytes
  | .message v (.openDoc t) => if v = u then some t else e
  | .message v (.change f) => if v = u then e.map f else e
  | .message v .close => if v = u then none else e
  | _ => e

def typed (u : Bytes) (es : List REv) : Option Bytes := es.foldl (typedStep u) none

/-- The document in memory. -/
def RState.doc (c : RState) (u : Bytes) : Option Obj := (c.docs u).bind fun id => c.heap[id]?

/-- The text the server would use: of the document in memory, else of the file. -/
def RState.view (c : RState) (u : Bytes) : Option Bytes :=
  match c.docs u with
  | some id => (c.heap[id]?).map Obj.text
  | none => c.disk u

/-- The message being handled is about `u`. -/
def RState.handling (c : RState) (u : Bytes) : Prop := ∃ t, c.front = some t ∧ t.uri = u

/-- A worker has begun with `CompareAndIndexDocument`: it has looked for the document. -/
def Call.busy (t : Call) : Prop :=
  match t.pc with
  | .look | .del => False
  | _ => True

/-- No worker is busy with `u`. -/
def RState.quiet (c : RState) (u : Bytes) : Prop := ∀ w ∈ c.workers, w.uri = u → ¬ w.busy

/-- In every state of the schedule. -/
def Always (P : RState → Prop) (c : RState) : List REv → Prop
  | [] => P c
  | e :: es => P c ∧ ∀ c', c.step e = some c' → Always P c' es

/-- While the editor's "open" for `u` is handled, no worker is busy with `u`; and until the server has the document, what
it would read is the text that the editor sent. -/
def OpensAlone (u : Bytes) (c : RState) : Prop :=
  ∀ t pc, c.front = some ⟨u, .openDoc t, pc⟩ → c.quiet u ∧ (pc = .look ∨ pc = .miss → c.view u = some t)

/-- While a change of `u` is handled, no worker is busy with `u`; and no worker is about to remove it from the index. -/
def ChangesAlone (u : Bytes) (c : RState) : Prop :=
  (∀ f pc, c.front = some ⟨u, .change f, pc⟩ → c.quiet u) ∧ ∀ w ∈ c.workers, w.uri = u → w.pc ≠ .del

/-- The clean-up at the end of a pass does not remove `u` from the index: the pass has met the file. -/
def Spares (u : Bytes) (c : RState) : List REv → Prop
  | [] => True
  | e :: es =>
    (match e with
      | .finish => c.synced u = none
      | _ => True) ∧
    ∀ c', c.step e = some c' → Spares u c' es

end Verif.Server.Races
