import Verif.Storage.Model

/-!
Specification: a store is a partial function from keys to values.
-/

namespace Verif.Storage

abbrev SMap := Bytes → Option Bytes

def SMap.set (m : SMap) (k : Bytes) (v : Option Bytes) : SMap := fun x => if x = k then v else m x

def specB (m : SMap) : BOp → SMap
  | .put k v => m.set k (some v)
  | .del k => m.set k none

/-- What a user expects of one operation. -/
def specOp (m : SMap) : Op → SMap
  | .put k v => m.set k (some v)
  | .delete k => m.set k none
  | .clear => fun _ => none
  | .batch ops ok => if ok then ops.foldl specB m else m

/-- ... and of a history. -/
def specRun (h : List Op) : SMap := h.foldl specOp (fun _ => none)

/-- Ascending, hence also duplicate-free. -/
def Sorted (m : Entries) : Prop := m.Pairwise (fun a b => bLt a.1 b.1 = true)

/-- What a consumer that may stop sees of a list: everything up to and including the entry at which
it stops. -/
def deliver {σ} (f : Consumer σ) : List (Bytes × Bytes) → σ → σ
  | [], s => s
  | e :: es, s => if (f s e).2 then (f s e).1 else deliver f es (f s e).1

end Verif.Storage
