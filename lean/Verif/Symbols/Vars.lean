import Verif.Symbols.Tree
import Verif.Common.Position
import Verif.Common.Search
import Verif.Common.GoMap
import Verif.Position.Props

/-! The variables of a scope (`analysis/variable.go` 109-242) and the scopes of a document
(`analysis/document.go` 302-341, 675-685). -/

namespace Verif.Symbols
open Verif.Position (Before)

/-- `*Variable` (`variable.go:11-16`): name and range; `tag` stands for everything else. -/
structure Var where
  name : Bytes
  range : Rng
  tag : Nat
  deriving DecidableEq, Repr

/-- `contextualVariable` (`variable.go:109-115`). -/
structure CtxVar where
  v : Var
  start : Pos
  isDeclaration : Bool
  isUsed : Bool
  deriving DecidableEq, Repr

/-- `VariableTable.variables` (`variable.go:133`). -/
abbrev VarTable := GoMap Bytes (List CtxVar)

/-- The loop of `add` that marks declarations as used (`variable.go:154-161`). -/
def markUsed (name : Bytes) (pos : Pos) : List CtxVar → List CtxVar
  | [] => []
  | c :: cs =>
    if comparePos pos c.v.range.start ≤ 0 then c :: cs
    else (if c.isDeclaration ∧ c.v.name = name then { c with isUsed := true } else c) :: markUsed name pos cs

/-- `sort.Search(len(l), func(i int) bool { return f(l[i]) })`. -/
def searchList {α : Type} (l : List α) (f : α → Bool) : Nat :=
  goSearch l.length fun i => match l[i]? with | some c => f c | none => true

/-- `VariableTable.add` (`variable.go:148-176`). -/
def VarTable.add (vt : VarTable) (v : Var) (start : Pos) (isDeclaration : Bool) : VarTable :=
  let newCtxVar : CtxVar := ⟨v, start, isDeclaration, false⟩
  let vt : VarTable :=
    if !isDeclaration then
      match GoMap.get vt v.name with
      | some ctxVars => GoMap.set vt v.name (markUsed v.name v.range.start ctxVars)
      | none => vt
    else vt
  match GoMap.get vt v.name with
  | some prevVars =>
    let index := if prevVars.length > 0 then
        searchList prevVars fun c => decide (comparePos start c.start < 0)
      else 0
    GoMap.set vt v.name (prevVars.take index ++ newCtxVar :: prevVars.drop index)
  | none => GoMap.set vt v.name [newCtxVar]

/-- `VariableTable.get` (`variable.go:178-189`). -/
def VarTable.find (vt : VarTable) (name : Bytes) (pos : Pos) : Option Var :=
  match GoMap.get vt name with
  | some vars =>
    let index := searchList vars fun c => decide (comparePos pos c.start < 0)
    if index = 0 then none else (vars[index - 1]?).map (·.v)
  | none => none

/-- The body of the loop of `GetVariables` (`variable.go:206-215`). -/
def lastBefore (pos : Pos) (vars : List CtxVar) : Option Var :=
  if vars.length = 0 then none
  else
    let index := searchList vars fun c => decide (comparePos c.start pos ≥ 0)
    if index = 0 then none else (vars[index - 1]?).map (·.v)

/-- `VariableTable.GetVariables` (`variable.go:203-218`). -/
def VarTable.getVariables (vt : VarTable) (pos : Pos) : List Var :=
  vt.filterMap fun e => lastBefore pos e.2

/-- `VariableTable.unusedVariables` (`variable.go:224-234`). -/
def VarTable.unusedVariables (vt : VarTable) : List Var :=
  vt.flatMap fun e => (e.2.filter fun c => c.isDeclaration && !c.isUsed).map (·.v)

/-- A call of `add`. -/
structure Rec where
  v : Var
  start : Pos
  isDeclaration : Bool
  deriving DecidableEq, Repr

/-- A scope after some calls. -/
def record (rs : List Rec) : VarTable := rs.foldl (fun vt r => vt.add r.v r.start r.isDeclaration) []

mutual

/-- `traverseAndFind` in `GetVariableTableAt` (`document.go:326-336`). A table is a node with its range. -/
def findScope (pos : Pos) : Tree Rng → Tree Rng
  | .node r kids => (findScopeIn pos kids).getD (.node r kids)

/-- The loop over the children (`document.go:330-334`). -/
def findScopeIn (pos : Pos) : List (Tree Rng) → Option (Tree Rng)
  | [] => none
  | c :: cs => if isInRange pos c.info = 0 then some (findScope pos c) else findScopeIn pos cs

end

/-- The number of nodes of a list of trees, for the termination of the queue loop. -/
def nodeCount {α : Type} : List (Tree α) → Nat
  | [] => 0
  | t :: ts => go t + nodeCount ts
where
  go : Tree α → Nat
    | .node _ kids => 1 + nodeCount kids

/-- The queue loop of `UnusedVariables` (`document.go:677-683`): the tables in the order they are taken from the queue. -/
def queueLoop {α : Type} (queue : List (Tree α)) : List α :=
  match queue with
  | [] => []
  | .node x kids :: queue => x :: queueLoop (queue ++ kids)
termination_by nodeCount queue
decreasing_by
  have happ : ∀ a b : List (Tree α), nodeCount (a ++ b) = nodeCount a + nodeCount b := by
    intro a b
    induction a with
    | nil => simp [nodeCount]
    | cons t a ih => simp only [List.cons_append, nodeCount, ih]; omega
  simp only [happ, nodeCount, nodeCount.go]
  omega

/-- `Document.UnusedVariables` (`document.go:675-685`) for a document whose scope is `root` (`variableTables` holds the
scope of the document alone once it is analysed). -/
def unusedInDocument (root : Tree VarTable) : List Var := (queueLoop [root]).flatMap VarTable.unusedVariables

/-! ### specification -/

/-- `t` is reached from the first scope by going down the `p`-th children, all of which contain the position. -/
inductive Descends (pos : Pos) : Tree Rng → List Nat → Tree Rng → Prop
  | here (t : Tree Rng) : Descends pos t [] t
  | down {r : Rng} {kids : List (Tree Rng)} {i : Nat} {c : Tree Rng} {p : List Nat} {t : Tree Rng} :
      kids[i]? = some c → ¬ Before pos c.info.start → Before pos c.info.stop → Descends pos c p t →
      Descends pos (.node r kids) (i :: p) t

/-- No two scopes next to each other contain the position. -/
inductive Apart (pos : Pos) : Tree Rng → Prop
  | node {r : Rng} {kids : List (Tree Rng)} :
      (∀ (i j : Nat) (a b : Tree Rng), kids[i]? = some a → kids[j]? = some b → ¬ Before pos a.info.start → Before pos a.info.stop →
        ¬ Before pos b.info.start → Before pos b.info.stop → i = j) →
      (∀ c ∈ kids, Apart pos c) → Apart pos (.node r kids)

/-- The nodes of a tree. -/
inductive Within {α : Type} : Tree α → α → Prop
  | root (x : α) (kids : List (Tree α)) : Within (.node x kids) x
  | kid {x : α} {kids : List (Tree α)} {c : Tree α} {y : α} : c ∈ kids → Within c y → Within (.node x kids) y

/-- The `k`-th call recorded a variable of that name. -/
def Recorded (rs : List Rec) (name : Bytes) (k : Nat) (r : Rec) : Prop := rs[k]? = some r ∧ r.v.name = name

/-- `v` is the variable of the call that has, among the calls for that name whose start satisfies `P`, the latest
start, and is the last of those with that start; `none` if there is no such call. -/
def IsLatest (rs : List Rec) (name : Bytes) (P : Pos → Prop) (v : Option Var) : Prop :=
  (v = none ∧ ∀ k r, Recorded rs name k r → ¬ P r.start) ∨
  ∃ k r, Recorded rs name k r ∧ v = some r.v ∧ P r.start ∧
    ∀ j r', Recorded rs name j r' → P r'.start → Before r'.start r.start ∨ (r'.start = r.start ∧ j ≤ k)

/-- A use of the name is recorded after the `k`-th call. -/
def UsedAfter (rs : List Rec) (name : Bytes) (k : Nat) : Prop :=
  ∃ j u, k < j ∧ Recorded rs name j u ∧ u.isDeclaration = false

/-- Every use of the name is in the text after the variables of that name that were recorded before it. -/
def UsesInOrder (rs : List Rec) (name : Bytes) : Prop :=
  ∀ i j r u, i < j → Recorded rs name i r → Recorded rs name j u → u.isDeclaration = false →
    Before r.v.range.start u.v.range.start

end Verif.Symbols
