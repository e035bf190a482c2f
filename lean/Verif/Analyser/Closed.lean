import Verif.Analyser.Scan

/-!
A relation between states that every elementary change respects is respected by the analysis of every node, whatever
the syntax tree looks like.
-/

namespace Verif.Analyser
open Verif.Symbols (Tree Var Rec)

/-- Constants and members of classes: symbols whose name and class matter. -/
def Kind.member : Kind → Bool
  | .property | .classConst | .method | .docProperty | .docMethod | .nilProperty | .const_ => true
  | _ => false

/-- The class a property is put into (`property.go:83-89`). -/
def St.propertyScope (st : St) : Bytes :=
  match st.classes.getLast? with
  | some x => if x.kind = .interface_ then [] else x.name.fqn
  | none => []

/-- Declarations of classes, interfaces and traits. -/
def PType.classLike : PType → Bool
  | .classDeclaration | .interfaceDeclaration | .traitDeclaration | .anonymousClassDeclaration => true
  | _ => false

/-- A variable, as a phrase or as a token. -/
def Node.isVariable : Node → Bool
  | .phr .simpleVariable _ => true
  | .phr .anonymousFunctionUseVariable _ => true
  | .tok t => t.type = .variableName
  | _ => false

/-- The node is a declaration that makes symbols of that kind. -/
def Node.declares (k : Kind) : Node → Bool
  | .phr ty _ =>
    match k with
    | .class_ => ty = .classDeclaration || ty = .anonymousClassDeclaration
    | .interface_ => ty = .interfaceDeclaration
    | .trait_ => ty = .traitDeclaration
    | .method => ty = .methodDeclaration
    | .function => ty = .functionDeclaration
    | .anonymousFunction => ty = .anonymousFunctionCreationExpression
    | .property => ty = .propertyElement
    | .classConst => ty = .classConstElement
    | .const_ => ty = .constElement
    | .define => ty = .functionCallExpression
    | .docProperty | .docMethod => ty = .documentComment
    | .argumentList => ty = .argumentExpressionList
    | .designator => ty = .classTypeDesignator || ty = .anonymousClassDeclaration
    | .derived => ty = .encapsulatedExpression || ty = .cloneExpression
    | _ => false
  | _ => false

mutual

/-- The types of the phrases of a tree. -/
def typesIn : Node → List PType
  | .tok _ => []
  | .err _ => []
  | .phr ty kids => ty :: typesInAll kids

/-- The same for some nodes. -/
def typesInAll : List Node → List PType
  | [] => []
  | k :: ks => typesIn k ++ typesInAll ks

end

mutual

/-- The nodes of a tree. -/
def nodesIn : Node → List Node
  | .tok t => [.tok t]
  | .err t => [.err t]
  | .phr ty kids => .phr ty kids :: nodesInAll kids

/-- The same for some nodes. -/
def nodesInAll : List Node → List Node
  | [] => []
  | k :: ks => nodesIn k ++ nodesInAll ks

end

/-- Reflexive and transitive. -/
structure PreOrder (R : St → St → Prop) : Prop where
  refl : ∀ st, R st st
  trans : ∀ {st st' st''}, R st st' → R st' st'' → R st st''

/-- A variable is written in a node of `P`: the name and the range are those of the node. A parameter may lack its name
after a syntax error. -/
def Written (c : Ctx) (P : Node → Prop) (name : Bytes) (r : Rng) : Prop :=
  ∃ n, P n ∧ c.range n = r ∧ (n.isVariable = true ∧ c.nodeText n = name ∨ n.isPhrase .parameterDeclaration = true ∧ name = [])

/-- The node can be a use of that sort: a class before `::` may be any phrase. -/
def Node.spells (k : Kind) (n : Node) : Bool :=
  match k with
  | .classAccess => match n with | .phr _ _ => true | _ => false
  | .interfaceAccess | .traitAccess => n.isName
  | .constantAccess => match n with
    | .phr ty _ => ty = .constantAccessExpression
    | .tok t => t.type = .directoryConstant
    | .err _ => false
  | .typeDeclaration => n.isPhrase .typeDeclaration
  | _ => false

/-- A node that can be the name of a member inside of a `memberName`: a name, or a variable. -/
def Node.namesMember : Node → Bool
  | .tok t => t.type = .name
  | .phr .simpleVariable _ => true
  | _ => false

/-- `m` is the name of a member, with that text. A `memberName` such as `{$x . $y}` has no name. -/
def MemberNamed (c : Ctx) (m : Node) (name : Bytes) : Prop :=
  match m with
  | .tok t => t.type = .name ∧ name = c.tokText t
  | .phr .memberName ks =>
    (∃ k ∈ ks, k.namesMember = true ∧ name = c.nodeText k) ∨ ((∀ k ∈ ks, k.namesMember = false) ∧ name = [])
  | _ => False

/-- The symbol is for the member after `->` in an access with the parts `ks`: a part that is a name; or, if there is no
name, the empty place after the arrow (or nothing, if there is no arrow). -/
def AfterArrow (c : Ctx) (ks : List Node) (s : Sym) : Prop :=
  (∃ m ∈ ks, s.range = c.range m ∧ MemberNamed c m s.name) ∨
  (s.name = [] ∧ ((∃ t, .tok t ∈ ks ∧ t.type = TokType.arrow ∧
    s.range = ⟨c.posAt (t.offset + t.length), c.posAt (t.offset + t.length)⟩) ∨ s.range = zeroRng))

/-- The symbol is for the member after `::` in an access with the parts `ks`, the third part, if there is one. -/
def AfterColons (c : Ctx) (ks : List Node) (s : Sym) : Prop :=
  match ks[2]? with
  | some m => s.range = c.range m ∧ s.name = if m.isPhrase .scopedMemberName then c.nodeText m else []
  | none => s.range = zeroRng ∧ s.name = []

/-- The symbol is for the function that is called in a call with the parts `ks`, the first part. -/
def Called (c : Ctx) (ks : List Node) (s : Sym) : Prop :=
  match ks with
  | k :: _ => s.range = c.range k ∧ s.name = c.nodeText k
  | [] => s.range = zeroRng ∧ s.name = []

/-- The symbol is for the access or the call at `n`. -/
def Node.uses (c : Ctx) (s : Sym) : Node → Prop
  | .phr ty ks =>
    match s.kind with
    | .functionCall => ty = .functionCallExpression ∧ Called c ks s
    | .scopedPropertyAccess => ty = .scopedPropertyAccessExpression ∧ AfterColons c ks s
    | .scopedMethodAccess => ty = .scopedCallExpression ∧ AfterColons c ks s
    | .scopedConstantAccess => (ty = .classConstantAccessExpression ∨ ty = .errorScopedAccessExpression) ∧ AfterColons c ks s
    | .propertyAccess => ty = .propertyAccessExpression ∧ AfterArrow c (ks.drop 1) s
    | .methodAccess => ty = .methodCallExpression ∧ AfterArrow c (ks.drop 2) s
    | _ => False
  | _ => False

/-- A symbol is at a node of `P`. A declaration is at a declaration of that sort; a use of a name has the text of the node
as its name; accesses to members and calls are for the name in the access or call. A property is never nil. -/
def Sited (c : Ctx) (P : Node → Prop) (s : Sym) : Prop :=
  match s.kind with
  | .nilProperty => False
  | .functionCall | .scopedPropertyAccess | .scopedMethodAccess | .scopedConstantAccess | .propertyAccess | .methodAccess =>
    ∃ n, P n ∧ n.uses c s
  | .variable | .globalVariable =>
    ∃ n, P n ∧ n.isVariable = true ∧ s.range = c.range n ∧ s.name = c.nodeText n
  | .classAccess | .interfaceAccess | .traitAccess | .constantAccess | .typeDeclaration =>
    ∃ n, P n ∧ n.spells s.kind = true ∧ s.range = c.range n ∧ s.name = c.nodeText n
  | k => ∃ n, P n ∧ n.declares k = true ∧ s.range = c.range n

/-- Blocks, whose names are found while they are open. -/
def Kind.isBlock : Kind → Bool
  | .class_ | .interface_ | .trait_ | .method | .function | .anonymousFunction | .define | .argumentList | .designator
  | .derived => true
  | _ => false

/-- The node is a function, a method or a closure. -/
def PType.isFunction : PType → Bool
  | .functionDeclaration | .methodDeclaration | .anonymousFunctionCreationExpression => true
  | _ => false

/-- The same for nodes. -/
def Node.isFunction : Node → Bool
  | .phr ty _ => ty.isFunction
  | _ => false

/-- Where code is: it changes at functions only. -/
structure Levels (S : Type) where
  enter : S → Node → S
  stay : ∀ σ n, n.isFunction = false → enter σ n = σ

/-- There is only one place. -/
def Levels.one : Levels Unit := ⟨fun _ _ => (), fun _ _ _ => rfl⟩

mutual

/-- The nodes of a tree, with their places. -/
def placesIn {S : Type} (L : Levels S) (σ : S) : Node → List (S × Node)
  | .tok t => [(σ, .tok t)]
  | .err t => [(σ, .err t)]
  | .phr ty kids => (σ, .phr ty kids) :: placesInAll L (L.enter σ (.phr ty kids)) kids

/-- The same for some nodes. -/
def placesInAll {S : Type} (L : Levels S) (σ : S) : List Node → List (S × Node)
  | [] => []
  | k :: ks => placesIn L σ k ++ placesInAll L σ ks

end

/-- A doc comment at `r` is on the line before a class of `P` that has that name, in some namespace. -/
def DocOwner (c : Ctx) (P : Node → Prop) (r : Rng) (fqn : Bytes) : Prop :=
  ∃ n, P n ∧ n.declares .class_ = true ∧ r.stop.line + 1 = (c.range n).start.line ∧ ∃ h ∈ n.kids, ∃ t, .tok t ∈ h.kids ∧
    t.type = TokType.name ∧ ∃ ns, fqn = ((tyOf (c.tokText t)).setNamespace ns).fqn

/-- A variable token. -/
def varTok : Node → Option Tok
  | .tok t => if t.type = .variableName then some t else none
  | _ => none

/-- A child of an argument list that is an argument. -/
def isArgument (c : Ctx) : Node → Bool
  | .tok t => t.type != .comma && !c.ignored t.type
  | .phr _ _ => true
  | .err _ => false

/-- A name in a header: a name token or, where that is allowed, an identifier. -/
def spelled (c : Ctx) (ids : Bool) : Node → Option Bytes
  | .tok t => if t.type = .name then some (c.tokText t) else none
  | .phr .identifier ks => if ids then some (c.nodeText (.phr .identifier ks)) else none
  | _ => none

/-- The names in the header of a declaration with the parts `ks`. There is one, unless there is a syntax error. -/
def headNames (c : Ctx) (ids : Bool) (header : PType) (ks : List Node) : List Bytes :=
  ks.flatMap fun h => if h.isPhrase header then h.kids.filterMap (spelled c ids) else []

/-- A string token: what is between the quotes. -/
def quoted (c : Ctx) : Node → Option Bytes
  | .tok t => if t.type = .stringLiteral ∧ 2 ≤ (c.tokText t).length then some ((c.tokText t).drop 1).dropLast else none
  | _ => none

/-- The first argument of a call of `define` with the parts `ks`, if it is a string. -/
def defineNames (c : Ctx) (ks : List Node) : List Bytes :=
  ks.flatMap fun l => if l.isPhrase .argumentExpressionList then ((l.kids.find? (isArgument c)).bind (quoted c)).toList else []

/-- The sign `=`. -/
def Node.isEquals : Node → Bool
  | .tok t => t.type = .equals
  | _ => false

/-- The full name that is made of the name of a function or of a constant of `define`. -/
def nameOf (ns raw : Bytes) : Bytes := ((⟨(tyOf raw).fqn, (tyOf raw).fqn, 0⟩ : Types.Ty).setNamespace ns).fqn

/-- In the namespace `ns`, the declaration is called `name`. Nothing is said about declarations that lack a name; of
several names, which a syntax error may lead to, the last one counts. -/
def Node.calls (c : Ctx) (ns name : Bytes) : Node → Prop
  | .phr ty ks =>
    match ty with
    | .functionDeclaration => ∀ raw, (headNames c true .functionDeclarationHeader ks).getLast? = some raw → name = nameOf ns raw
    | .functionCallExpression => ∀ raw, (defineNames c ks).getLast? = some raw → name = nameOf ns raw
    | .classDeclaration => ∀ raw, (headNames c false .classDeclarationHeader ks).getLast? = some raw →
        name = ((tyOf raw).setNamespace ns).fqn
    | .anonymousClassDeclaration => headNames c false .anonymousClassDeclarationHeader ks = [] →
        name = ((tyOf (c.anonName (c.range (.phr ty ks)).start)).setNamespace ns).fqn
    | .interfaceDeclaration => ∀ raw, (headNames c false .interfaceDeclarationHeader ks).getLast? = some raw →
        name = ((tyOf raw).setNamespace ns).fqn
    | .traitDeclaration => ∀ raw, (headNames c false .traitDeclarationHeader ks).getLast? = some raw →
        name = ((tyOf raw).setNamespace ns).fqn
    | .methodDeclaration => ∀ raw, (headNames c true .methodDeclarationHeader ks).getLast? = some raw → name = raw
    | .constElement => ∀ raw, (ks.filterMap (spelled c false)).getLast? = some raw → name = ((tyOf raw).setNamespace ns).fqn
    | .propertyElement => ∀ t, (ks.filterMap varTok).getLast? = some t → name = c.tokText t
    | .classConstElement => ∀ k, ((ks.takeWhile fun k => !k.isEquals).filter fun k => k.isPhrase .identifier).getLast? = some k →
        name = c.nodeText k
    | _ => False
  | _ => False

/-- The sorts of symbols that are declarations with names. -/
def Kind.titled : Kind → Bool
  | .class_ | .interface_ | .trait_ | .function | .method | .const_ | .property | .classConst | .define => true
  | _ => false

/-- A symbol for a declaration is at a node of `P` that declares such a thing and, in one of the namespaces `W`, is called
like that. -/
def Titled (c : Ctx) (P : Node → Prop) (W : Bytes → Prop) (s : Sym) : Prop :=
  s.kind.titled = true → ∃ n, P n ∧ n.declares s.kind = true ∧ s.range = c.range n ∧ ∃ ns, W ns ∧ n.calls c ns s.name

/-- The classes so far stay. -/
def Kept (st st' : St) : Prop := ∀ j < st.classes.length, st'.classes[j]? = st.classes[j]?

/-- The open block and the classes so far stay. -/
structure Steady (st st' : St) : Prop where
  sym : st'.top.sym = st.top.sym
  kept : Kept st st'

/-- What is asked of the relation `R`, which holds for what is done at a node, and of the weaker relation `Q`, which
holds while a block is open and gets its name; `P` holds for the nodes of the document at their places, `C` and `N` say
whether there may be classes and namespaces. -/
structure ClosedOn {S : Type} (c : Ctx) (L : Levels S) (P : S → Node → Prop) (C N : Prop) (R Q : S → St → St → Prop) : Prop where
  pre : ∀ {σ}, PreOrder (R σ)
  qpre : ∀ {σ}, PreOrder (Q σ)
  lift : ∀ {σ st st'}, R σ st st' → Q σ st st'
  add : ∀ {σ} st s, s.kind.member = false → s.kind.titled = false → Sited c (P σ) s → R σ st (st.add s)
  frame : ∀ {σ st st'}, R σ st st' → Steady st st'
  const : ∀ {σ} st s, s.kind = .const_ → Sited c (P σ) s → Titled c (P σ) (· = st.ns) s → R σ st (st.add s)
  property : ∀ {σ st st'} s, R σ st st' → s.kind = .property → s.scope = st.propertyScope → Sited c (P σ) s →
    Titled c (P σ) (· = st.ns) s → R σ st (st'.add s)
  classConst : ∀ {σ st st'} s, R σ st st' → s.kind = .classConst → s.scope = st.lastClassFQN → Sited c (P σ) s →
    Titled c (P σ) (· = st.ns) s → R σ st (st'.add s)
  docMember : C → ∀ {σ st st' d m} fqn, Q σ st st' → st.doc = some d → m ∈ d.2 → DocOwner c (P σ) d.1 fqn → Q σ st (st'.add (docMember d.1 fqn m))
  record : ∀ {σ} st name r p d, Written c (P σ) name r → R σ st (st.record name r p d)
  recordBelow : ∀ {σ} st n p d, P σ n → n.isPhrase .anonymousFunctionUseVariable = true →
    R σ st (st.recordBelow (c.nodeText n) (c.range n) p d)
  block : ∀ {σ st st'} s, s.kind.member = false → s.kind.isBlock = true → Sited c (P σ) s → Q σ (st.pushBlock s) st' →
    Kept st st' → Titled c (P σ) (fun ns => ∃ st1, Q σ (st.pushBlock s) st1 ∧ st1.ns = ns) { s with name := st'.top.sym.name } → R σ st st'.popBlock
  classBlock : C → ∀ {σ st st'} k name s, s.kind.member = false → s.kind.isBlock = true → Sited c (P σ) s →
    Q σ ((st.addClass k name).1.pushBlock s) st' → Kept st st' →
    Titled c (P σ) (fun ns => ∃ st1, Q σ ((st.addClass k name).1.pushBlock s) st1 ∧ st1.ns = ns) { s with name := st'.top.sym.name } →
    R σ st st'.popBlock
  scope : ∀ {σ st st'} n s, n.isFunction = true → P σ n → s.kind = .function ∨ s.kind = .anonymousFunction →
    s.range = c.range n → Sited c (P σ) s →
    Q (L.enter σ n) ((st.pushVars (c.range n)).pushBlock s) st' → Kept st st' →
    Titled c (P σ) (fun ns => ∃ st1, Q (L.enter σ n) ((st.pushVars (c.range n)).pushBlock s) st1 ∧ st1.ns = ns) { s with name := st'.top.sym.name } →
    R σ st st'.popVars.popBlock
  method : ∀ {σ st st'} n s, n.isFunction = true → P σ n → s.kind = .method → s.range = c.range n → Sited c (P σ) s →
    Q (L.enter σ n) ((st.pushVars (c.range n)).pushBlock s) st' → Kept st st' →
    Titled c (P σ) (fun ns => ∃ st1, Q (L.enter σ n) ((st.pushVars (c.range n)).pushBlock s) st1 ∧ st1.ns = ns) { s with name := st'.top.sym.name } →
    R σ st (st'.onTop fun s => { s with scope := st'.lastClassFQN }).popVars.popBlock
  onTop : ∀ {σ} st f, (∀ s : Sym, (f s).kind = s.kind ∧ (f s).range = s.range ∧ (f s).scope = s.scope) → Q σ st (st.onTop f)
  crash : ∀ {σ} st, R σ st { st with crashed := true }
  doc : ∀ {σ} st (n : Item), P σ n.node → n.type? = some .documentComment → n.kids.map Item.node = n.node.kids →
    (∀ k ∈ n.kids, k.kids.map Item.node = k.node.kids) → R σ st { st with doc := some (c.range n.node, docMembers c n.kids) }
  ns : N → ∀ {σ} st x, R σ st { st with ns := x }
  nameClass : C → ∀ {σ} st i name, Q σ st (st.nameClass i name)

/-- The same when nothing is asked of the nodes. -/
abbrev Closed (c : Ctx) (C N : Prop) (R Q : St → St → Prop) : Prop :=
  ClosedOn c Levels.one (fun _ _ => True) C N (fun _ => R) (fun _ => Q)

/-- An item at which, and below which, the analysis respects the relation. -/
inductive GoodOn {S : Type} (L : Levels S) (P : S → Node → Prop) (C N : Prop) (R : S → St → St → Prop) : S → Item → Prop
  | intro (σ : S) (n : Item) (here : P σ n.node) (same : n.kids.map Item.node = n.node.kids)
      (run : ∀ st, R σ st (n.run st)) (expr : ∀ st, R σ st (n.expr st).1)
      (cls : ∀ ty, n.type? = some ty → ty.classLike = true → C)
      (ns : n.type? = some .namespaceDefinition → N)
      (inner : ∀ k ∈ n.kids, GoodOn L P C N R (L.enter σ n.node) k) : GoodOn L P C N R σ n

/-- The same when nothing is asked of the nodes. -/
abbrev Good (C N : Prop) (R : St → St → Prop) : Item → Prop := GoodOn Levels.one (fun _ _ => True) C N (fun _ => R) ()

namespace GoodOn
variable {S : Type} {L : Levels S} {P : S → Node → Prop} {C N : Prop} {R : S → St → St → Prop} {σ : S} {n : Item}

theorem here (h : GoodOn L P C N R σ n) : P σ n.node := by cases h; assumption
theorem same (h : GoodOn L P C N R σ n) : n.kids.map Item.node = n.node.kids := by cases h; assumption
theorem run (h : GoodOn L P C N R σ n) : ∀ st, R σ st (n.run st) := by cases h; assumption
theorem expr (h : GoodOn L P C N R σ n) : ∀ st, R σ st (n.expr st).1 := by cases h; assumption
theorem cls (h : GoodOn L P C N R σ n) : ∀ ty, n.type? = some ty → ty.classLike = true → C := by cases h; assumption
theorem ns (h : GoodOn L P C N R σ n) : n.type? = some .namespaceDefinition → N := by cases h; assumption
theorem inner (h : GoodOn L P C N R σ n) : ∀ k ∈ n.kids, GoodOn L P C N R (L.enter σ n.node) k := by cases h; assumption

/-- The children of a node that is no function. -/
theorem children (h : GoodOn L P C N R σ n) (hf : n.node.isFunction = false) : ∀ k ∈ n.kids, GoodOn L P C N R σ k := by
  have := h.inner
  rwa [L.stay σ n.node hf] at this

end GoodOn

/-- The children when there is only one place. -/
theorem GoodOn.kids {C N : Prop} {R : St → St → Prop} {n : Item} (h : Good C N R n) : ∀ k ∈ n.kids, Good C N R k := h.inner

namespace PreOrder
variable {R : St → St → Prop}

theorem each (H : PreOrder R) {f : Item → St → St} {ks : List Item} (h : ∀ k ∈ ks, ∀ st, R st (f k st)) (st : St) :
    R st (each f ks st) := by
  unfold Analyser.each
  induction ks generalizing st with
  | nil => exact H.refl st
  | cons k ks ih =>
    rw [List.foldl_cons]
    exact H.trans (h k (by simp) st) (ih (fun k hk => h k (by simp [hk])) _)

theorem ite (H : PreOrder R) {p : Prop} [Decidable p] {st st' : St} (h : p → R st st') :
    R st (if p then st' else st) := by
  split
  · exact h ‹_›
  · exact H.refl st

theorem fold (H : PreOrder R) {α : Type} {g : St × α → Item → St × α} {ks : List Item}
    (h : ∀ k ∈ ks, ∀ r, R r.1 (g r k).1) (r : St × α) : R r.1 (ks.foldl g r).1 := by
  induction ks generalizing r with
  | nil => exact H.refl _
  | cons k ks ih =>
    rw [List.foldl_cons]
    exact H.trans (h k (by simp) r) (ih (fun k hk => h k (by simp [hk])) _)

end PreOrder

/-! ### names of blocks and the classes so far -/

theorem Kept.refl (st : St) : Kept st st := fun _ _ => rfl

theorem Kept.le {st st' : St} (h : Kept st st') : st.classes.length ≤ st'.classes.length := by
  by_cases hl : 0 < st.classes.length
  · have h1 := h (st.classes.length - 1) (by omega)
    rw [List.getElem?_eq_getElem (show st.classes.length - 1 < st.classes.length by omega)] at h1
    have := (List.getElem?_eq_some_iff.mp h1).1
    omega
  · omega

theorem Kept.trans {st st' st'' : St} (h : Kept st st') (h' : Kept st' st'') : Kept st st'' :=
  fun j hj => (h' j (Nat.lt_of_lt_of_le hj h.le)).trans (h j hj)

theorem Kept.addClass (st : St) (k : Kind) (name : Types.Ty) : Kept st (st.addClass k name).1 :=
  fun j hj => by rw [St.addClass]; exact List.getElem?_append_left hj

/-- What comes out after some names: the last one counts. -/
def Last {α : Type} (ok : Bytes → α → Prop) (names : List Bytes) (a b : α) : Prop :=
  match names.getLast? with
  | none => b = a
  | some raw => ok raw b

theorem Last.nil {α : Type} {ok : Bytes → α → Prop} {a b : α} (h : b = a) : Last ok [] a b := h

theorem Last.one {α : Type} {ok : Bytes → α → Prop} {a b : α} {raw : Bytes} (h : ok raw b) : Last ok [raw] a b := h

theorem Last.trans {α : Type} {ok : Bytes → α → Prop} {l m : List Bytes} {a b d : α} (h : Last ok l a b)
    (h' : Last ok m b d) : Last ok (l ++ m) a d := by
  unfold Last at *
  rw [List.getLast?_append]
  cases hm : m.getLast? with
  | none => rw [hm] at h'; simp only [Option.none_or]; rw [show d = b from h']; exact h
  | some r => rw [hm] at h'; simpa using h'

theorem Last.fold {α β : Type} {ok : Bytes → α → Prop} (I : β → Prop) (v : β → α) {g : β → Item → β} (hs : Item → List Bytes)
    {ks : List Item} (h : ∀ k ∈ ks, ∀ r, I r → I (g r k) ∧ Last ok (hs k) (v r) (v (g r k))) (r : β) (hr : I r) :
    I (ks.foldl g r) ∧ Last ok (ks.flatMap hs) (v r) (v (ks.foldl g r)) := by
  induction ks generalizing r with
  | nil => exact ⟨hr, .nil rfl⟩
  | cons k ks ih =>
    rw [List.foldl_cons, List.flatMap_cons]
    obtain ⟨h1, h2⟩ := h k (by simp) r hr
    obtain ⟨h3, h4⟩ := ih (fun k hk => h k (by simp [hk])) _ h1
    exact ⟨h3, h2.trans h4⟩

theorem filterMap_nodes {f : Node → Option Bytes} (ks : List Item) :
    (ks.map Item.node).filterMap f = ks.flatMap fun k => (f k.node).toList := by
  induction ks with
  | nil => rfl
  | cons k ks ih =>
    rw [List.map_cons, List.filterMap_cons, List.flatMap_cons, ← ih]
    cases f k.node <;> rfl

theorem spelled_phr {c : Ctx} {ids : Bool} {ty : PType} {ks : List Node} (h : ty ≠ .identifier) :
    spelled c ids (.phr ty ks) = none := by
  unfold spelled
  split
  · rename_i e; cases e
  · rename_i e; cases e; exact absurd rfl h
  · rfl

/-- The names in the headers, item by item. -/
theorem headNames_items {c : Ctx} {ids : Bool} {header : PType} {n : Item} (hs : n.kids.map Item.node = n.node.kids)
    (hk : ∀ k ∈ n.kids, k.kids.map Item.node = k.node.kids) : headNames c ids header n.node.kids =
      n.kids.flatMap fun k => if k.node.isPhrase header then (k.kids.map Item.node).filterMap (spelled c ids) else [] := by
  rw [headNames, ← hs, List.flatMap_map]
  clear hs
  revert hk
  induction n.kids with
  | nil => intro _; rfl
  | cons k ks ih =>
    intro hk
    rw [List.flatMap_cons, List.flatMap_cons, ih fun x hx => hk x (by simp [hx]), hk k (by simp)]

theorem isPhrase_type {k : Item} {ty : PType} : k.node.isPhrase ty = true ↔ k.type? = some ty := by
  unfold Item.type?
  cases k.node <;> simp [Node.isPhrase]

namespace ClosedOn
variable {S : Type} {L : Levels S} {c : Ctx} {P : S → Node → Prop} {C N : Prop} {R Q : S → St → St → Prop} {σ : S}

theorem eachFrom {f : Item → St → St} {ks : List Item} {st0 : St} (h : ∀ k ∈ ks, ∀ st, R σ st0 st → R σ st0 (f k st))
    (st : St) (h0 : R σ st0 st) : R σ st0 (Analyser.each f ks st) := by
  unfold Analyser.each
  induction ks generalizing st with
  | nil => exact h0
  | cons k ks ih =>
    rw [List.foldl_cons]
    exact ih (fun k hk => h k (by simp [hk])) _ (h k (by simp) st h0)

theorem phr_of_type {n : Item} {ty : PType} (h : n.type? = some ty) : ∃ ks, n.node = .phr ty ks := by
  unfold Item.type? at h
  split at h
  · next e => rw [e]; injection h with h; subst h; exact ⟨_, rfl⟩
  · cases h

/-- A phrase of another type is no function. -/
theorem plain_of_type {n : Item} {ty : PType} (h : n.type? = some ty)
    (hd : ty.isFunction = false := by rfl) : n.node.isFunction = false := by
  obtain ⟨ks, e⟩ := phr_of_type h
  rw [e]; exact hd

theorem function_of_type {n : Item} {ty : PType} (h : n.type? = some ty)
    (hd : ty.isFunction = true := by rfl) : n.node.isFunction = true := by
  obtain ⟨ks, e⟩ := phr_of_type h
  rw [e]; exact hd

theorem variable_of_type {n : Item} (h : n.type? = some .simpleVariable) : n.node.isVariable = true := by
  obtain ⟨ks, e⟩ := phr_of_type h
  rw [e]; rfl

/-- The symbol of a declaration is sited there. -/
theorem declares_of_type {n : Item} {ty : PType} {k : Kind} (h : n.type? = some ty)
    (hd : ∀ ks, (Node.phr ty ks).declares k = true) : n.node.declares k = true := by
  obtain ⟨ks, e⟩ := phr_of_type h
  rw [e]; exact hd ks

theorem written {n : Node} (h : P σ n) (hv : n.isVariable = true) : Written c (P σ) (c.nodeText n) (c.range n) :=
  ⟨n, h, rfl, .inl ⟨hv, rfl⟩⟩

theorem newVariable (H : ClosedOn c L P C N R Q) (d : Bool) {n : Node} (h : P σ n) (hv : n.isVariable = true) (st : St) :
    R σ st (newVariable c d n st) :=
  H.pre.trans (H.record _ _ _ _ _ (written h hv)) (H.add _ _ (by rfl) (by rfl) (by exact ⟨n, h, hv, rfl, rfl⟩))

theorem scanForChildren (H : ClosedOn c L P C N R Q) {n : Item} (h : ∀ k ∈ n.kids, GoodOn L P C N R σ k) (st : St) : R σ st (scanForChildren n st) :=
  H.pre.each (fun k hk => (h k hk).run) st

/-- The parts of a node are the nodes of its items. -/
theorem phr_of_good {n : Item} (h : GoodOn L P C N R σ n) {ty : PType} (ht : n.type? = some ty) :
    n.node = .phr ty (n.kids.map Item.node) := by
  obtain ⟨ks, e⟩ := phr_of_type ht
  rw [h.same, e]; rfl

/-- A block that gets no name. -/
theorem blockOf (H : ClosedOn c L P C N R Q) {st st' : St} (s : Sym) (hm : s.kind.member = false) (hb : s.kind.isBlock = true)
    (hs : Sited c (P σ) s) (ht : s.kind.titled = false) (h : R σ (st.pushBlock s) st') : R σ st st'.popBlock :=
  H.block s hm hb hs (H.lift h) (H.frame h).kept fun e => by rw [ht] at e; cases e

theorem newArgumentList (H : ClosedOn c L P C N R Q) {n : Item} (h : GoodOn L P C N R σ n)
    (ht : n.type? = some .argumentExpressionList) (st : St) : R σ st (newArgumentList c n st) :=
  H.blockOf _ (by rfl) (by rfl) (by exact ⟨n.node, h.here, declares_of_type ht fun _ => rfl, rfl⟩) (by rfl)
    (H.pre.each (fun k hk => ((h.children (plain_of_type ht)) k (List.mem_filter.mp hk).1).run) _)

theorem onName (H : ClosedOn c L P C N R Q) (st : St) (f : Sym → Bytes) : Q σ st (st.onTop fun s => { s with name := f s }) :=
  H.onTop st _ fun _ => ⟨rfl, rfl, rfl⟩

theorem defineName (H : ClosedOn c L P C N R Q) (ig : TokType → Bool) (args : Item) (st : St) : Q σ st (defineName c ig args st) := by
  unfold Analyser.defineName
  split
  · split
    · dsimp only
      split
      · exact H.lift (H.crash st)
      · exact H.onName st _
    · exact H.qpre.refl st
  · exact H.qpre.refl st

theorem arguments_items {ig : TokType → Bool} (ks : List Item) : argumentsOf ig ks = (ks.map Item.node).filter fun n =>
    match n with
    | .tok t => t.type != .comma && !ig t.type
    | .phr _ _ => true
    | .err _ => false := by
  rw [argumentsOf, List.filter_map]
  congr 1

theorem defineName_last {args : Item} (hs : args.kids.map Item.node = args.node.kids) (st : St) :
    Kept st (Analyser.defineName c c.ignored args st) ∧
    Last (fun raw nm => nm = (tyOf raw).fqn) ((args.node.kids.find? (isArgument c)).bind (quoted c)).toList st.top.sym.name
      (Analyser.defineName c c.ignored args st).top.sym.name := by
  have e : (argumentsOf c.ignored args.kids).head? = args.node.kids.find? (isArgument c) := by
    rw [arguments_items, hs, List.head?_filter]
    congr 1
  unfold Analyser.defineName
  rw [← e]
  cases argumentsOf c.ignored args.kids with
  | nil => exact ⟨.refl _, .nil rfl⟩
  | cons n ns =>
    cases n with
    | phr ty ks => exact ⟨.refl _, .nil rfl⟩
    | err t => exact ⟨.refl _, .nil rfl⟩
    | tok t =>
      dsimp only
      simp only [List.head?_cons, Option.bind_some, quoted]
      by_cases ht : t.type = .stringLiteral
      · rw [if_pos ht]
        by_cases hl : (c.tokText t).length < 2
        · rw [if_pos hl, if_neg (by omega)]; exact ⟨.refl _, .nil rfl⟩
        · rw [if_neg hl, if_pos ⟨ht, by omega⟩]; exact ⟨.refl _, .one rfl⟩
      · rw [if_neg ht, if_neg (fun h => ht h.1)]; exact ⟨.refl _, .nil rfl⟩

theorem newDefine (H : ClosedOn c L P C N R Q) {n : Item} (h : GoodOn L P C N R σ n)
    (ht : n.type? = some .functionCallExpression) (st : St) : R σ st (newDefine c n st) := by
  have hq : Q σ (st.pushBlock ⟨.define, c.range n.node, [], []⟩) (Analyser.each (fun k st =>
      if k.type? = some .argumentExpressionList then Analyser.defineName c c.ignored k (Analyser.newArgumentList c k st) else st)
      n.kids (st.pushBlock ⟨.define, c.range n.node, [], []⟩)) :=
    H.qpre.each (fun k hk st => H.qpre.ite fun ht' =>
      H.qpre.trans (H.lift (H.newArgumentList ((h.children (plain_of_type ht)) k hk) ht' st)) (H.defineName _ _ _)) _
  obtain ⟨hk, hn⟩ := Last.fold (ok := fun raw nm => nm = (tyOf raw).fqn) (fun st' => Kept st st') (fun st => st.top.sym.name)
    (fun k => if k.node.isPhrase .argumentExpressionList then ((k.node.kids.find? (isArgument c)).bind (quoted c)).toList else [])
    (ks := n.kids) (g := fun st k => if k.type? = some .argumentExpressionList then
      Analyser.defineName c c.ignored k (Analyser.newArgumentList c k st) else st) (fun k hk st' hst => by
      by_cases hty : k.type? = some .argumentExpressionList
      · rw [if_pos hty, if_pos (isPhrase_type.mpr hty)]
        have hg := (h.children (plain_of_type ht)) k hk
        have hf := H.frame (H.newArgumentList hg hty st')
        have hd := defineName_last (c := c) hg.same (Analyser.newArgumentList c k st')
        rw [hf.sym] at hd
        exact ⟨hst.trans (hf.kept.trans hd.1), hd.2⟩
      · rw [if_neg hty, if_neg fun e => hty (isPhrase_type.mp e)]
        exact ⟨hst, .nil rfl⟩) (st.pushBlock ⟨.define, c.range n.node, [], []⟩) (Kept.refl st)
  refine H.block ⟨.define, c.range n.node, [], []⟩ rfl rfl ⟨n.node, h.here, declares_of_type ht fun _ => rfl, rfl⟩
    (H.qpre.trans hq (H.onName _ _)) hk ?_
  intro _
  refine ⟨n.node, h.here, declares_of_type ht fun _ => rfl, rfl, _, ⟨_, hq, rfl⟩, ?_⟩
  have he := phr_of_good h ht
  suffices key : Node.calls c _ _ (.phr .functionCallExpression (n.kids.map Item.node)) by rw [← he] at key; exact key
  intro raw hraw
  have e : defineNames c (n.kids.map Item.node) = n.kids.flatMap fun k => if k.node.isPhrase .argumentExpressionList then
      ((k.node.kids.find? (isArgument c)).bind (quoted c)).toList else [] := by
    rw [defineNames, List.flatMap_map]
  rw [e] at hraw
  rw [Last, hraw] at hn
  dsimp only at hn
  rw [nameOf, ← hn]
  rfl

theorem firstArguments (H : ClosedOn c L P C N R Q) {ks : List Item} (h : ∀ k ∈ ks, GoodOn L P C N R σ k) (st : St) :
    R σ st (firstArguments ks st) := by
  unfold Analyser.firstArguments
  split
  · exact (h _ (List.mem_of_find?_eq_some ‹_›)).run st
  · exact H.pre.refl st

theorem newFunctionCall (H : ClosedOn c L P C N R Q) {n : Item} (h : GoodOn L P C N R σ n)
    (ht : n.type? = some .functionCallExpression) (st : St) : R σ st (newFunctionCall c n st).1 := by
  have hk := (h.children (plain_of_type ht))
  have hn := phr_of_good h ht
  unfold Analyser.newFunctionCall
  split
  · next e =>
    rw [e] at hn
    exact H.add _ _ (by rfl) (by rfl) ⟨n.node, h.here, by rw [hn]; exact ⟨rfl, rfl, rfl⟩⟩
  · next k ks e =>
    rw [e] at hk hn
    refine H.pre.trans (H.add _ (symOf c .functionCall k.node) rfl rfl ⟨n.node, h.here, by rw [hn]; exact ⟨rfl, rfl, rfl⟩⟩)
      (H.pre.trans ?_ (H.firstArguments hk _))
    exact H.pre.ite fun _ => (hk k (by simp)).expr _

theorem newClassAccess (H : ClosedOn c L P C N R Q) {n : Item} (h : GoodOn L P C N R σ n) (st : St) : R σ st (newClassAccess c n st) := by
  unfold Analyser.newClassAccess
  split
  · exact H.pre.refl st
  · exact H.pre.ite fun _ => h.expr st

theorem spells_of_phr {n : Item} (h : n.isPhr = true) : n.node.spells .classAccess = true := by
  unfold Item.isPhr Item.type? at h
  unfold Node.spells
  split at h
  · next e => rw [e]
  · cases h

theorem spells_of_name {n : Node} (h : n.isName = true) : n.spells .classAccess = true := by
  unfold Node.isName at h
  split at h <;> first | rfl | cases h

theorem spells_of_type {n : Item} {ty : PType} {k : Kind} (h : n.type? = some ty)
    (hd : ∀ ks, (Node.phr ty ks).spells k = true) : n.node.spells k = true := by
  obtain ⟨ks, e⟩ := phr_of_type h
  rw [e]; exact hd ks

theorem addClassAccess (H : ClosedOn c L P C N R Q) {n : Item} (h : GoodOn L P C N R σ n)
    (hs : n.node.spells .classAccess = true) (st : St) : R σ st (addClassAccess c n st) :=
  H.pre.trans (H.newClassAccess h st) (H.add _ _ (by rfl) (by rfl) (by exact ⟨n.node, h.here, hs, rfl, rfl⟩))

theorem scopedClass (H : ClosedOn c L P C N R Q) {ks : List Item} (h : ∀ k ∈ ks, GoodOn L P C N R σ k) (st : St) :
    R σ st (scopedClass c ks st) := by
  unfold Analyser.scopedClass
  split
  · exact H.pre.ite fun hp => H.addClassAccess (h _ List.mem_cons_self) (spells_of_phr hp) st
  · exact H.pre.refl st

theorem scopedMember_kind (k : Kind) (ks : List Item) : (scopedMember c k ks).kind = k := by
  unfold scopedMember; split <;> rfl

theorem type_isPhrase {n : Item} {ty : PType} : n.type? = some ty ↔ n.node.isPhrase ty = true := by
  unfold Item.type? Node.isPhrase
  cases n.node <;> simp

theorem scopedMember_after (k : Kind) (ks : List Item) : AfterColons c (ks.map Item.node) (scopedMember c k ks) := by
  unfold scopedMember AfterColons
  rw [List.getElem?_map]
  cases e : ks[2]? with
  | none => exact ⟨rfl, rfl⟩
  | some m =>
    refine ⟨rfl, ?_⟩
    by_cases ht : m.type? = some .scopedMemberName
    · simp [ht, type_isPhrase.1 ht]
    · have : m.node.isPhrase .scopedMemberName = false := by
        rw [← Bool.not_eq_true]; exact fun h => ht (type_isPhrase.2 h)
      simp [ht, this]

theorem newScopedMethodAccess (H : ClosedOn c L P C N R Q) {n : Item} (h : GoodOn L P C N R σ n)
    (ht : n.type? = some .scopedCallExpression) (st : St) : R σ st (newScopedMethodAccess c n st).1 := by
  have hk := h.children (plain_of_type ht)
  refine H.pre.trans (H.scopedClass hk st) (H.pre.trans (H.add _ _ (by rw [scopedMember_kind]; rfl) (by rw [scopedMember_kind]; rfl) ?_)
    (H.firstArguments (fun k hk' => hk k (List.mem_of_mem_drop hk')) _))
  have := scopedMember_after (c := c) .scopedMethodAccess n.kids
  unfold Sited
  rw [scopedMember_kind]
  refine ⟨n.node, h.here, ?_⟩
  rw [phr_of_good h ht]
  unfold Node.uses
  rw [scopedMember_kind]
  exact ⟨rfl, this⟩

theorem memberScope (H : ClosedOn c L P C N R Q) {ks : List Item} (h : ∀ k ∈ ks, GoodOn L P C N R σ k) (st : St) :
    R σ st (memberScope ks st) := by
  unfold Analyser.memberScope
  split
  · exact H.pre.ite fun _ => (h _ (by simp)).expr st
  · exact H.pre.refl st

theorem skipArrow_mem (ks : List Item) (r : Rng) : ∀ k ∈ (skipArrow c ks r).1, k ∈ ks := by
  induction ks generalizing r with
  | nil => simp [skipArrow]
  | cons k ks ih =>
    intro x hx
    unfold skipArrow at hx
    split at hx
    · split at hx
      · exact List.mem_cons_of_mem _ (ih _ x hx)
      · split at hx
        · exact List.mem_cons_of_mem _ (ih _ x hx)
        · exact hx
    · exact hx

theorem memberNameOf_some (ks : List Item) (name : Bytes) {v : Item} (h : (memberNameOf c ks name).2 = some v) :
    v ∈ ks ∧ v.type? = some .simpleVariable := by
  induction ks generalizing name with
  | nil => simp [memberNameOf] at h
  | cons k ks ih =>
    unfold memberNameOf at h
    split at h
    · next ht => injection h with h; subst h; exact ⟨by simp, ht⟩
    · split at h
      · exact ⟨List.mem_cons_of_mem _ (ih _ h).1, (ih _ h).2⟩
      · exact ⟨List.mem_cons_of_mem _ (ih _ h).1, (ih _ h).2⟩

theorem memberNameOf_named (ks : List Item) (name : Bytes) :
    (∃ k ∈ ks, k.node.namesMember = true ∧ (memberNameOf c ks name).1 = c.nodeText k.node) ∨
      ((∀ k ∈ ks, k.node.namesMember = false) ∧ (memberNameOf c ks name).1 = name) := by
  induction ks generalizing name with
  | nil => exact .inr ⟨by simp, rfl⟩
  | cons k ks ih =>
    unfold memberNameOf
    split
    · next ht =>
      obtain ⟨ms, e⟩ := phr_of_type ht
      exact .inl ⟨k, by simp, by rw [e]; rfl, rfl⟩
    · next ht =>
      split
      · next t et =>
        have en : k.node = .tok t := by
          unfold Item.tok? at et
          split at et
          · next e => rw [e]; injection et with et; rw [et]
          · cases et
        rcases ih (if t.type = .name then c.tokText t else name) with ⟨x, hx, h1, h2⟩ | ⟨h1, h2⟩
        · exact .inl ⟨x, by simp [hx], h1, h2⟩
        · rw [h2]
          by_cases hn : t.type = .name
          · exact .inl ⟨k, by simp, by rw [en]; simp [Node.namesMember, hn], by rw [en]; simp [hn, Ctx.nodeText]⟩
          · refine .inr ⟨?_, by simp [hn]⟩
            intro x hx
            rcases List.mem_cons.1 hx with rfl | hx
            · rw [en]; simp [Node.namesMember, hn]
            · exact h1 x hx
      · next et =>
        have en : k.node.namesMember = false := by
          unfold Item.tok? at et
          unfold Item.type? at ht
          cases e : k.node with
          | tok t => rw [e] at et; cases et
          | err t => rfl
          | phr ty ms =>
            rw [e] at ht
            cases ty <;> first | rfl | exact absurd rfl ht
        rcases ih name with ⟨x, hx, h1, h2⟩ | ⟨h1, h2⟩
        · exact .inl ⟨x, by simp [hx], h1, h2⟩
        · refine .inr ⟨?_, h2⟩
          intro x hx
          rcases List.mem_cons.1 hx with rfl | hx
          · exact en
          · exact h1 x hx

/-- The place after the last arrow. -/
theorem skipArrow_place (all ks : List Item) (hs : ∀ k ∈ ks, k ∈ all) {r : Rng}
    (h : (∃ t, .tok t ∈ all.map Item.node ∧ t.type = TokType.arrow ∧
      r = ⟨c.posAt (t.offset + t.length), c.posAt (t.offset + t.length)⟩) ∨ r = zeroRng) :
    (∃ t, .tok t ∈ all.map Item.node ∧ t.type = TokType.arrow ∧
      (skipArrow c ks r).2 = ⟨c.posAt (t.offset + t.length), c.posAt (t.offset + t.length)⟩) ∨
      (skipArrow c ks r).2 = zeroRng := by
  induction ks generalizing r with
  | nil => exact h
  | cons k ks ih =>
    have ih' := fun {r} => ih (fun x hx => hs x (by simp [hx])) (r := r)
    unfold skipArrow
    split
    · next t et =>
      have en : k.node = .tok t := by
        unfold Item.tok? at et
        split at et
        · next e => rw [e]; injection et with et; rw [et]
        · cases et
      split
      · exact ih' h
      · split
        · next ha =>
          exact ih' (.inl ⟨t, List.mem_map.2 ⟨k, hs k (by simp), en⟩, ha, rfl⟩)
        · exact h
    · exact h

/-- The member after the arrow. -/
theorem readMemberName_after {ks : List Item} (h : ∀ k ∈ ks, GoodOn L P C N R σ k) (st : St) (k : Kind) :
    AfterArrow c (ks.map Item.node)
      ⟨k, (Analyser.readMemberName c ks st).2.2.2, (Analyser.readMemberName c ks st).2.2.1, []⟩ := by
  have h0 := skipArrow_place (c := c) ks ks (fun _ h => h) (r := zeroRng) (.inr rfl)
  have hm := skipArrow_mem (c := c) ks zeroRng
  unfold Analyser.readMemberName
  split
  · next e => rw [e] at h0; exact .inr ⟨rfl, h0⟩
  · next m rest r e =>
    rw [e] at h0 hm
    have hmem := hm m (by simp)
    have hin : m.node ∈ ks.map Item.node := List.mem_map.2 ⟨m, hmem, rfl⟩
    split
    · next ht =>
      have hn := phr_of_good (h m hmem) ht
      have key : MemberNamed c m.node (memberNameOf c m.kids []).1 := by
        rw [hn]
        rcases memberNameOf_named (c := c) m.kids [] with ⟨x, hx, h1, h2⟩ | ⟨h1, h2⟩
        · exact .inl ⟨x.node, List.mem_map.2 ⟨x, hx, rfl⟩, h1, h2⟩
        · refine .inr ⟨?_, h2⟩
          intro y hy
          obtain ⟨x, hx, rfl⟩ := List.mem_map.1 hy
          exact h1 x hx
      split
      · next e2 => rw [e2] at key; exact .inl ⟨m.node, hin, rfl, key⟩
      · next e2 => rw [e2] at key; exact .inl ⟨m.node, hin, rfl, key⟩
    · split
      · next t et =>
        have en : m.node = .tok t := by
          unfold Item.tok? at et
          split at et
          · next e => rw [e]; injection et with et; rw [et]
          · cases et
        split
        · next hn => exact .inl ⟨m.node, hin, rfl, by rw [en]; exact ⟨hn, rfl⟩⟩
        · exact .inr ⟨rfl, h0⟩
      · exact .inr ⟨rfl, h0⟩

theorem readMemberName (H : ClosedOn c L P C N R Q) {ks : List Item} (h : ∀ k ∈ ks, GoodOn L P C N R σ k) (st : St) :
    R σ st (readMemberName c ks st).1 := by
  have hm := skipArrow_mem (c := c) ks zeroRng
  unfold Analyser.readMemberName
  split
  · exact H.pre.refl st
  · next m rest r e =>
    rw [e] at hm
    split
    · next hty =>
      split
      · next name v e2 =>
        obtain ⟨h1, h2⟩ := memberNameOf_some (c := c) m.kids [] (v := v) (by rw [e2])
        exact H.newVariable _ ((h m (hm m (by simp))).children (plain_of_type hty) v h1).here (variable_of_type h2) _
      · exact H.pre.refl st
    · split
      · split <;> exact H.pre.refl st
      · exact H.pre.refl st

theorem readMemberName_mem (ks : List Item) (st : St) : ∀ k ∈ (Analyser.readMemberName c ks st).2.1, k ∈ ks := by
  intro k hk
  unfold Analyser.readMemberName at hk
  split at hk
  · simp at hk
  · next m rest r e =>
    have hm : ∀ k ∈ m :: rest, k ∈ ks := by
      have := skipArrow_mem (c := c) ks zeroRng
      rwa [e] at this
    split at hk
    · split at hk <;> exact hm k (by simp [hk])
    · split at hk
      · split at hk <;> exact hm k (by simp [hk])
      · exact hm k (by simp [hk])

theorem newPropertyAccess (H : ClosedOn c L P C N R Q) {n : Item} (h : GoodOn L P C N R σ n) (hf : n.node.isFunction = false) (st : St) : R σ st (newPropertyAccess c n st).1 :=
  H.pre.trans (H.memberScope (h.children hf) st) (H.readMemberName (fun k hk => (h.children hf) k (List.mem_of_mem_drop hk)) _)

theorem methodAccess_sited {n : Item} (h : GoodOn L P C N R σ n) (ht : n.type? = some .methodCallExpression) (st : St) :
    Sited c (P σ) ⟨.methodAccess, (Analyser.readMemberName c (n.kids.drop 2) st).2.2.2,
      (Analyser.readMemberName c (n.kids.drop 2) st).2.2.1, []⟩ := by
  refine ⟨n.node, h.here, ?_⟩
  rw [phr_of_good h ht]
  refine ⟨rfl, ?_⟩
  rw [← List.map_drop]
  exact readMemberName_after (fun k hk => (h.children (plain_of_type ht)) k (List.mem_of_mem_drop hk)) _ .methodAccess

theorem newMethodAccess (H : ClosedOn c L P C N R Q) {n : Item} (h : GoodOn L P C N R σ n)
    (ht : n.type? = some .methodCallExpression) (st : St) : R σ st (newMethodAccess c n st).1 := by
  have hf := plain_of_type ht
  refine H.pre.trans (H.memberScope (h.children hf) st) (H.pre.trans
    (H.readMemberName (fun k hk => (h.children hf) k (List.mem_of_mem_drop hk)) _)
    (H.pre.trans (H.add _ _ (by rfl) (by rfl) (methodAccess_sited h ht _))
      (H.pre.each ?_ _)))
  intro k hk st
  exact H.pre.ite fun ht => H.newArgumentList ((h.children hf) k (List.mem_of_mem_drop (readMemberName_mem _ _ k hk))) ht st

theorem designatorParts (H : ClosedOn c L P C N R Q) {n : Item} (h : ∀ k ∈ n.kids, GoodOn L P C N R σ k) (st : St) :
    R σ st (designatorParts c n st) :=
  H.pre.each (fun k hk st => H.pre.ite fun ht => H.newVariable _ (h k hk).here (variable_of_type ht) st) st

theorem newClassTypeDesignator (H : ClosedOn c L P C N R Q) {n : Item} (h : GoodOn L P C N R σ n) (hf : n.node.isFunction = false) (st : St) :
    R σ st (newClassTypeDesignator c n st).1 := by
  refine H.pre.each (fun k hk st => ?_) st
  split
  · next ht =>
    exact H.pre.trans (H.add _ _ (by rfl) (by rfl) (by exact ⟨k.node, ((h.children hf) k hk).here, declares_of_type ht fun _ => rfl, rfl⟩))
      (H.designatorParts (((h.children hf) k hk).children (plain_of_type ht)) _)
  · next ht => exact H.newArgumentList ((h.children hf) k hk) ht st
  · next ht =>
    exact H.blockOf ⟨.designator, c.range k.node, [], []⟩ rfl rfl ⟨k.node, ((h.children hf) k hk).here, declares_of_type ht fun _ => rfl, rfl⟩
      rfl (((h.children hf) k hk).run _)
  · exact H.pre.refl st

theorem derivedLoop (H : ClosedOn c L P C N R Q) (ks later : List Item) (h : ∀ k ∈ ks, GoodOn L P C N R σ k) (hl : ∀ k ∈ later, GoodOn L P C N R σ k)
    (st : St) : R σ st (derivedLoop ks later st).1 ∧ ∀ k ∈ (derivedLoop ks later st).2, GoodOn L P C N R σ k := by
  induction ks generalizing later st with
  | nil => exact ⟨H.pre.refl st, hl⟩
  | cons k ks ih =>
    have hk := h k (by simp)
    have h' : ∀ k ∈ ks, GoodOn L P C N R σ k := fun k hk => h k (by simp [hk])
    have hlk : ∀ x ∈ later ++ [k], GoodOn L P C N R σ x := by
      intro x hx
      rcases List.mem_append.mp hx with hx | hx
      · exact hl x hx
      · rw [List.mem_singleton.mp hx]; exact hk
    unfold Analyser.derivedLoop
    split
    · dsimp only
      have hl' : ∀ {p : Prop} [Decidable p], ∀ x ∈ (if p then later else later ++ [k]), GoodOn L P C N R σ x := by
        intro p _ x hx
        split at hx
        · exact hl x hx
        · exact hlk x hx
      split
      · exact ⟨hk.expr st, hl'⟩
      · obtain ⟨h1, h2⟩ := ih (if isExprType _ = true then later else later ++ [k]) h' hl' (k.expr st).1
        exact ⟨H.pre.trans (hk.expr st) h1, h2⟩
    · exact ih _ h' hlk st

theorem newDerivedExpression (H : ClosedOn c L P C N R Q) {n : Item} (h : GoodOn L P C N R σ n) (hf : n.node.isFunction = false)
    (ht : n.node.declares .derived = true) (st : St) : R σ st (newDerivedExpression c n st).1 := by
  obtain ⟨h1, h2⟩ := H.derivedLoop n.kids [] (h.children hf) (by simp) (st.pushBlock ⟨.derived, c.range n.node, [], []⟩)
  exact H.blockOf ⟨.derived, c.range n.node, [], []⟩ rfl rfl ⟨n.node, h.here, ht, rfl⟩ rfl (H.pre.trans h1 (H.pre.each (fun k hk => (h2 k hk).run) _))

theorem analyseForeach (H : ClosedOn c L P C N R Q) {n : Item} (h : GoodOn L P C N R σ n) (hf : n.node.isFunction = false) (st : St) : R σ st (analyseForeach c n st).1 := by
  refine H.pre.each (fun k hk st => ?_) st
  have hk' := h.children hf k hk
  split
  · next e => exact H.pre.each (fun x hx st => H.pre.ite fun _ => (hk'.children (plain_of_type e) x hx).expr st) st
  · next e => exact H.pre.each (fun x hx st => H.pre.ite fun ht =>
      H.newVariable _ (hk'.children (plain_of_type e) x hx).here (variable_of_type ht) st) st
  · next e => exact H.scanForChildren (hk'.children (plain_of_type e)) st
  · next e => exact H.scanForChildren (hk'.children (plain_of_type e)) st
  · exact H.pre.refl st

theorem skipTok_mem {ty : TokType} {ks : List Item} : ∀ k ∈ skipTok ty ks, k ∈ ks := by
  induction ks with
  | nil => simp [skipTok]
  | cons k ks ih =>
    intro x hx
    unfold skipTok at hx
    split at hx
    · exact List.mem_cons_of_mem _ (ih x hx)
    · exact hx

theorem skipTok_mem3 {t1 t2 t3 : TokType} {ks rest : List Item} {k : Item}
    (e : skipTok t1 (skipTok t2 (skipTok t3 ks)) = k :: rest) : k ∈ ks :=
  skipTok_mem _ (skipTok_mem _ (skipTok_mem _ (e ▸ List.mem_cons_self)))

theorem analyseVariableAssignment (H : ClosedOn c L P C N R Q) (n : Item) {lhs : Item} (hl : GoodOn L P C N R σ lhs)
    (ht : lhs.type? = some .simpleVariable) {ks : List Item} (h : ∀ k ∈ ks, GoodOn L P C N R σ k) (st : St) : R σ st (analyseVariableAssignment c n lhs ks st) := by
  unfold Analyser.analyseVariableAssignment
  dsimp only
  have hw := written (c := c) hl.here (variable_of_type ht)
  refine H.pre.trans (H.add st (symOf c .variable lhs.node) (by rfl) (by rfl) (by exact ⟨lhs.node, hl.here, variable_of_type ht, rfl, rfl⟩)) ?_
  split
  · exact H.record _ _ _ _ _ hw
  · next rhs rest e =>
    have hr : GoodOn L P C N R σ rhs := by
      refine h rhs ?_
      have hm : rhs ∈ rhs :: rest := by simp
      rw [← e] at hm
      have key : ∀ ty, rhs ∈ skipTok .whitespace (skipTok ty (skipTok .whitespace (List.drop 1 ks))) → rhs ∈ ks :=
        fun ty hx => List.mem_of_mem_drop (skipTok_mem _ (skipTok_mem _ (skipTok_mem _ hx)))
      split at hm
      · exact key _ (skipTok_mem _ (skipTok_mem _ hm))
      · exact key _ hm
    split
    · exact H.pre.trans (H.record _ _ _ _ _ hw) (hr.run _)
    · refine H.pre.trans (hr.expr _) (H.pre.trans (H.record _ (c.nodeText lhs.node) (c.range lhs.node) (c.range n.node).stop true hw) ?_)
      split
      · exact H.pre.refl _
      · split
        · exact H.pre.refl _
        · exact hr.run _

theorem processPropertyAssignment (H : ClosedOn c L P C N R Q) {lhs : Item} (hl : GoodOn L P C N R σ lhs) {ks : List Item}
    (h : ∀ k ∈ ks, GoodOn L P C N R σ k) (st : St) : R σ st (processPropertyAssignment lhs ks st) := by
  unfold Analyser.processPropertyAssignment
  refine H.pre.trans (hl.expr st) ?_
  dsimp only
  split
  · exact H.pre.refl _
  · next rhs rest e =>
    have hr : GoodOn L P C N R σ rhs := h rhs (skipTok_mem3 e)
    split
    · split
      · exact hr.expr _
      · exact H.pre.trans (hr.expr _) (hr.run _)
    · exact hr.run _

theorem newAssignment (H : ClosedOn c L P C N R Q) {n : Item} (h : GoodOn L P C N R σ n) (hf : n.node.isFunction = false) (st : St) : R σ st (newAssignment c n st).1 := by
  have hk := (h.children hf)
  unfold Analyser.newAssignment
  split
  · exact H.pre.refl st
  · next k ks e =>
    rw [e] at hk
    have hks : ∀ x ∈ ks, GoodOn L P C N R σ x := fun x hx => hk x (by simp [hx])
    split
    · next ht => exact H.analyseVariableAssignment _ (hk k (by simp)) ht hks st
    · split
      · exact H.processPropertyAssignment (hk k (by simp)) hks st
      · exact H.pre.trans (H.pre.ite fun _ => (hk k (by simp)).run st) (H.pre.each (fun x hx => (hks x hx).run) _)

theorem processInstanceOf (H : ClosedOn c L P C N R Q) {n : Item} (h : GoodOn L P C N R σ n) (hf : n.node.isFunction = false) (st : St) : R σ st (processInstanceOf n st).1 := by
  have hk := (h.children hf)
  unfold Analyser.processInstanceOf
  split
  · exact H.pre.refl st
  · next lhs ks e =>
    rw [e] at hk
    split
    · exact H.pre.refl st
    · next rhs rest e' =>
      have hr : GoodOn L P C N R σ rhs := hk rhs (List.mem_cons_of_mem _ (skipTok_mem3 e'))
      split
      · exact H.pre.trans ((hk lhs (by simp)).expr st) (hr.expr _)
      · exact H.pre.refl st

theorem newInstanceOfTypeDesignator (H : ClosedOn c L P C N R Q) {n : Item} (h : GoodOn L P C N R σ n) (hf : n.node.isFunction = false) (st : St) :
    R σ st (newInstanceOfTypeDesignator c n st).1 := by
  unfold Analyser.newInstanceOfTypeDesignator
  split
  · exact H.newClassAccess ((h.children hf) _ (List.mem_of_find?_eq_some ‹_›)) st
  · exact H.pre.refl st

/-- A symbol that `scanForExpression` has to add is no member, and is at its node. -/
def NotMember (c : Ctx) (P : Node → Prop) : Result → Prop
  | .fresh s => (s.kind.member || s.kind.titled) = false ∧ Sited c P s
  | _ => True

theorem construct (H : ClosedOn c L P C N R Q) {n : Item} (h : GoodOn L P C N R σ n) (st : St) :
    R σ st (construct c n st).1 ∧ NotMember c (P σ) (Analyser.construct c n st).2 := by
  cases hf : n.node.isFunction with
  | true =>
    have hn : Analyser.construct c n st = (st, .nil) := by
      obtain ⟨node, run, expr, kids⟩ := n
      have hf : node.isFunction = true := hf
      unfold Node.isFunction at hf
      split at hf
      · unfold PType.isFunction at hf
        split at hf <;> first | rfl | cases hf
      · cases hf
    rw [hn]
    exact ⟨H.pre.refl st, trivial⟩
  | false =>
  have hprop : n.type? = some .scopedPropertyAccessExpression →
      NotMember c (P σ) (.fresh (scopedMember c .scopedPropertyAccess n.kids)) := by
    intro ht
    refine ⟨by rw [scopedMember_kind]; rfl, ?_⟩
    have := scopedMember_after (c := c) .scopedPropertyAccess n.kids
    unfold Sited
    rw [scopedMember_kind]
    refine ⟨n.node, h.here, ?_⟩
    rw [phr_of_good h ht]
    unfold Node.uses
    rw [scopedMember_kind]
    exact ⟨rfl, this⟩
  have hconst : ∀ {ty : PType}, n.type? = some ty → ty = .classConstantAccessExpression ∨ ty = .errorScopedAccessExpression →
      NotMember c (P σ) (.fresh (scopedMember c .scopedConstantAccess n.kids)) := by
    intro ty ht hty
    refine ⟨by rw [scopedMember_kind]; rfl, ?_⟩
    have := scopedMember_after (c := c) .scopedConstantAccess n.kids
    unfold Sited
    rw [scopedMember_kind]
    refine ⟨n.node, h.here, ?_⟩
    rw [phr_of_good h ht]
    unfold Node.uses
    rw [scopedMember_kind]
    exact ⟨hty, this⟩
  unfold Analyser.construct
  split
  · next ht =>
    refine ⟨H.newFunctionCall h ht st, ?_⟩
    unfold Analyser.newFunctionCall; split <;> trivial
  · next ht => exact ⟨H.pre.refl st, rfl, n.node, h.here, spells_of_type ht fun _ => rfl, rfl, rfl⟩
  · next ht => exact ⟨H.scopedClass (h.children hf) st, hprop ht⟩
  · next ht => exact ⟨H.newScopedMethodAccess h ht st, trivial⟩
  · next ht => exact ⟨H.scopedClass (h.children hf) st, hconst ht (.inl rfl)⟩
  · next ht => exact ⟨H.scopedClass (h.children hf) st, hconst ht (.inr rfl)⟩
  · exact ⟨H.newClassTypeDesignator h hf st, trivial⟩
  · next ht =>
    exact ⟨H.record _ _ _ _ _ (written h.here (variable_of_type ht)), rfl, n.node, h.here, variable_of_type ht, rfl, rfl⟩
  · next ht =>
    refine ⟨H.newPropertyAccess h hf st, rfl, n.node, h.here, ?_⟩
    rw [phr_of_good h ht]
    refine ⟨rfl, ?_⟩
    rw [← List.map_drop]
    exact readMemberName_after (fun k hk => (h.children hf) k (List.mem_of_mem_drop hk)) _ .propertyAccess
  · next ht => exact ⟨H.newMethodAccess h ht st, trivial⟩
  · exact ⟨H.analyseForeach h hf st, trivial⟩
  · next ht => exact ⟨H.newDerivedExpression h hf (declares_of_type ht fun _ => rfl) st, trivial⟩
  · next ht => exact ⟨H.newDerivedExpression h hf (declares_of_type ht fun _ => rfl) st, trivial⟩
  · refine ⟨H.newAssignment h hf st, ?_⟩
    unfold Analyser.newAssignment; split <;> (try split) <;> (try split) <;> trivial
  · refine ⟨H.newAssignment h hf st, ?_⟩
    unfold Analyser.newAssignment; split <;> (try split) <;> (try split) <;> trivial
  · refine ⟨H.newAssignment h hf st, ?_⟩
    unfold Analyser.newAssignment; split <;> (try split) <;> (try split) <;> trivial
  · refine ⟨H.processInstanceOf h hf st, ?_⟩
    unfold Analyser.processInstanceOf; split <;> (try split) <;> (try split) <;> trivial
  · refine ⟨H.newInstanceOfTypeDesignator h hf st, ?_⟩
    unfold Analyser.newInstanceOfTypeDesignator; split
    · next k e => exact ⟨rfl, k.node, ((h.children hf) k (List.mem_of_find?_eq_some e)).here, spells_of_name (by simpa using List.find?_some e), rfl, rfl⟩
    · trivial
  · exact ⟨H.pre.refl st, trivial⟩

theorem scanForExpression (H : ClosedOn c L P C N R Q) {n : Item} (h : GoodOn L P C N R σ n) (st : St) : R σ st (scanForExpression c n st).1 := by
  obtain ⟨h1, h2⟩ := H.construct h st
  unfold Analyser.scanForExpression
  split
  · next e => rw [e] at h1; exact h1
  · next e => rw [e] at h1; exact h1
  · next e => rw [e] at h1 h2; exact H.pre.trans h1 (H.add _ _ (Bool.or_eq_false_iff.mp h2.1).1 (Bool.or_eq_false_iff.mp h2.1).2 h2.2)

/-! ### declarations -/

theorem newParameter (H : ClosedOn c L P C N R Q) {n : Item} (h : GoodOn L P C N R σ n) (hf : n.node.isFunction = false) (st : St) : R σ st (newParameter c n st).1 := by
  refine H.pre.each (fun k hk st => ?_) st
  split
  · next ht => exact H.add _ _ (by rfl) (by rfl) (by exact ⟨k.node, ((h.children hf) k hk).here, spells_of_type ht fun _ => rfl, rfl, rfl⟩)
  · next ht => exact H.add _ _ (by rfl) (by rfl) (by exact ⟨k.node, ((h.children hf) k hk).here, spells_of_type ht fun _ => rfl, rfl, rfl⟩)
  · exact H.pre.refl st

/-- The parameters are written in the document. -/
def AllWritten (c : Ctx) (P : Node → Prop) (ps : List (Bytes × Rng)) : Prop := ∀ p ∈ ps, Written c P p.1 p.2

theorem newParameter_written {n : Item} (h : GoodOn L P C N R σ n) (ht : n.type? = some .parameterDeclaration) (st : St) :
    Written c (P σ) (Analyser.newParameter c n st).2.1 (Analyser.newParameter c n st).2.2 := by
  have key : ∀ (ks : List Item) (r : Bytes × Rng), (∀ k ∈ ks, GoodOn L P C N R σ k) → Written c (P σ) r.1 r.2 →
      Written c (P σ) (ks.foldl (fun r k =>
        match k.tok? with
        | some t => if t.type = .variableName then (c.tokText t, c.range k.node) else r
        | none => r) r).1 (ks.foldl (fun r k =>
        match k.tok? with
        | some t => if t.type = .variableName then (c.tokText t, c.range k.node) else r
        | none => r) r).2 := by
    intro ks
    induction ks with
    | nil => intro r _ hr; exact hr
    | cons k ks ih =>
      intro r hk hr
      rw [List.foldl_cons]
      refine ih _ (fun k hk' => hk k (by simp [hk'])) ?_
      split
      · next t et =>
        split
        · next htt =>
          have en : k.node = .tok t := by
            unfold Item.tok? at et
            split at et
            · next e => rw [e]; injection et with et; rw [et]
            · cases et
          refine ⟨k.node, (hk k (by simp)).here, rfl, .inl ⟨?_, ?_⟩⟩
          · rw [en]; simpa [Node.isVariable] using htt
          · rw [en]; rfl
        · exact hr
      · exact hr
  refine key n.kids ([], c.range n.node) (h.children (plain_of_type ht)) ⟨n.node, h.here, rfl, .inr ⟨?_, rfl⟩⟩
  obtain ⟨ks, e⟩ := phr_of_type ht
  rw [e]; simp [Node.isPhrase]

theorem parameterList (H : ClosedOn c L P C N R Q) {ks : List Item} (h : ∀ k ∈ ks, GoodOn L P C N R σ k) (r : St × List (Bytes × Rng)) :
    R σ r.1 (parameterList c ks r).1 := by
  refine H.pre.fold (fun k hk r => ?_) r
  dsimp only
  split
  · next ht => exact H.newParameter (h k hk) (plain_of_type ht) r.1
  · exact H.pre.refl _

theorem parameterList_written {ks : List Item} (h : ∀ k ∈ ks, GoodOn L P C N R σ k) (r : St × List (Bytes × Rng))
    (hr : AllWritten c (P σ) r.2) : AllWritten c (P σ) (Analyser.parameterList c ks r).2 := by
  unfold Analyser.parameterList
  induction ks generalizing r with
  | nil => exact hr
  | cons k ks ih =>
    rw [List.foldl_cons]
    refine ih (fun k hk => h k (by simp [hk])) _ ?_
    split
    · next ht =>
      intro p hp
      rcases List.mem_append.mp hp with hp | hp
      · exact hr p hp
      · rw [List.mem_singleton.mp hp]
        exact newParameter_written (h k (by simp)) ht r.1
    · exact hr

theorem recordParameters (H : ClosedOn c L P C N R Q) {ps : List (Bytes × Rng)} (hw : AllWritten c (P σ) ps) (p : Pos) (st : St) :
    R σ st (recordParameters ps p st) := by
  unfold Analyser.recordParameters
  induction ps generalizing st with
  | nil => exact H.pre.refl st
  | cons x ps ih =>
    rw [List.foldl_cons]
    exact H.pre.trans (H.record _ _ _ _ _ (hw x (by simp))) (ih (fun p hp => hw p (by simp [hp])) _)

theorem recordParametersAt (H : ClosedOn c L P C N R Q) {ps : List (Bytes × Rng)} (hw : AllWritten c (P σ) ps) (h : Item) (st : St) :
    R σ st (recordParametersAt c ps h st) := by
  unfold Analyser.recordParametersAt
  split
  · exact H.pre.refl st
  · exact H.crash st
  · exact H.recordParameters hw ..

/-- A loop over children that keeps the parameters written. -/
theorem foldWritten {g : St × List (Bytes × Rng) → Item → St × List (Bytes × Rng)} {ks : List Item}
    (h : ∀ k ∈ ks, ∀ r, AllWritten c (P σ) r.2 → AllWritten c (P σ) (g r k).2) {r : St × List (Bytes × Rng)}
    (hr : AllWritten c (P σ) r.2) : AllWritten c (P σ) (ks.foldl g r).2 := by
  induction ks generalizing r with
  | nil => exact hr
  | cons k ks ih => rw [List.foldl_cons]; exact ih (fun k hk => h k (by simp [hk])) (h k (by simp) r hr)

/-- The same for the state, which changes as long as the parameters are written. -/
theorem foldQ (H : PreOrder (Q σ)) {g : St × List (Bytes × Rng) → Item → St × List (Bytes × Rng)} {ks : List Item}
    (hw : ∀ k ∈ ks, ∀ r, AllWritten c (P σ) r.2 → AllWritten c (P σ) (g r k).2)
    (h : ∀ k ∈ ks, ∀ r, AllWritten c (P σ) r.2 → Q σ r.1 (g r k).1) {r : St × List (Bytes × Rng)}
    (hr : AllWritten c (P σ) r.2) : Q σ r.1 (ks.foldl g r).1 := by
  induction ks generalizing r with
  | nil => exact H.refl _
  | cons k ks ih =>
    rw [List.foldl_cons]
    exact H.trans (h k (by simp) r hr) (ih (fun k hk => hw k (by simp [hk])) (fun k hk => h k (by simp [hk])) (hw k (by simp) r hr))

theorem functionHeader (H : ClosedOn c L P C N R Q) {ks : List Item} (h : ∀ k ∈ ks, GoodOn L P C N R σ k) (r : St × List (Bytes × Rng)) :
    Q σ r.1 (functionHeader c ks r).1 := by
  refine H.qpre.fold (fun k hk r => ?_) r
  split
  · split
    · exact H.onName r.1 fun _ => _
    · exact H.qpre.refl _
  · exact H.lift (H.parameterList ((h k hk).children (plain_of_type ‹k.type? = _›)) r)
  · exact H.onName r.1 fun _ => _
  · exact H.qpre.refl _

theorem functionHeader_written {ks : List Item} (h : ∀ k ∈ ks, GoodOn L P C N R σ k) {r : St × List (Bytes × Rng)}
    (hr : AllWritten c (P σ) r.2) : AllWritten c (P σ) (Analyser.functionHeader c ks r).2 := by
  refine foldWritten (fun k hk r hr => ?_) hr
  split
  · split <;> exact hr
  · exact parameterList_written ((h k hk).children (plain_of_type ‹k.type? = _›)) r hr
  · exact hr
  · exact hr

theorem methodHeader (H : ClosedOn c L P C N R Q) {ks : List Item} (h : ∀ k ∈ ks, GoodOn L P C N R σ k) (r : St × List (Bytes × Rng)) :
    Q σ r.1 (methodHeader c ks r).1 := by
  refine H.qpre.fold (fun k hk r => ?_) r
  split
  · split
    · exact H.onName r.1 fun _ => _
    · exact H.qpre.refl _
  · exact H.lift (H.parameterList ((h k hk).children (plain_of_type ‹k.type? = _›)) r)
  · exact H.onName r.1 fun _ => _
  · exact H.qpre.refl _

theorem methodHeader_written {ks : List Item} (h : ∀ k ∈ ks, GoodOn L P C N R σ k) {r : St × List (Bytes × Rng)}
    (hr : AllWritten c (P σ) r.2) : AllWritten c (P σ) (Analyser.methodHeader c ks r).2 := by
  refine foldWritten (fun k hk r hr => ?_) hr
  split
  · split <;> exact hr
  · exact parameterList_written ((h k hk).children (plain_of_type ‹k.type? = _›)) r hr
  · exact hr
  · exact hr

theorem functionHeader_last (H : ClosedOn c L P C N R Q) {ks : List Item} (h : ∀ k ∈ ks, GoodOn L P C N R σ k) (r : St × List (Bytes × Rng)) :
    Kept r.1 (Analyser.functionHeader c ks r).1 ∧ Last (fun raw nm => nm = (tyOf raw).fqn) ((ks.map Item.node).filterMap (spelled c true))
      r.1.top.sym.name (Analyser.functionHeader c ks r).1.top.sym.name := by
  rw [filterMap_nodes]
  refine Last.fold (fun r' => Kept r.1 r'.1) (fun r => r.1.top.sym.name) _ (fun k hk r' hr => ?_) r (Kept.refl _)
  cases hn : k.node with
  | tok t =>
    simp only [Item.tok?, Item.type?, hn, spelled]
    by_cases ht : t.type = .name
    · rw [if_pos ht, if_pos ht]; exact ⟨hr, .one rfl⟩
    · rw [if_neg ht, if_neg ht]; exact ⟨hr, .nil rfl⟩
  | err t =>
    simp only [Item.tok?, Item.type?, hn, spelled]
    exact ⟨hr, .nil rfl⟩
  | phr ty ms =>
    have hty : k.type? = some ty := by simp only [Item.type?, hn]
    have htok : k.tok? = none := by simp only [Item.tok?, hn]
    rw [htok, hty]
    by_cases h1 : ty = .parameterDeclarationList
    · subst h1
      rw [spelled_phr (by decide)]
      have hf := H.frame (H.parameterList ((h k hk).children (plain_of_type hty)) r')
      exact ⟨hr.trans hf.kept, .nil (by rw [show (_ : St × List (Bytes × Rng)).1.top.sym = _ from hf.sym])⟩
    · by_cases h2 : ty = .identifier
      · subst h2
        refine ⟨hr, .one ?_⟩
        rw [← hn]
        rfl
      · rw [spelled_phr h2]
        split
        · rename_i e; cases e
        · rename_i e; injection e with e; exact absurd e h1
        · rename_i e; injection e with e; exact absurd e h2
        · exact ⟨hr, .nil rfl⟩

theorem methodHeader_last (H : ClosedOn c L P C N R Q) {ks : List Item} (h : ∀ k ∈ ks, GoodOn L P C N R σ k) (r : St × List (Bytes × Rng)) :
    Kept r.1 (Analyser.methodHeader c ks r).1 ∧ Last (fun raw nm => nm = raw) ((ks.map Item.node).filterMap (spelled c true))
      r.1.top.sym.name (Analyser.methodHeader c ks r).1.top.sym.name := by
  rw [filterMap_nodes]
  refine Last.fold (fun r' => Kept r.1 r'.1) (fun r => r.1.top.sym.name) _ (fun k hk r' hr => ?_) r (Kept.refl _)
  cases hn : k.node with
  | tok t =>
    simp only [Item.tok?, Item.type?, hn, spelled]
    by_cases ht : t.type = .name
    · rw [if_pos ht, if_pos ht]; exact ⟨hr, .one rfl⟩
    · rw [if_neg ht, if_neg ht]; exact ⟨hr, .nil rfl⟩
  | err t =>
    simp only [Item.tok?, Item.type?, hn, spelled]
    exact ⟨hr, .nil rfl⟩
  | phr ty ms =>
    have hty : k.type? = some ty := by simp only [Item.type?, hn]
    have htok : k.tok? = none := by simp only [Item.tok?, hn]
    rw [htok, hty]
    by_cases h1 : ty = .parameterDeclarationList
    · subst h1
      rw [spelled_phr (by decide)]
      have hf := H.frame (H.parameterList ((h k hk).children (plain_of_type hty)) r')
      exact ⟨hr.trans hf.kept, .nil (by rw [show (_ : St × List (Bytes × Rng)).1.top.sym = _ from hf.sym])⟩
    · by_cases h2 : ty = .identifier
      · subst h2
        refine ⟨hr, .one ?_⟩
        rw [← hn]
        rfl
      · rw [spelled_phr h2]
        split
        · rename_i e; cases e
        · rename_i e; injection e with e; exact absurd e h1
        · rename_i e; injection e with e; exact absurd e h2
        · exact ⟨hr, .nil rfl⟩

/-- A part of a function. -/
def functionStep (c : Ctx) (r : St × List (Bytes × Rng)) (k : Item) : St × List (Bytes × Rng) :=
  match k.type? with
  | some .functionDeclarationHeader => (Analyser.recordParametersAt c (Analyser.functionHeader c k.kids r).2 k (Analyser.functionHeader c k.kids r).1,
      (Analyser.functionHeader c k.kids r).2)
  | some .functionDeclarationBody => (Analyser.scanForChildren k r.1, r.2)
  | _ => r

theorem functionStep_all (H : ClosedOn c L P C N R Q) {k : Item} (hk : GoodOn L P C N R σ k) {r : St × List (Bytes × Rng)}
    (hr : AllWritten c (P σ) r.2) : AllWritten c (P σ) (functionStep c r k).2 ∧ Q σ r.1 (functionStep c r k).1 ∧
      Kept r.1 (functionStep c r k).1 ∧ Last (fun raw nm => nm = (tyOf raw).fqn)
        (if k.node.isPhrase .functionDeclarationHeader then (k.kids.map Item.node).filterMap (spelled c true) else [])
        r.1.top.sym.name (functionStep c r k).1.top.sym.name := by
  unfold functionStep
  split
  · next e =>
    have hg := GoodOn.children hk (plain_of_type e)
    have hw := functionHeader_written hg hr
    have hl := H.functionHeader_last hg r
    have hp := H.recordParametersAt (σ := σ) hw k (Analyser.functionHeader c k.kids r).1
    refine ⟨hw, H.qpre.trans (H.functionHeader hg r) (H.lift hp), hl.1.trans (H.frame hp).kept, ?_⟩
    rw [if_pos (isPhrase_type.mpr e)]
    dsimp only
    rw [(H.frame hp).sym]
    exact hl.2
  · next e =>
    have hs := H.scanForChildren (GoodOn.children hk (plain_of_type e)) r.1
    refine ⟨hr, H.lift hs, (H.frame hs).kept, ?_⟩
    rw [if_neg (fun e' => by rw [isPhrase_type, e] at e'; injection e' with e'; cases e')]
    exact .nil (by rw [(H.frame hs).sym])
  · next h1 h2 =>
    refine ⟨hr, H.qpre.refl _, .refl _, ?_⟩
    rw [if_neg (fun e' => h1 (isPhrase_type.mp e'))]
    exact .nil rfl

theorem functionParts (H : ClosedOn c L P C N R Q) {n : Item} (h : ∀ k ∈ n.kids, GoodOn L P C N R σ k) (hs : n.kids.map Item.node = n.node.kids) (st : St) :
    Q σ st (n.kids.foldl (functionStep c) (st, [])).1 ∧ Kept st (n.kids.foldl (functionStep c) (st, [])).1 ∧
    Last (fun raw nm => nm = (tyOf raw).fqn) (headNames c true .functionDeclarationHeader n.node.kids)
      st.top.sym.name (n.kids.foldl (functionStep c) (st, [])).1.top.sym.name := by
  rw [headNames_items hs fun k hk => (h k hk).same]
  obtain ⟨⟨h1, h2, -⟩, h3⟩ := Last.fold (fun r : St × List (Bytes × Rng) => Q σ st r.1 ∧ Kept st r.1 ∧ AllWritten c (P σ) r.2)
    (fun r => r.1.top.sym.name) _ (g := functionStep c) (fun k hk r hr => by
      obtain ⟨g1, g2, g3, g4⟩ := H.functionStep_all (h k hk) hr.2.2
      exact ⟨⟨H.qpre.trans hr.1 g2, hr.2.1.trans g3, g1⟩, g4⟩) (st, []) ⟨H.qpre.refl st, .refl st, by simp [AllWritten]⟩
  exact ⟨h1, h2, h3⟩

/-- A part of a method. -/
def methodStep (c : Ctx) (r : St × List (Bytes × Rng)) (k : Item) : St × List (Bytes × Rng) :=
  match k.type? with
  | some .methodDeclarationHeader => (Analyser.recordParametersAt c (Analyser.methodHeader c k.kids r).2 k (Analyser.methodHeader c k.kids r).1,
      (Analyser.methodHeader c k.kids r).2)
  | some .methodDeclarationBody => (Analyser.scanForChildren k r.1, r.2)
  | _ => r

theorem methodStep_all (H : ClosedOn c L P C N R Q) {k : Item} (hk : GoodOn L P C N R σ k) {r : St × List (Bytes × Rng)}
    (hr : AllWritten c (P σ) r.2) : AllWritten c (P σ) (methodStep c r k).2 ∧ Q σ r.1 (methodStep c r k).1 ∧
      Kept r.1 (methodStep c r k).1 ∧ Last (fun raw nm => nm = raw)
        (if k.node.isPhrase .methodDeclarationHeader then (k.kids.map Item.node).filterMap (spelled c true) else [])
        r.1.top.sym.name (methodStep c r k).1.top.sym.name := by
  unfold methodStep
  split
  · next e =>
    have hg := GoodOn.children hk (plain_of_type e)
    have hw := methodHeader_written hg hr
    have hl := H.methodHeader_last hg r
    have hp := H.recordParametersAt (σ := σ) hw k (Analyser.methodHeader c k.kids r).1
    refine ⟨hw, H.qpre.trans (H.methodHeader hg r) (H.lift hp), hl.1.trans (H.frame hp).kept, ?_⟩
    rw [if_pos (isPhrase_type.mpr e)]
    dsimp only
    rw [(H.frame hp).sym]
    exact hl.2
  · next e =>
    have hs := H.scanForChildren (GoodOn.children hk (plain_of_type e)) r.1
    refine ⟨hr, H.lift hs, (H.frame hs).kept, ?_⟩
    rw [if_neg (fun e' => by rw [isPhrase_type, e] at e'; injection e' with e'; cases e')]
    exact .nil (by rw [(H.frame hs).sym])
  · next h1 h2 =>
    refine ⟨hr, H.qpre.refl _, .refl _, ?_⟩
    rw [if_neg (fun e' => h1 (isPhrase_type.mp e'))]
    exact .nil rfl

theorem methodParts (H : ClosedOn c L P C N R Q) {n : Item} (h : ∀ k ∈ n.kids, GoodOn L P C N R σ k) (hs : n.kids.map Item.node = n.node.kids) (st : St) :
    Q σ st (n.kids.foldl (methodStep c) (st, [])).1 ∧ Kept st (n.kids.foldl (methodStep c) (st, [])).1 ∧
    Last (fun raw nm => nm = raw) (headNames c true .methodDeclarationHeader n.node.kids)
      st.top.sym.name (n.kids.foldl (methodStep c) (st, [])).1.top.sym.name := by
  rw [headNames_items hs fun k hk => (h k hk).same]
  obtain ⟨⟨h1, h2, -⟩, h3⟩ := Last.fold (fun r : St × List (Bytes × Rng) => Q σ st r.1 ∧ Kept st r.1 ∧ AllWritten c (P σ) r.2)
    (fun r => r.1.top.sym.name) _ (g := methodStep c) (fun k hk r hr => by
      obtain ⟨g1, g2, g3, g4⟩ := H.methodStep_all (h k hk) hr.2.2
      exact ⟨⟨H.qpre.trans hr.1 g2, hr.2.1.trans g3, g1⟩, g4⟩) (st, []) ⟨H.qpre.refl st, .refl st, by simp [AllWritten]⟩
  exact ⟨h1, h2, h3⟩

theorem newFunction (H : ClosedOn c L P C N R Q) {n : Item} (h : GoodOn L P C N R σ n) (ht : n.type? = some .functionDeclaration)
    (st : St) : R σ st (newFunction c n st) := by
  obtain ⟨h1, h2, h3⟩ := H.functionParts h.inner h.same ((st.pushVars (c.range n.node)).pushBlock ⟨.function, c.range n.node, [], []⟩)
  refine H.scope n.node ⟨.function, c.range n.node, [], []⟩ (function_of_type ht) h.here (.inl rfl) rfl
    ⟨n.node, h.here, declares_of_type ht fun _ => rfl, rfl⟩ (H.qpre.trans h1 (H.onName _ _)) h2 fun _ => ?_
  refine ⟨n.node, h.here, declares_of_type ht fun _ => rfl, rfl, _, ⟨_, h1, rfl⟩, ?_⟩
  have he := phr_of_good h ht
  suffices key : Node.calls c _ _ (.phr .functionDeclaration (n.kids.map Item.node)) by rw [← he] at key; exact key
  intro raw hraw
  rw [h.same] at hraw
  rw [Last, hraw] at h3
  dsimp only at h3
  rw [nameOf, ← h3]
  rfl

theorem newMethod (H : ClosedOn c L P C N R Q) {n : Item} (h : GoodOn L P C N R σ n) (ht : n.type? = some .methodDeclaration)
    (st : St) : R σ st (newMethod c n st) := by
  obtain ⟨h1, h2, h3⟩ := H.methodParts h.inner h.same ((st.pushVars (c.range n.node)).pushBlock ⟨.method, c.range n.node, [], []⟩)
  refine H.method n.node ⟨.method, c.range n.node, [], []⟩ (function_of_type ht) h.here rfl rfl
    ⟨n.node, h.here, declares_of_type ht fun _ => rfl, rfl⟩ h1 h2 fun _ => ?_
  refine ⟨n.node, h.here, declares_of_type ht fun _ => rfl, rfl, _, ⟨_, h1, rfl⟩, ?_⟩
  have he := phr_of_good h ht
  suffices key : Node.calls c _ _ (.phr .methodDeclaration (n.kids.map Item.node)) by rw [← he] at key; exact key
  intro raw hraw
  rw [h.same] at hraw
  rw [Last, hraw] at h3
  exact h3

theorem classExtends (H : ClosedOn c L P C N R Q) {ks : List Item} (h : ∀ k ∈ ks, GoodOn L P C N R σ k) (st : St) :
    R σ st (classExtends c ks st) := by
  unfold Analyser.classExtends
  split
  · next k e => exact H.addClassAccess (h k (List.mem_filter.mp (List.mem_of_getLast? e)).1) (spells_of_name (List.mem_filter.mp (List.mem_of_getLast? e)).2) st
  · exact H.pre.refl st

theorem classImplements (H : ClosedOn c L P C N R Q) {ks : List Item} (h : ∀ k ∈ ks, GoodOn L P C N R σ k) (st : St) :
    R σ st (classImplements c ks st) := by
  unfold Analyser.classImplements
  split
  · next l e =>
    exact H.pre.each (fun k hk st => H.pre.ite fun hn =>
      H.add _ _ (by rfl) (by rfl) (by exact ⟨k.node, ((h l (List.mem_of_find?_eq_some e)).children (plain_of_type (ty := .qualifiedNameList) (by simpa using List.find?_some e)) k hk).here, hn, rfl, rfl⟩)) st
  · exact H.pre.refl st

theorem classHeader (H : ClosedOn c L P C N R Q) (hC : C) {st0 : St} (i : Nat) {doc : Option (Rng × List (Bool × Bytes))}
    (hdoc : ∀ d, doc = some d → st0.doc = some d) {ks : List Item}
    (hown : ∀ d, doc = some d → ∀ k ∈ ks, ∀ t, k.tok? = some t → t.type = TokType.name → ∀ ns,
      DocOwner c (P σ) d.1 ((tyOf (c.tokText t)).setNamespace ns).fqn)
    (h : ∀ k ∈ ks, GoodOn L P C N R σ k) (st : St) (h0 : Q σ st0 st) :
    Q σ st0 (classHeader c i doc ks st) := by
  refine eachFrom (fun k hk st h0 => ?_) st h0
  dsimp only
  split
  · next t htok =>
    split
    · next hname =>
      have h1 : ∀ name : Types.Ty, Q σ st0 ((st.nameClass i name).onTop fun s => { s with name := name.fqn }) :=
        fun name => H.qpre.trans h0 (H.qpre.trans (H.nameClass hC ..) (H.onName _ _))
      split
      · next d =>
        have key : ∀ (ms : List (Bool × Bytes)) st, (∀ m ∈ ms, m ∈ d.2) → Q σ st0 st → ∀ fqn, DocOwner c (P σ) d.1 fqn →
            Q σ st0 (ms.foldl (fun st m => st.add (Analyser.docMember d.1 fqn m)) st) := by
          intro ms
          induction ms with
          | nil => intro st _ h _ _; exact h
          | cons m ms ih =>
            intro st hm h fqn ho
            rw [List.foldl_cons]
            exact ih _ (fun x hx => hm x (by simp [hx])) (H.docMember hC fqn h (hdoc d rfl) (hm m (by simp)) ho) fqn ho
        exact key d.2 _ (fun _ h => h) (h1 _) _ (hown d rfl k hk t htok hname _)
      · exact h1 _
    · exact h0
  · exact H.qpre.trans h0 (H.lift ((h k hk).run st))
  · exact H.qpre.trans h0 (H.lift (H.classExtends ((h k hk).children (plain_of_type ‹k.type? = _›)) st))
  · exact H.qpre.trans h0 (H.lift (H.classImplements ((h k hk).children (plain_of_type ‹k.type? = _›)) st))
  · exact h0

theorem kept_nameClass {st st' : St} (h : Kept st st') (name : Types.Ty) : Kept st (st'.nameClass st.classes.length name) := by
  intro j hj
  rw [← h j hj, St.nameClass, List.getElem?_modify]
  cases st'.classes[j]? with
  | none => rfl
  | some x => exact congrArg some (if_neg (by omega))

theorem foldAdd {α : Type} (f : α → Sym) (ms : List α) (st : St) :
    (ms.foldl (fun st m => st.add (f m)) st).top.sym = st.top.sym ∧ (ms.foldl (fun st m => st.add (f m)) st).classes = st.classes := by
  induction ms generalizing st with
  | nil => exact ⟨rfl, rfl⟩
  | cons m ms ih => rw [List.foldl_cons]; exact ⟨(ih _).1, (ih _).2⟩

theorem classHeader_last (H : ClosedOn c L P C N R Q) (hC : C) {base st0 : St} {doc : Option (Rng × List (Bool × Bytes))}
    (hdoc : ∀ d, doc = some d → st0.doc = some d) {ks : List Item}
    (hown : ∀ d, doc = some d → ∀ k ∈ ks, ∀ t, k.tok? = some t → t.type = TokType.name → ∀ ns,
      DocOwner c (P σ) d.1 ((tyOf (c.tokText t)).setNamespace ns).fqn)
    (h : ∀ k ∈ ks, GoodOn L P C N R σ k) (st : St) (h0 : Q σ st0 st) (hb : Kept base st) :
    (Q σ st0 (Analyser.classHeader c base.classes.length doc ks st) ∧ Kept base (Analyser.classHeader c base.classes.length doc ks st)) ∧
    Last (fun raw nm => ∃ ns, (∃ st1, Q σ st0 st1 ∧ st1.ns = ns) ∧ nm = ((tyOf raw).setNamespace ns).fqn)
      ((ks.map Item.node).filterMap (spelled c false)) st.top.sym.name (Analyser.classHeader c base.classes.length doc ks st).top.sym.name := by
  rw [filterMap_nodes]
  refine Last.fold (fun st' => Q σ st0 st' ∧ Kept base st') (fun st => st.top.sym.name) _ (fun k hk st' hr => ?_) st ⟨h0, hb⟩
  have hq := H.classHeader hC base.classes.length hdoc (ks := [k]) (fun d hd x hx t => hown d hd x (by
    rw [List.mem_singleton.mp hx]; exact hk) t) (fun x hx => by rw [List.mem_singleton.mp hx]; exact h k hk) st' hr.1
  have hstep : ∀ st2, Analyser.classHeader c base.classes.length doc [k] st' = st2 →
      (Kept base st2 ∧ Last (fun raw nm => ∃ ns, (∃ st1, Q σ st0 st1 ∧ st1.ns = ns) ∧ nm = ((tyOf raw).setNamespace ns).fqn)
        (spelled c false k.node).toList st'.top.sym.name st2.top.sym.name) → (Q σ st0 st2 ∧ Kept base st2) ∧
        Last (fun raw nm => ∃ ns, (∃ st1, Q σ st0 st1 ∧ st1.ns = ns) ∧ nm = ((tyOf raw).setNamespace ns).fqn)
        (spelled c false k.node).toList st'.top.sym.name st2.top.sym.name := by
    intro st2 e hst
    rw [e] at hq
    exact ⟨⟨hq, hst.1⟩, hst.2⟩
  refine hstep _ rfl ?_
  clear hstep hq
  cases hn : k.node with
  | tok t =>
    simp only [Item.tok?, Item.type?, hn, spelled]
    by_cases ht : t.type = .name
    · rw [if_pos ht, if_pos ht]
      cases doc with
      | none => exact ⟨kept_nameClass hr.2 _, .one ⟨_, ⟨st', hr.1, rfl⟩, rfl⟩⟩
      | some d =>
        dsimp only
        obtain ⟨e1, e2⟩ := foldAdd (Analyser.docMember d.1 ((tyOf (c.tokText t)).setNamespace st'.ns).fqn) d.2
          ((st'.nameClass base.classes.length ((tyOf (c.tokText t)).setNamespace st'.ns)).onTop fun s =>
            { s with name := ((tyOf (c.tokText t)).setNamespace st'.ns).fqn })
        refine ⟨?_, .one ⟨_, ⟨st', hr.1, rfl⟩, ?_⟩⟩
        · intro j hj
          rw [e2]
          exact kept_nameClass hr.2 _ j hj
        · rw [e1]; rfl
    · rw [if_neg ht, if_neg ht]; exact ⟨hr.2, .nil rfl⟩
  | err t =>
    simp only [Item.tok?, Item.type?, hn, spelled]
    exact ⟨hr.2, .nil rfl⟩
  | phr ty ms =>
    have hty : k.type? = some ty := by simp only [Item.type?, hn]
    have htok : k.tok? = none := by simp only [Item.tok?, hn]
    dsimp only
    rw [htok, hty]
    have hsp : spelled c false (.phr ty ms) = none := by
      unfold spelled
      split
      · rename_i e; cases e
      · rfl
      · rfl
    rw [hsp]
    have step : ∀ st2, R σ st' st2 → Kept base st2 ∧ Last (fun raw nm => ∃ ns, (∃ st1, Q σ st0 st1 ∧ st1.ns = ns) ∧
        nm = ((tyOf raw).setNamespace ns).fqn) [] st'.top.sym.name st2.top.sym.name := fun st2 h2 =>
      ⟨hr.2.trans (H.frame h2).kept, .nil (by rw [(H.frame h2).sym])⟩
    dsimp only [Option.toList]
    split
    · rename_i e; cases e
    · exact step _ ((h k hk).run st')
    · rename_i e; injection e with e; subst e
      exact step _ (H.classExtends ((h k hk).children (plain_of_type hty)) st')
    · rename_i e; injection e with e; subst e
      exact step _ (H.classImplements ((h k hk).children (plain_of_type hty)) st')
    · exact ⟨hr.2, .nil rfl⟩

theorem validDoc_some {st : St} {r : Rng} {d : Rng × List (Bool × Bytes)} (h : st.validDoc r = some d) : st.doc = some d := by
  unfold St.validDoc at h
  split at h
  · simp at h
  · next e =>
    split at h
    · rw [e, h]
    · simp at h

theorem docOwner {n k : Item} (h : P σ n.node) (hn : n.node.declares .class_ = true) (hs : n.kids.map Item.node = n.node.kids)
    (hk : k ∈ n.kids) (hks : k.kids.map Item.node = k.node.kids) {st : St} {d : Rng × List (Bool × Bytes)}
    (hd : st.validDoc (c.range n.node) = some d) {x : Item} (hx : x ∈ k.kids) {t : Tok} (ht : x.tok? = some t)
    (htt : t.type = TokType.name) (ns : Bytes) : DocOwner c (P σ) d.1 ((tyOf (c.tokText t)).setNamespace ns).fqn := by
  refine ⟨n.node, h, hn, ?_, k.node, by rw [← hs]; exact List.mem_map_of_mem hk, t, ?_, htt, ns, rfl⟩
  · unfold St.validDoc at hd
    split at hd
    · cases hd
    · split at hd
      · next hl => injection hd with hd; rw [← hd]; omega
      · cases hd
  · rw [← hks]
    refine List.mem_map.mpr ⟨x, hx, ?_⟩
    unfold Item.tok? at ht
    split at ht
    · next e => rw [e]; injection ht with ht; rw [ht]
    · cases ht

/-- The parts of a class. -/
theorem classParts (H : ClosedOn c L P C N R Q) (hC : C) {n : Item} (h : GoodOn L P C N R σ n) (hcl : n.node.declares .class_ = true)
    (hf : n.node.isFunction = false) (header : PType) (hp : ∀ k : Item, k.type? = some header → k.node.isFunction = false)
    {base st0 : St} {d : Option (Rng × List (Bool × Bytes))} (hd : ∀ x, d = some x → st0.doc = some x)
    (ho : ∃ st2 : St, d = st2.validDoc (c.range n.node)) (hb : Kept base st0) {f : St → Item → St}
    (hf1 : ∀ st k, k.type? = some header → f st k = Analyser.classHeader c base.classes.length d k.kids st)
    (hf2 : ∀ st k, k.type? = some .classDeclarationBody → f st k = Analyser.scanForChildren k st)
    (hf3 : ∀ st k, k.type? ≠ some header → k.type? ≠ some .classDeclarationBody → f st k = st) :
    (Q σ st0 (n.kids.foldl f st0) ∧ Kept base (n.kids.foldl f st0)) ∧
    Last (fun raw nm => ∃ ns, (∃ st1, Q σ st0 st1 ∧ st1.ns = ns) ∧ nm = ((tyOf raw).setNamespace ns).fqn)
      (headNames c false header n.node.kids) st0.top.sym.name (n.kids.foldl f st0).top.sym.name := by
  rw [headNames_items h.same fun k hk => (h.children hf k hk).same]
  refine Last.fold (fun st' => Q σ st0 st' ∧ Kept base st') (fun st => st.top.sym.name) _ (fun k hk st' hr => ?_) st0 ⟨H.qpre.refl _, hb⟩
  have hg := h.children hf k hk
  by_cases h1 : k.type? = some header
  · rw [hf1 _ _ h1, if_pos (isPhrase_type.mpr h1)]
    obtain ⟨st2, ho⟩ := ho
    exact H.classHeader_last hC hd (fun x hx y hy t hyt htt ns => docOwner h.here hcl h.same hk hg.same (ho.symm.trans hx) hy hyt htt ns)
      (hg.children (hp k h1)) st' hr.1 hr.2
  · rw [if_neg fun e => h1 (isPhrase_type.mp e)]
    by_cases h2 : k.type? = some .classDeclarationBody
    · rw [hf2 _ _ h2]
      have hs := H.scanForChildren (hg.children (plain_of_type h2)) st'
      exact ⟨⟨H.qpre.trans hr.1 (H.lift hs), hr.2.trans (H.frame hs).kept⟩, .nil (by rw [(H.frame hs).sym])⟩
    · rw [hf3 _ _ h1 h2]
      exact ⟨hr, .nil rfl⟩

theorem newClass (H : ClosedOn c L P C N R Q) (hC : C) {n : Item} (h : GoodOn L P C N R σ n)
    (ht : n.type? = some .classDeclaration) (st : St) : R σ st (newClass c n st) := by
  obtain ⟨⟨h1, h2⟩, h3⟩ := H.classParts hC h (declares_of_type ht fun _ => rfl) (plain_of_type ht) .classDeclarationHeader
    (fun k hk => plain_of_type hk) (base := st) (st0 := (st.addClass .class_ ⟨[], [], 0⟩).1.pushBlock ⟨.class_, c.range n.node, [], []⟩)
    (d := (st.addClass .class_ ⟨[], [], 0⟩).1.validDoc (c.range n.node)) (fun d hd => validDoc_some hd) ⟨_, rfl⟩
    (Kept.addClass st .class_ ⟨[], [], 0⟩) (f := fun st' k => match k.type? with
      | some .classDeclarationHeader => Analyser.classHeader c (st.addClass .class_ ⟨[], [], 0⟩).2 ((st.addClass .class_ ⟨[], [], 0⟩).1.validDoc (c.range n.node)) k.kids st'
      | some .classDeclarationBody => Analyser.scanForChildren k st'
      | _ => st') (fun st' k e => by rw [e]; rfl) (fun st' k e => by rw [e])
    (fun st' k e1 e2 => by
      split
      · exact absurd ‹_› e1
      · exact absurd ‹_› e2
      · rfl)
  refine H.classBlock hC .class_ ⟨[], [], 0⟩ ⟨.class_, c.range n.node, [], []⟩ rfl rfl
    ⟨n.node, h.here, declares_of_type ht fun _ => rfl, rfl⟩ h1 h2 fun _ => ?_
  have he := phr_of_good h ht
  rw [← h.same] at h3
  cases hl : (headNames c false .classDeclarationHeader (n.kids.map Item.node)).getLast? with
  | none =>
    refine ⟨n.node, h.here, declares_of_type ht fun _ => rfl, rfl, _, ⟨_, h1, rfl⟩, ?_⟩
    suffices key : Node.calls c _ _ (.phr .classDeclaration (n.kids.map Item.node)) by rw [← he] at key; exact key
    intro raw hraw
    rw [hl] at hraw; cases hraw
  | some raw0 =>
    rw [Last, hl] at h3
    obtain ⟨ns, hns, h3⟩ := h3
    refine ⟨n.node, h.here, declares_of_type ht fun _ => rfl, rfl, ns, hns, ?_⟩
    suffices key : Node.calls c _ _ (.phr .classDeclaration (n.kids.map Item.node)) by rw [← he] at key; exact key
    intro raw hraw
    rw [hl] at hraw; cases hraw
    exact h3

theorem newAnonymousClass (H : ClosedOn c L P C N R Q) (hC : C) {n : Item} (h : GoodOn L P C N R σ n)
    (ht : n.type? = some .anonymousClassDeclaration) (st : St) :
    R σ st (newAnonymousClass c n st) := by
  obtain ⟨⟨h1, h2⟩, h3⟩ := H.classParts hC h (declares_of_type ht fun _ => rfl) (plain_of_type ht) .anonymousClassDeclarationHeader
    (fun k hk => plain_of_type hk) (base := st)
    (st0 := (st.addClass .class_ ((tyOf (c.anonName (c.range n.node).start)).setNamespace st.ns)).1.pushBlock
      ⟨.class_, c.range n.node, ((tyOf (c.anonName (c.range n.node).start)).setNamespace st.ns).fqn, []⟩)
    (d := (st.addClass .class_ ((tyOf (c.anonName (c.range n.node).start)).setNamespace st.ns)).1.validDoc (c.range n.node)) (fun d hd => validDoc_some hd) ⟨_, rfl⟩
    (Kept.addClass st .class_ ((tyOf (c.anonName (c.range n.node).start)).setNamespace st.ns)) (f := fun st' k => match k.type? with
      | some .anonymousClassDeclarationHeader => Analyser.classHeader c (st.addClass .class_ ((tyOf (c.anonName (c.range n.node).start)).setNamespace st.ns)).2
          ((st.addClass .class_ ((tyOf (c.anonName (c.range n.node).start)).setNamespace st.ns)).1.validDoc (c.range n.node)) k.kids st'
      | some .classDeclarationBody => Analyser.scanForChildren k st'
      | _ => st') (fun st' k e => by rw [e]; rfl) (fun st' k e => by rw [e])
    (fun st' k e1 e2 => by
      split
      · exact absurd ‹_› e1
      · exact absurd ‹_› e2
      · rfl)
  refine H.classBlock hC .class_ ((tyOf (c.anonName (c.range n.node).start)).setNamespace st.ns)
    ⟨.class_, c.range n.node, ((tyOf (c.anonName (c.range n.node).start)).setNamespace st.ns).fqn, []⟩ rfl rfl
    ⟨n.node, h.here, declares_of_type ht fun _ => rfl, rfl⟩ h1 h2 fun _ => ?_
  have he := phr_of_good h ht
  rw [← h.same] at h3
  refine ⟨n.node, h.here, declares_of_type ht fun _ => rfl, rfl, st.ns, ⟨_, H.qpre.refl _, rfl⟩, ?_⟩
  suffices key : Node.calls c _ _ (.phr .anonymousClassDeclaration (n.kids.map Item.node)) by rw [← he] at key; exact key
  intro hnil
  rw [hnil] at h3
  rw [← he]
  exact h3

theorem nameHeader (H : ClosedOn c L P C N R Q) (hC : C) (i : Nat) (f : Types.Ty → Bytes → Types.Ty) (ks : List Item) (st : St) :
    Q σ st (nameHeader c i f ks st) := by
  refine H.qpre.each (fun k _ st => ?_) st
  dsimp only
  split
  · exact H.qpre.ite fun _ => H.qpre.trans (H.nameClass hC ..) (H.onName _ _)
  · exact H.qpre.refl st

/-- The name of the open block and of the `i`th class. -/
def titleAt (i : Nat) (st : St) : Bytes × Option Types.Ty := (st.top.sym.name, st.classes[i]?.map fun (x : Cls) => x.name)

theorem titleAt_steady {i : Nat} {st st' : St} (h : Steady st st') (hi : i < st.classes.length) : titleAt i st' = titleAt i st := by
  rw [titleAt, titleAt, h.sym, h.kept i hi]

theorem nameHeader_last (H : ClosedOn c L P C N R Q) (hC : C) {base st0 : St} (f : Types.Ty → Bytes → Types.Ty) (ks : List Item) (st : St)
    (h0 : Q σ st0 st) (hb : Kept base st) (hl : base.classes.length < st.classes.length) :
    (Q σ st0 (Analyser.nameHeader c base.classes.length f ks st) ∧ Kept base (Analyser.nameHeader c base.classes.length f ks st) ∧
      base.classes.length < (Analyser.nameHeader c base.classes.length f ks st).classes.length) ∧
    Last (fun raw v => ∃ ns, (∃ st1, Q σ st0 st1 ∧ st1.ns = ns) ∧ v = ((f (tyOf raw) ns).fqn, some (f (tyOf raw) ns)))
      ((ks.map Item.node).filterMap (spelled c false)) (titleAt base.classes.length st)
      (titleAt base.classes.length (Analyser.nameHeader c base.classes.length f ks st)) := by
  rw [filterMap_nodes]
  refine Last.fold (fun st' => Q σ st0 st' ∧ Kept base st' ∧ base.classes.length < st'.classes.length) (titleAt base.classes.length) _
    (fun k hk st' hr => ?_) st ⟨h0, hb, hl⟩
  cases hn : k.node with
  | tok t =>
    simp only [Item.tok?, hn, spelled]
    by_cases ht : t.type = .name
    · rw [if_pos ht, if_pos ht]
      refine ⟨⟨H.qpre.trans hr.1 (H.qpre.trans (H.nameClass hC ..) (H.onName _ _)), kept_nameClass hr.2.1 _, ?_⟩, .one ⟨_, ⟨st', hr.1, rfl⟩, ?_⟩⟩
      · show _ < (st'.classes.modify _ _).length
        rw [List.length_modify]; exact hr.2.2
      · refine Prod.ext rfl ?_
        show ((st'.classes.modify _ _)[_]?).map _ = _
        rw [List.getElem?_modify, List.getElem?_eq_getElem hr.2.2]
        simp
    · rw [if_neg ht, if_neg ht]; exact ⟨hr, .nil rfl⟩
  | err t => simp only [Item.tok?, hn, spelled]; exact ⟨hr, .nil rfl⟩
  | phr ty ms =>
    have hsp : spelled c false (.phr ty ms) = none := by
      unfold spelled
      split
      · rename_i e; cases e
      · rfl
      · rfl
    simp only [Item.tok?, hn, hsp]
    exact ⟨hr, .nil rfl⟩

/-- The parts of an interface or a trait. -/
theorem headParts (H : ClosedOn c L P C N R Q) (hC : C) {n : Item} (h : GoodOn L P C N R σ n)
    (hf : n.node.isFunction = false) (header body : PType) (hp : ∀ k : Item, k.type? = some body → k.node.isFunction = false)
    {base st0 : St} (hb : Kept base st0) (hl : base.classes.length < st0.classes.length) (w : Types.Ty → Bytes → Types.Ty) {f : St → Item → St}
    (hf1 : ∀ st k, k.type? = some header → f st k = Analyser.nameHeader c base.classes.length w k.kids st)
    (hf2 : ∀ st k, k.type? = some body → f st k = Analyser.scanForChildren k st)
    (hf3 : ∀ st k, k.type? ≠ some header → k.type? ≠ some body → f st k = st) :
    (Q σ st0 (n.kids.foldl f st0) ∧ Kept base (n.kids.foldl f st0) ∧ base.classes.length < (n.kids.foldl f st0).classes.length) ∧
    Last (fun raw v => ∃ ns, (∃ st1, Q σ st0 st1 ∧ st1.ns = ns) ∧ v = ((w (tyOf raw) ns).fqn, some (w (tyOf raw) ns)))
      (headNames c false header n.node.kids) (titleAt base.classes.length st0) (titleAt base.classes.length (n.kids.foldl f st0)) := by
  rw [headNames_items h.same fun k hk => (h.children hf k hk).same]
  refine Last.fold (fun st' => Q σ st0 st' ∧ Kept base st' ∧ base.classes.length < st'.classes.length) (titleAt base.classes.length) _
    (fun k hk st' hr => ?_) st0 ⟨H.qpre.refl _, hb, hl⟩
  have hg := h.children hf k hk
  by_cases h1 : k.type? = some header
  · rw [hf1 _ _ h1, if_pos (isPhrase_type.mpr h1)]
    exact H.nameHeader_last hC w k.kids st' hr.1 hr.2.1 hr.2.2
  · rw [if_neg fun e => h1 (isPhrase_type.mp e)]
    by_cases h2 : k.type? = some body
    · rw [hf2 _ _ h2]
      have hs := H.scanForChildren (hg.children (hp k h2)) st'
      exact ⟨⟨H.qpre.trans hr.1 (H.lift hs), hr.2.1.trans (H.frame hs).kept, Nat.lt_of_lt_of_le hr.2.2 (H.frame hs).kept.le⟩,
        .nil (titleAt_steady (H.frame hs) hr.2.2)⟩
    · rw [hf3 _ _ h1 h2]
      exact ⟨hr, .nil rfl⟩

theorem addClass_lt (st : St) (k : Kind) (name : Types.Ty) : st.classes.length < (st.addClass k name).1.classes.length := by
  simp [St.addClass]

theorem newInterface (H : ClosedOn c L P C N R Q) (hC : C) {n : Item} (h : GoodOn L P C N R σ n)
    (ht : n.type? = some .interfaceDeclaration) (st : St) : R σ st (newInterface c n st) := by
  obtain ⟨⟨h1, h2, h4⟩, h3⟩ := H.headParts hC h (plain_of_type ht) .interfaceDeclarationHeader .interfaceDeclarationBody
    (fun k hk => plain_of_type hk) (base := st) (st0 := (st.addClass .interface_ ⟨[], [], 0⟩).1.pushBlock ⟨.interface_, c.range n.node, [], []⟩)
    (Kept.addClass st .interface_ ⟨[], [], 0⟩) (addClass_lt ..) (fun t _ => t) (f := fun st' k => match k.type? with
      | some .interfaceDeclarationHeader => Analyser.nameHeader c (st.addClass .interface_ ⟨[], [], 0⟩).2 (fun t _ => t) k.kids st'
      | some .interfaceDeclarationBody => Analyser.scanForChildren k st'
      | _ => st') (fun st' k e => by rw [e]; rfl) (fun st' k e => by rw [e])
    (fun st' k e1 e2 => by
      split
      · exact absurd ‹_› e1
      · exact absurd ‹_› e2
      · rfl)
  refine H.classBlock hC .interface_ ⟨[], [], 0⟩ ⟨.interface_, c.range n.node, [], []⟩ rfl rfl
    ⟨n.node, h.here, declares_of_type ht fun _ => rfl, rfl⟩ (H.qpre.trans h1 (H.qpre.trans (H.nameClass hC ..) (H.onName _ _)))
    (kept_nameClass h2 _) fun _ => ?_
  have he := phr_of_good h ht
  rw [← h.same] at h3
  refine ⟨n.node, h.here, declares_of_type ht fun _ => rfl, rfl, _, ⟨_, h1, rfl⟩, ?_⟩
  suffices key : Node.calls c _ _ (.phr .interfaceDeclaration (n.kids.map Item.node)) by rw [← he] at key; exact key
  intro raw hraw
  rw [Last, hraw] at h3
  obtain ⟨ns, -, h3⟩ := h3
  have h5 := congrArg Prod.snd h3
  dsimp only [titleAt] at h5
  show (Types.Ty.setNamespace (Option.getD _ _) _).fqn = _
  exact congrArg (fun x => (Types.Ty.setNamespace (Option.getD x ⟨[], [], 0⟩) _).fqn) h5

theorem newTrait (H : ClosedOn c L P C N R Q) (hC : C) {n : Item} (h : GoodOn L P C N R σ n)
    (ht : n.type? = some .traitDeclaration) (st : St) : R σ st (newTrait c n st) := by
  obtain ⟨⟨h1, h2, h4⟩, h3⟩ := H.headParts hC h (plain_of_type ht) .traitDeclarationHeader .traitDeclarationBody
    (fun k hk => plain_of_type hk) (base := st) (st0 := (st.addClass .trait_ ⟨[], [], 0⟩).1.pushBlock ⟨.trait_, c.range n.node, [], []⟩)
    (Kept.addClass st .trait_ ⟨[], [], 0⟩) (addClass_lt ..) (fun t ns => t.setNamespace ns) (f := fun st' k => match k.type? with
      | some .traitDeclarationHeader => Analyser.nameHeader c (st.addClass .trait_ ⟨[], [], 0⟩).2 (fun t ns => t.setNamespace ns) k.kids st'
      | some .traitDeclarationBody => Analyser.scanForChildren k st'
      | _ => st') (fun st' k e => by rw [e]; rfl) (fun st' k e => by rw [e])
    (fun st' k e1 e2 => by
      split
      · exact absurd ‹_› e1
      · exact absurd ‹_› e2
      · rfl)
  refine H.classBlock hC .trait_ ⟨[], [], 0⟩ ⟨.trait_, c.range n.node, [], []⟩ rfl rfl
    ⟨n.node, h.here, declares_of_type ht fun _ => rfl, rfl⟩ h1 h2 fun _ => ?_
  have he := phr_of_good h ht
  rw [← h.same] at h3
  cases hl : (headNames c false .traitDeclarationHeader (n.kids.map Item.node)).getLast? with
  | none =>
    refine ⟨n.node, h.here, declares_of_type ht fun _ => rfl, rfl, _, ⟨_, h1, rfl⟩, ?_⟩
    suffices key : Node.calls c _ _ (.phr .traitDeclaration (n.kids.map Item.node)) by rw [← he] at key; exact key
    intro raw hraw
    rw [hl] at hraw; cases hraw
  | some raw0 =>
    rw [Last, hl] at h3
    obtain ⟨ns, hns, h3⟩ := h3
    refine ⟨n.node, h.here, declares_of_type ht fun _ => rfl, rfl, ns, hns, ?_⟩
    suffices key : Node.calls c _ _ (.phr .traitDeclaration (n.kids.map Item.node)) by rw [← he] at key; exact key
    intro raw hraw
    rw [hl] at hraw; cases hraw
    exact congrArg Prod.fst h3

theorem closureUse (H : ClosedOn c L P C N R Q) {ks : List Item} (h : ∀ k ∈ ks, GoodOn L P C N R σ k) (st : St) :
    R σ st (closureUse c ks st) := by
  refine H.pre.each (fun k hk st => ?_) st
  refine H.pre.ite fun _ => H.pre.each (fun x hx st => ?_) st
  dsimp only
  split
  · next ht =>
    have hp := (((h k hk).children (plain_of_type ‹k.type? = _›)) x hx).here
    have hu : x.node.isPhrase .anonymousFunctionUseVariable = true := by
      obtain ⟨ks, e⟩ := phr_of_type ht
      rw [e]; rfl
    have hv : x.node.isVariable = true := by
      obtain ⟨ks, e⟩ := phr_of_type ht
      rw [e]; rfl
    exact H.pre.trans (H.record _ _ _ _ _ (written hp hv)) (H.pre.trans (H.recordBelow _ x.node _ _ hp hu)
      (H.add _ _ (by rfl) (by rfl) (by exact ⟨x.node, hp, hv, rfl, rfl⟩)))
  · exact H.pre.refl st

theorem anonymousHeader (H : ClosedOn c L P C N R Q) {ks : List Item} (h : ∀ k ∈ ks, GoodOn L P C N R σ k) (r : St × List (Bytes × Rng)) :
    R σ r.1 (anonymousHeader c ks r).1 := by
  refine H.pre.fold (fun k hk r => ?_) r
  split
  · exact H.parameterList ((h k hk).children (plain_of_type ‹k.type? = _›)) r
  · exact H.closureUse ((h k hk).children (plain_of_type ‹k.type? = _›)) _
  · exact H.pre.refl _

theorem anonymousHeader_written {ks : List Item} (h : ∀ k ∈ ks, GoodOn L P C N R σ k) {r : St × List (Bytes × Rng)}
    (hr : AllWritten c (P σ) r.2) : AllWritten c (P σ) (Analyser.anonymousHeader c ks r).2 := by
  refine foldWritten (fun k hk r hr => ?_) hr
  split
  · exact parameterList_written ((h k hk).children (plain_of_type ‹k.type? = _›)) r hr
  · exact hr
  · exact hr

theorem foldlBoth {α : Type} {I : St × α → Prop} {T : St → St → Prop} {g : St × α → Item → St × α} {ks : List Item} {r : St × α}
    (hr : I r) (hT : PreOrder T) (h : ∀ k ∈ ks, ∀ r, I r → I (g r k) ∧ T r.1 (g r k).1) : I (ks.foldl g r) ∧ T r.1 (ks.foldl g r).1 := by
  induction ks generalizing r with
  | nil => exact ⟨hr, hT.refl _⟩
  | cons k ks ih =>
    rw [List.foldl_cons]
    obtain ⟨h1, h2⟩ := h k (by simp) r hr
    obtain ⟨h3, h4⟩ := ih h1 fun k hk => h k (by simp [hk])
    exact ⟨h3, hT.trans h2 h4⟩

theorem newAnonymousFunction (H : ClosedOn c L P C N R Q) {n : Item} (h : GoodOn L P C N R σ n)
    (ht : n.type? = some .anonymousFunctionCreationExpression) (st : St) :
    R σ st (newAnonymousFunction c n st) := by
  have key : AllWritten c (P (L.enter σ n.node)) (n.kids.foldl (fun (r : St × List (Bytes × Rng)) k =>
    match k.type? with
    | some .anonymousFunctionHeader =>
      let r := Analyser.anonymousHeader c k.kids r
      (Analyser.recordParameters r.2 (c.range k.node).stop r.1, r.2)
    | some .functionDeclarationBody => (Analyser.scanForChildren k r.1, r.2)
    | _ => r) ((st.pushVars (c.range n.node)).pushBlock ⟨.anonymousFunction, c.range n.node, [], []⟩, [])).2 ∧
    R (L.enter σ n.node) ((st.pushVars (c.range n.node)).pushBlock ⟨.anonymousFunction, c.range n.node, [], []⟩)
    (n.kids.foldl (fun (r : St × List (Bytes × Rng)) k =>
    match k.type? with
    | some .anonymousFunctionHeader =>
      let r := Analyser.anonymousHeader c k.kids r
      (Analyser.recordParameters r.2 (c.range k.node).stop r.1, r.2)
    | some .functionDeclarationBody => (Analyser.scanForChildren k r.1, r.2)
    | _ => r) ((st.pushVars (c.range n.node)).pushBlock ⟨.anonymousFunction, c.range n.node, [], []⟩, [])).1 := by
    have hin := h.inner
    revert hin
    generalize n.kids = ks
    intro hin
    refine foldlBoth (I := fun r => AllWritten c (P (L.enter σ n.node)) r.2) (by simp [AllWritten]) H.pre fun k hk r hr => ?_
    split
    · have hw := anonymousHeader_written (GoodOn.children (hin k hk) (plain_of_type ‹k.type? = _›)) hr
      exact ⟨hw, H.pre.trans (H.anonymousHeader (GoodOn.children (hin k hk) (plain_of_type ‹k.type? = _›)) r) (H.recordParameters hw ..)⟩
    · exact ⟨hr, H.scanForChildren (GoodOn.children (hin k hk) (plain_of_type ‹k.type? = _›)) _⟩
    · exact ⟨hr, H.pre.refl _⟩
  exact H.scope n.node ⟨.anonymousFunction, c.range n.node, [], []⟩ (function_of_type ht) h.here (.inr rfl) rfl
    ⟨n.node, h.here, declares_of_type ht fun _ => rfl, rfl⟩ (H.lift key.2) (H.frame key.2).kept fun e => by cases e

theorem last_cons {α β : Type} (f : α → β) (x : α) (l : List α) (r : β) :
    ((x :: l).getLast?.map f).getD r = (l.getLast?.map f).getD (f x) := by
  cases l with
  | nil => rfl
  | cons y l => rw [List.getLast?_cons_cons]; cases h : (y :: l).getLast? with
    | none => simp at h
    | some z => rfl

theorem propertyName {ks : List Item} (r : Bytes) : (ks.foldl (fun r k =>
    match k.tok? with
    | some t => if t.type = .variableName then c.tokText t else r
    | none => r) r) = (((ks.map Item.node).filterMap varTok).getLast?.map c.tokText).getD r := by
  induction ks generalizing r with
  | nil => rfl
  | cons k ks ih =>
    rw [List.foldl_cons, ih, List.map_cons, List.filterMap_cons]
    cases hn : k.node with
    | tok t =>
      simp only [Item.tok?, hn, varTok]
      by_cases ht : t.type = .variableName
      · rw [if_pos ht, if_pos ht]
        rw [last_cons]
      · rw [if_neg ht, if_neg ht]
    | phr ty ms => simp only [Item.tok?, hn, varTok]
    | err t => simp only [Item.tok?, hn, varTok]

theorem newProperty (H : ClosedOn c L P C N R Q) {n : Item} (h : GoodOn L P C N R σ n) (ht : n.type? = some .propertyElement)
    (st : St) : R σ st (newProperty c n st) := by
  refine H.property ⟨.property, c.range n.node, n.kids.foldl (fun r k =>
    match k.tok? with
    | some t => if t.type = .variableName then c.tokText t else r
    | none => r) [], st.propertyScope⟩ (H.pre.each (fun k hk st => ?_) st) rfl rfl ⟨n.node, h.here, declares_of_type ht fun _ => rfl, rfl⟩ fun _ => ?_
  · exact H.pre.ite fun _ => H.scanForChildren (GoodOn.children ((h.children (plain_of_type ht)) k hk) (plain_of_type ‹k.type? = _›)) st
  · refine ⟨n.node, h.here, declares_of_type ht fun _ => rfl, rfl, _, rfl, ?_⟩
    have he := phr_of_good h ht
    suffices key : Node.calls c _ _ (.phr .propertyElement (n.kids.map Item.node)) by rw [← he] at key; exact key
    intro t htt
    rw [propertyName, htt]
    rfl

theorem newPropertyDeclaration (H : ClosedOn c L P C N R Q) {n : Item} (h : GoodOn L P C N R σ n) (hf : n.node.isFunction = false) (st : St) :
    R σ st (newPropertyDeclaration c n st) :=
  H.pre.each (fun k hk st => H.pre.ite fun hk1 => H.pre.each (fun x hx st => H.pre.ite fun ht =>
    H.newProperty ((GoodOn.children ((h.children hf) k hk) (plain_of_type hk1) x hx)) ht st) st) st

theorem classConstLoop (H : ClosedOn c L P C N R Q) (ks : List Item) (h : ∀ k ∈ ks, GoodOn L P C N R σ k) (e : Bool) (name : Bytes) (st : St) :
    R σ st (classConstLoop c ks e name st).1 := by
  induction ks generalizing e name st with
  | nil => exact H.pre.refl st
  | cons k ks ih =>
    have h' : ∀ k ∈ ks, GoodOn L P C N R σ k := fun k hk => h k (by simp [hk])
    unfold Analyser.classConstLoop
    split
    · exact ih h' _ _ _
    · split
      · split
        · exact H.pre.trans ((h k (by simp)).run st) (ih h' _ _ _)
        · exact ih h' _ _ _
      · exact ih h' _ _ _

theorem classConstName (ks : List Item) (name : Bytes) (st : St) : (Analyser.classConstLoop c ks false name st).2 =
    ((((ks.map Item.node).takeWhile fun k => !k.isEquals).filter fun k => k.isPhrase .identifier).getLast?.map c.nodeText).getD name := by
  have after : ∀ (ks : List Item) name st, (Analyser.classConstLoop c ks true name st).2 = name := by
    intro ks
    induction ks with
    | nil => intro name st; rfl
    | cons k ks ih =>
      intro name st
      unfold Analyser.classConstLoop
      split
      · exact ih _ _
      · split
        · exact ih _ _
        · exact ih _ _
  induction ks generalizing name st with
  | nil => rfl
  | cons k ks ih =>
    unfold Analyser.classConstLoop
    rw [List.map_cons, List.takeWhile_cons]
    cases hn : k.node with
    | tok t =>
      simp only [Item.tok?, hn, Node.isEquals]
      by_cases ht : t.type = .equals
      · simp [ht, after]
      · have e : (false || decide (t.type = TokType.equals)) = false := by simp [ht]
        rw [e, ih]
        simp only [decide_eq_false ht, Bool.not_false, if_true, List.filter_cons]
        rfl
    | err t =>
      simp only [Item.tok?, Item.type?, hn, Node.isEquals]
      rw [ih]
      simp only [Bool.not_false, if_true, List.filter_cons]
      rfl
    | phr ty ms =>
      simp only [Item.tok?, Item.type?, hn, Node.isEquals]
      rw [if_neg (by simp), ih]
      simp only [Bool.not_false, if_true, List.filter_cons]
      by_cases ht : ty = .identifier
      · subst ht
        rw [if_pos rfl, if_pos (show Node.isPhrase .identifier (.phr .identifier ms) = true from rfl), last_cons]
        rfl
      · rw [if_neg ht, if_neg (by simpa [Node.isPhrase] using ht)]
        rfl

theorem newClassConst (H : ClosedOn c L P C N R Q) {n : Item} (h : GoodOn L P C N R σ n) (ht : n.type? = some .classConstElement)
    (st : St) : R σ st (newClassConst c n st) := by
  refine H.classConst ⟨.classConst, c.range n.node, (Analyser.classConstLoop c n.kids false [] st).2, st.lastClassFQN⟩
    (H.classConstLoop n.kids (h.children (plain_of_type ht)) false [] st) rfl rfl ⟨n.node, h.here, declares_of_type ht fun _ => rfl, rfl⟩ fun _ => ?_
  refine ⟨n.node, h.here, declares_of_type ht fun _ => rfl, rfl, _, rfl, ?_⟩
  have he := phr_of_good h ht
  suffices key : Node.calls c _ _ (.phr .classConstElement (n.kids.map Item.node)) by rw [← he] at key; exact key
  intro k hk
  dsimp only
  rw [classConstName, hk]
  rfl

theorem constName {ks : List Item} (r : Types.Ty) : (ks.foldl (fun r k =>
    match k.tok? with
    | some t => if t.type = TokType.name then tyOf (c.tokText t) else r
    | none => r) r) = (((ks.map Item.node).filterMap (spelled c false)).getLast?.map tyOf).getD r := by
  induction ks generalizing r with
  | nil => rfl
  | cons k ks ih =>
    rw [List.foldl_cons, ih, List.map_cons, List.filterMap_cons]
    cases hn : k.node with
    | tok t =>
      simp only [Item.tok?, hn, spelled]
      by_cases ht : t.type = .name
      · rw [if_pos ht, if_pos ht]
        rw [last_cons]
      · rw [if_neg ht, if_neg ht]
    | phr ty ms =>
      have hsp : spelled c false (.phr ty ms) = none := by
        unfold spelled
        split
        · rename_i e; cases e
        · rfl
        · rfl
      simp only [Item.tok?, hn, hsp]
    | err t => simp only [Item.tok?, hn, spelled]

theorem newConst (H : ClosedOn c L P C N R Q) {n : Item} (h : GoodOn L P C N R σ n) (ht : n.type? = some .constElement)
    (st : St) : R σ st (newConst c n st) := by
  refine H.const st _ (by rfl) (by exact ⟨n.node, h.here, declares_of_type ht fun _ => rfl, rfl⟩) fun _ => ?_
  refine ⟨n.node, h.here, declares_of_type ht fun _ => rfl, rfl, _, rfl, ?_⟩
  have he := phr_of_good h ht
  suffices key : Node.calls c _ _ (.phr .constElement (n.kids.map Item.node)) by rw [← he] at key; exact key
  intro raw hraw
  exact congrArg (fun x => (Types.Ty.setNamespace x st.ns).fqn) ((constName (c := c) (ks := n.kids) ⟨[], [], 0⟩).trans (by rw [hraw]; rfl))

theorem newClassConstDeclaration (H : ClosedOn c L P C N R Q) {n : Item} (h : GoodOn L P C N R σ n) (hf : n.node.isFunction = false) (st : St) :
    R σ st (newClassConstDeclaration c n st) :=
  H.pre.each (fun k hk st => H.pre.ite fun hk1 => H.pre.each (fun x hx st => H.pre.ite fun ht =>
    H.newClassConst ((GoodOn.children ((h.children hf) k hk) (plain_of_type hk1) x hx)) ht st) st) st

theorem newConstDeclaration (H : ClosedOn c L P C N R Q) {n : Item} (h : GoodOn L P C N R σ n) (hf : n.node.isFunction = false) (st : St) : R σ st (newConstDeclaration n st) :=
  H.pre.each (fun k hk st => H.pre.ite fun _ => H.scanForChildren (GoodOn.children ((h.children hf) k hk) (plain_of_type ‹k.type? = _›)) st) st

theorem processTraitUse (H : ClosedOn c L P C N R Q) {n : Item} (h : GoodOn L P C N R σ n) (hf : n.node.isFunction = false) (st : St) : R σ st (processTraitUse c n st) :=
  H.pre.each (fun k hk st => H.pre.ite fun hk1 => H.pre.each (fun x hx st => H.pre.ite fun hn =>
    H.add _ _ (by rfl) (by rfl) (by exact ⟨x.node, ((GoodOn.children ((h.children hf) k hk) (plain_of_type hk1) x hx)).here, hn, rfl, rfl⟩)) st) st

theorem processCatchNames (H : ClosedOn c L P C N R Q) {n : Item} (h : GoodOn L P C N R σ n) (hf : n.node.isFunction = false) (st : St) : R σ st (processCatchNames c n st) :=
  H.pre.each (fun k hk st => H.pre.ite fun hn => H.addClassAccess ((h.children hf) k hk) (spells_of_name hn) st) st

theorem newGlobalDeclaration (H : ClosedOn c L P C N R Q) {n : Item} (h : GoodOn L P C N R σ n) (hf : n.node.isFunction = false) (st : St) :
    R σ st (newGlobalDeclaration c n st) :=
  H.pre.each (fun k hk st => H.pre.ite fun hk1 => H.pre.each (fun x hx st => H.pre.ite fun ht =>
    H.pre.trans (H.record _ _ _ _ _ (written ((GoodOn.children ((h.children hf) k hk) (plain_of_type hk1) x hx)).here (variable_of_type ht)))
      (H.add _ _ (by rfl) (by rfl) (by exact ⟨x.node, ((GoodOn.children ((h.children hf) k hk) (plain_of_type hk1) x hx)).here, variable_of_type ht, rfl, rfl⟩))) st) st

theorem newNamespace (H : ClosedOn c L P C N R Q) (hN : N) {n : Item} (h : GoodOn L P C N R σ n) (hf : n.node.isFunction = false) (st : St) : R σ st (newNamespace c n st) := by
  refine H.pre.trans (H.ns hN st []) (H.pre.each (fun k hk st => ?_) _)
  split
  · exact H.ns hN ..
  · exact H.scanForChildren (GoodOn.children ((h.children hf) k hk) (plain_of_type ‹k.type? = _›)) _
  · exact H.pre.refl st

theorem docType (H : ClosedOn c L P C N R Q) {n : Item} (h : GoodOn L P C N R σ n)
    (ht : n.type? = some .typeDeclaration) (st : St) : R σ st (docType c n st) := by
  unfold Analyser.docType
  split
  · exact H.pre.ite fun _ => H.add _ _ (by rfl) (by rfl) (by exact ⟨n.node, h.here, spells_of_type ht fun _ => rfl, rfl, rfl⟩)
  · exact H.pre.refl st

theorem docTypes (H : ClosedOn c L P C N R Q) {k : Item} (h : GoodOn L P C N R σ k) (st : St) : R σ st (docTypes c k st) := by
  unfold Analyser.docTypes
  split
  · next ht => exact H.docType h ht st
  · exact H.pre.each (fun x hx st => H.pre.ite fun ht => H.docType (h.children (plain_of_type ‹k.type? = _›) x hx) ht st) st
  · exact H.pre.refl st

theorem docTagSymbols (H : ClosedOn c L P C N R Q) {n : Item} (h : GoodOn L P C N R σ n) (hf : n.node.isFunction = false) (st : St) : R σ st (docTagSymbols c n st) := by
  unfold Analyser.docTagSymbols
  dsimp only
  split
  · exact H.pre.each (fun k hk => H.docTypes ((h.children hf) k hk)) st
  · split
    · refine H.pre.each (fun k hk st => ?_) st
      split
      · next hk1 => exact H.pre.each (fun x hx st => H.pre.ite fun hx1 =>
          H.pre.each (fun y hy => H.docTypes (((h.children hf k hk).children (plain_of_type hk1) x hx).children (plain_of_type hx1) y hy)) st) st
      · exact H.docTypes ((h.children hf) k hk) st
    · exact H.pre.refl st

theorem plain_of_docTag {k : Item} (h : k.isDocTag = true) : k.node.isFunction = false := by
  unfold Item.isDocTag at h
  split at h
  · next e => exact plain_of_type e
  · cases h

theorem newPhpDoc (H : ClosedOn c L P C N R Q) {n : Item} (h : GoodOn L P C N R σ n) (ht : n.type? = some .documentComment) (st : St) :
    R σ st (newPhpDoc c n st) :=
  H.pre.trans (H.pre.each (fun k hk st => H.pre.ite fun hd => H.docTagSymbols ((h.children (plain_of_type ht)) k hk) (plain_of_docTag hd) st) st) (H.doc _ n h.here ht h.same fun k hk => (h.children (plain_of_type ht) k hk).same)

theorem declare (H : ClosedOn c L P C N R Q) {n : Item} (h : GoodOn L P C N R σ n) (st : St) : R σ st (declare c n st) := by
  unfold Analyser.declare
  split
  · next e => exact H.newInterface (h.cls _ e rfl) h e st
  · next e => exact H.newClass (h.cls _ e rfl) h e st
  · next e => exact H.newClassConstDeclaration h (plain_of_type e) st
  · next e => exact H.newPropertyDeclaration h (plain_of_type e) st
  · next e => exact H.newMethod h e st
  · next e => exact H.processTraitUse h (plain_of_type e) st
  · next e => exact H.newFunction h e st
  · next e => exact H.newConstDeclaration h (plain_of_type e) st
  · next e => exact H.newConst h e st
  · next e => exact H.newArgumentList h e st
  · next e => exact H.newTrait (h.cls _ e rfl) h e st
  · next e => exact H.pre.ite fun _ => H.newDefine h e st
  · next e => exact H.newGlobalDeclaration h (plain_of_type e) st
  · next e => exact H.newAnonymousFunction h e st
  · next e => exact H.newAnonymousClass (h.cls _ e rfl) h e st
  · next e => exact H.newPhpDoc h e st
  · next e => exact H.processCatchNames h (plain_of_type e) st
  · exact H.pre.refl st

theorem scanNode (H : ClosedOn c L P C N R Q) {n : Item} (h : GoodOn L P C N R σ n) (st : St) : R σ st (scanNode c n st) := by
  unfold Analyser.scanNode
  split
  · next ty ks e =>
    split
    · next e' => exact H.newNamespace (h.ns (by simp [Item.type?, e, e'])) h (plain_of_type (ty := .namespaceDefinition) (by simp [Item.type?, e, e'])) st
    · refine H.pre.trans (st' := if isDefine c n.kids then st else (Analyser.scanForExpression c n st).1) ?_ ?_
      · split
        · exact H.pre.refl st
        · exact H.scanForExpression h st
      · dsimp only
        by_cases ht : isTransparent ty = true
        · rw [if_pos ht]; exact H.scanForChildren (h.children (by rw [e]; cases ty <;> first | rfl | cases ht)) _
        · rw [if_neg ht]; exact H.declare h _
  · next t e =>
    exact H.pre.ite fun hd => H.add _ _ (by rfl) (by rfl) (by exact ⟨n.node, h.here, by rw [e]; simpa [Node.spells, symOf] using hd, rfl, rfl⟩)
  · exact H.pre.refl st

theorem ofKids_nodes (c : Ctx) (ks : List Node) : (Item.ofKids c ks).map Item.node = ks := by
  induction ks with
  | nil => simp [Item.ofKids]
  | cons k ks ih =>
    rw [Item.ofKids, List.map_cons, ih]
    congr 1
    cases k <;> simp [Item.of, Item.node]

mutual

theorem good (H : ClosedOn c L P C N R Q) : ∀ (n : Node) (σ : S), (∀ m ∈ placesIn L σ n, P m.1 m.2) →
    (∀ ty ∈ typesIn n, ty.classLike = true → C) → (.namespaceDefinition ∈ typesIn n → N) → GoodOn L P C N R σ (Item.of c n)
  | .tok t, σ, hp, _, _ => by
    have hp' : P σ (.tok t) := hp (σ, _) (by simp [placesIn])
    have h0 : GoodOn L P C N R σ (Item.mk (.tok t) id (fun st => (st, false)) []) :=
      .intro _ _ hp' rfl H.pre.refl H.pre.refl (by simp [Item.type?, Item.node]) (by simp [Item.type?, Item.node]) (by simp [Item.kids])
    exact .intro _ _ (by simpa [Item.of, Item.node] using hp') (by simp [Item.of, Item.kids, Item.node, Node.kids]) (H.scanNode h0)
      H.pre.refl (by simp [Item.of, Item.type?, Item.node])
      (by simp [Item.of, Item.type?, Item.node]) (by simp [Item.of, Item.kids])
  | .err t, σ, hp, _, _ => .intro _ _ (by simpa [Item.of, Item.node] using hp (σ, .err t) (by simp [placesIn]))
      (by simp [Item.of, Item.kids, Item.node, Node.kids]) H.pre.refl H.pre.refl
      (by simp [Item.of, Item.type?, Item.node])
      (by simp [Item.of, Item.type?, Item.node]) (by simp [Item.of, Item.kids])
  | .phr ty kids, σ, hp, h, hn => by
    have hp' : P σ (.phr ty kids) := hp (σ, _) (by simp [placesIn])
    have hk := goods H kids (L.enter σ (.phr ty kids)) (fun m hm => hp m (by rw [placesIn]; exact List.mem_cons_of_mem _ hm))
      (fun ty' hty => h ty' (by rw [typesIn]; exact List.mem_cons_of_mem _ hty))
      fun hty => hn (by rw [typesIn]; exact List.mem_cons_of_mem _ hty)
    have hc : ∀ ty', some ty = some ty' → ty'.classLike = true → C := by
      intro ty' e hc
      cases e
      exact h ty (by rw [typesIn]; simp) hc
    have hn' : some ty = some .namespaceDefinition → N := by
      intro e
      cases e
      exact hn (by rw [typesIn]; simp)
    have h0 : GoodOn L P C N R σ (Item.mk (.phr ty kids) id (fun st => (st, false)) (Item.ofKids c kids)) :=
      .intro _ _ hp' (ofKids_nodes c kids) H.pre.refl H.pre.refl hc hn' hk
    exact .intro _ _ hp' (ofKids_nodes c kids) (H.scanNode h0) (H.scanForExpression h0) hc hn' hk

theorem goods (H : ClosedOn c L P C N R Q) : ∀ (ns : List Node) (σ : S), (∀ m ∈ placesInAll L σ ns, P m.1 m.2) →
    (∀ ty ∈ typesInAll ns, ty.classLike = true → C) →
    (.namespaceDefinition ∈ typesInAll ns → N) → ∀ k ∈ Item.ofKids c ns, GoodOn L P C N R σ k
  | [], _, _, _, _, k, hk => by simp [Item.ofKids] at hk
  | n :: ns, σ, hp, h, hn, k, hk => by
    rw [Item.ofKids] at hk
    rcases List.mem_cons.mp hk with rfl | hk
    · exact good H n σ (fun m hm => hp m (by rw [placesInAll]; exact List.mem_append_left _ hm))
        (fun ty hty => h ty (by rw [typesInAll]; exact List.mem_append_left _ hty))
        fun hty => hn (by rw [typesInAll]; exact List.mem_append_left _ hty)
    · exact goods H ns σ (fun m hm => hp m (by rw [placesInAll]; exact List.mem_append_right _ hm))
        (fun ty hty => h ty (by rw [typesInAll]; exact List.mem_append_right _ hty))
        (fun hty => hn (by rw [typesInAll]; exact List.mem_append_right _ hty)) k hk

end

/-- The relation holds between the empty document and the analysed one. -/
theorem analyse (H : ClosedOn c L P C N R Q) (root : Node) (hp : ∀ m ∈ placesInAll L σ root.kids, P m.1 m.2)
    (h : ∀ ty ∈ typesInAll root.kids, ty.classLike = true → C)
    (hn : .namespaceDefinition ∈ typesInAll root.kids → N) : R σ (St.start c root) (analyse c root) := by
  refine H.scanForChildren (n := Item.of c root) ?_ _
  have hk : (Item.of c root).kids = Item.ofKids c root.kids := by
    cases root <;> simp [Item.of, Item.kids, Node.kids, Item.ofKids]
  rw [hk]
  exact H.goods root.kids σ hp h hn

end ClosedOn

end Verif.Analyser
