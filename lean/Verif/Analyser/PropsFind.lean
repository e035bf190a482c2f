import Verif.Analyser.FindAll
import Verif.Analyser.Sample

/-!
C67, C68, C69: the analysis finds the variables, the declarations and the members that are written in a document.
-/

namespace Verif.Analyser
open Verif.Symbols (Tree Var Rec)

/-! ### specification -/

/-- Inside the node `m`, which is in the surroundings `e`, there is the node `n`, in the surroundings `e'`. Comments and
names of static members are not entered. -/
inductive Occurs (c : Ctx) : Env → Node → Env → Node → Prop
  | here (e : Env) (n : Node) : Occurs c e n e n
  | inside {e e' : Env} {ty : PType} {ks : List Node} {k n : Node} :
      ty ≠ .documentComment → ty ≠ .scopedMemberName → k ∈ ks → Occurs c (e.enter c ty ks) k e' n → Occurs c e (.phr ty ks) e' n

/-- In the document there is the node `n`, in the surroundings `e`: a statement of the document is in the scope of the
whole document and in the namespace that was declared last. -/
def InDocument (c : Ctx) (root : Node) (e : Env) (n : Node) : Prop :=
  ∃ before k after, root.kids = before ++ k :: after ∧
    Occurs c ⟨c.range root, none, (before ++ [k]).foldl (nsAfter c) [], none, false⟩ k e n

/-- A variable is recorded in the table of the function that has that range (or of the document). -/
def Recorded (c : Ctx) (root : Node) (function : Rng) (name : Bytes) (range : Rng) : Prop :=
  ∃ recs, (function, recs) ∈ scopeTree (scopesOf c root) ∧ ∃ x ∈ recs, x.v.name = name ∧ x.v.range = range

/-- A symbol of the document. -/
def IsSymbol (c : Ctx) (root : Node) (s : Sym) : Prop := s ∈ flat (symbolsOf c root)

/-- Declarations with a header: where the name is, and the sort of symbol. -/
def headed : PType → Option (PType × Kind)
  | .classDeclaration => some (.classDeclarationHeader, .class_)
  | .interfaceDeclaration => some (.interfaceDeclarationHeader, .interface_)
  | .traitDeclaration => some (.traitDeclarationHeader, .trait_)
  | .functionDeclaration => some (.functionDeclarationHeader, .function)
  | _ => none

/-- Members of classes, the sort of symbol and the name. Interfaces have no properties. -/
def memberOf (c : Ctx) (e : Env) : Node → Option (Kind × Bytes)
  | .phr .methodDeclaration ks => (headName c .methodDeclarationHeader ks).map fun s => (.method, s)
  | .phr .propertyElement ks => if e.isInterface then none else (ks.findSome? varTok).map fun t => (.property, c.tokText t)
  | .phr .classConstElement ks => (ks.findSome? (nameIn c)).map fun s => (.classConst, s)
  | _ => none

/-! ### from places to facts -/

variable {c : Ctx} {u : Bool} {root : Node} {e : Env}

theorem closed_false {ty : PType} (h : ty ≠ .documentComment) (h' : ty ≠ .scopedMemberName) : ty.closed = false := by
  cases ty <;> simp_all [PType.closed]

theorem Occurs.facts {e e' : Env} {m n : Node} (h : Occurs c e m e' n) {x : Fact} (hx : x ∈ facts c u e' n) :
    x ∈ facts c u e m := by
  induction h with
  | here => exact hx
  | inside h1 h2 hk _ ih =>
    rw [Analyser.facts, closed_false h1 h2, List.mem_append]
    exact .inr (mem_factsOf.mpr ⟨_, hk, ih hx⟩)

theorem mem_factsFrom {r : Rng} {ns : Bytes} {before after : List Node} {k : Node} {x : Fact}
    (hx : x ∈ facts c u ⟨r, none, (before ++ [k]).foldl (nsAfter c) ns, none, false⟩ k) :
    x ∈ factsFrom c u r ns (before ++ k :: after) := by
  induction before generalizing ns with
  | nil => rw [List.nil_append, factsFrom, List.mem_append]; exact .inl hx
  | cons b before ih => rw [List.cons_append, factsFrom, List.mem_append]; exact .inr (ih hx)

theorem InDocument.found {ty : PType} {ks : List Node} (h : InDocument c root e (.phr ty ks)) (hs : SupportedFor c u root)
    {x : Fact} (hx : x ∈ own c u e ty ks) : Found (flat (symbolsOf c root)) (scopeTree (scopesOf c root)) x := by
  obtain ⟨before, k, after, hk, ho⟩ := h
  refine find_all root hs ?_
  rw [factsIn, hk]
  refine mem_factsFrom (ho.facts ?_)
  rw [facts, List.mem_append]
  exact .inl hx

/-! ### C67 -/

/-- C67: a variable is recorded, with its name and its place, in the table of the innermost function around it. For the
code that is considered (`Supported`); see the negations below. -/
theorem C67_variable_partial {ks : List Node} (hs : Supported c root) (h : InDocument c root e (.phr .simpleVariable ks)) :
    Recorded c root e.scope (c.nodeText (.phr .simpleVariable ks)) (c.range (.phr .simpleVariable ks)) :=
  h.found hs (x := .var e.scope _ _) (by simp [own])

/-- C67: a parameter is recorded in the table of its function. -/
theorem C67_parameter_partial {ks : List Node} {t : Tok} (hs : Supported c root)
    (h : InDocument c root e (.phr .parameterDeclaration ks)) (ht : .tok t ∈ ks) (hv : t.type = .variableName) :
    Recorded c root e.scope (c.tokText t) (c.range (.tok t)) :=
  h.found hs (x := .var e.scope _ _) (by
    simp only [own, Bool.false_eq_true, if_false, List.nil_append, List.mem_map, List.mem_filterMap]
    exact ⟨t, ⟨.tok t, ht, by simp [varTok, hv]⟩, rfl⟩)

/-- C67: a variable in the `use` of a closure is recorded in the table of the closure and in that of the function around
it. -/
theorem C67_use_partial {ks : List Node} {t : Tok} {outer : Rng} (hs : Supported c root)
    (h : InDocument c root e (.phr .anonymousFunctionUseVariable ks)) (ht : .tok t ∈ ks) (hv : t.type = .variableName)
    (ho : e.outer = some outer) :
    Recorded c root e.scope (c.tokText t) (c.range (.tok t)) ∧ Recorded c root outer (c.tokText t) (c.range (.tok t)) := by
  have key : ∀ r, r = e.scope ∨ r = outer → Recorded c root r (c.tokText t) (c.range (.tok t)) := fun r hr =>
    h.found hs (x := .var r _ _) (by
      simp only [own, Bool.false_eq_true, if_false, List.nil_append, List.mem_flatMap, List.mem_filterMap]
      exact ⟨t, ⟨.tok t, ht, by simp [varTok, hv]⟩, List.mem_map.mpr ⟨r, by rcases hr with rfl | rfl <;> simp [ho], rfl⟩⟩)
  exact ⟨key _ (.inl rfl), key _ (.inr rfl)⟩

/-! ### C68 -/

/-- C68: a class, interface, trait or function is a symbol under its full name. -/
theorem C68_declaration_partial {ty header : PType} {kind : Kind} {ks : List Node} {name : Bytes} (hs : Supported c root)
    (h : InDocument c root e (.phr ty ks)) (hd : headed ty = some (header, kind)) (hn : headName c header ks = some name) :
    IsSymbol c root ⟨kind, c.range (.phr ty ks), fullName e.ns name, []⟩ := by
  refine h.found hs (x := .sym _) ?_
  unfold headed at hd
  split at hd <;> cases hd <;> simp [own, declares, hn]

/-- C68: an anonymous class is a symbol under the name it was given. -/
theorem C68_anonymous_partial {ks : List Node} (hs : Supported c root)
    (h : InDocument c root e (.phr .anonymousClassDeclaration ks)) :
    IsSymbol c root ⟨.class_, c.range (.phr .anonymousClassDeclaration ks),
      fullName e.ns (c.anonName (c.range (.phr .anonymousClassDeclaration ks)).start), []⟩ :=
  h.found hs (x := .sym _) (by simp [own, declares])

/-- C68: a constant is a symbol under its full name. -/
theorem C68_const_partial {ks : List Node} {name : Bytes} (hs : Supported c root)
    (h : InDocument c root e (.phr .constElement ks)) (hn : ks.findSome? (nameIn c) = some name) :
    IsSymbol c root ⟨.const_, c.range (.phr .constElement ks), fullName e.ns name, []⟩ :=
  h.found hs (x := .sym _) (by simp [own, declares, hn])

/-- C68: outside of namespaces, a constant of `define` is a symbol under its name. -/
theorem C68_define_partial {ks : List Node} {name : Bytes} (hs : Supported c root)
    (h : InDocument c root e (.phr .functionCallExpression ks)) (hd : isDefineCall c ks = true) (he : e.ns = [])
    (hn : firstString c ks = some name) :
    IsSymbol c root ⟨.define, c.range (.phr .functionCallExpression ks), 92 :: name, []⟩ :=
  h.found hs (x := .sym _) (by simp [own, declares, hn, hd, he, fullName])

/-! ### C69 -/

/-- C69: a method, property or constant of a class is a symbol with its name and place. -/
theorem C69_found_partial {n : Node} {kind : Kind} {name : Bytes} (hs : Supported c root)
    (h : InDocument c root e n) (hm : memberOf c e n = some (kind, name)) :
    ∃ s, IsSymbol c root s ∧ s.kind = kind ∧ s.range = c.range n ∧ s.name = name := by
  unfold memberOf at hm
  split at hm
  · cases hh : headName c .methodDeclarationHeader ‹_› <;> rw [hh] at hm <;> cases hm
    exact h.found hs (x := .member _ _ _) (by simp [own, declaresMember, hh])
  · split at hm
    · cases hm
    · cases hh : List.findSome? varTok ‹_› <;> rw [hh] at hm <;> cases hm
      exact h.found hs (x := .member _ _ _) (by simp_all [own, declaresMember])
  · cases hh : List.findSome? (nameIn c) ‹_› <;> rw [hh] at hm <;> cases hm
    exact h.found hs (x := .member _ _ _) (by simp [own, declaresMember, hh])
  · cases hm

/-- C69: it is stored under the full name of the class, interface or trait it is written in, if there is no other class
inside that one. -/
theorem C69_class_partial {n : Node} {kind : Kind} {name cls : Bytes} (hs : Supported c root)
    (h : InDocument c root e n) (hm : memberOf c e n = some (kind, name)) (hc : e.cls = some cls) :
    IsSymbol c root ⟨kind, c.range n, name, cls⟩ := by
  unfold memberOf at hm
  split at hm
  · cases hh : headName c .methodDeclarationHeader ‹_› <;> rw [hh] at hm <;> cases hm
    exact h.found hs (x := .sym _) (by simp [own, declaresMember, hh, hc])
  · split at hm
    · cases hm
    · cases hh : List.findSome? varTok ‹_› <;> rw [hh] at hm <;> cases hm
      exact h.found hs (x := .sym _) (by simp_all [own, declaresMember])
  · cases hh : List.findSome? (nameIn c) ‹_› <;> rw [hh] at hm <;> cases hm
    exact h.found hs (x := .sym _) (by simp [own, declaresMember, hh, hc])
  · cases hm

end Verif.Analyser
