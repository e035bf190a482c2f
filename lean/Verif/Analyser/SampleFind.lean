import Verif.Analyser.PropsFind

/-!
C67, C68, C69: examples, and code in which the analysis does not find what is written.
-/

namespace Verif.Analyser
open Verif.Symbols (Tree Var Rec)

/-! ### places in examples -/

/-- The node at a path, with its surroundings. -/
def nodeAt (c : Ctx) (e : Env) : Node → List Nat → Option (Env × Node)
  | n, [] => some (e, n)
  | .phr ty ks, i :: p => if ty.closed then none else (ks[i]?).bind fun k => nodeAt c (e.enter c ty ks) k p
  | _, _ :: _ => none

theorem nodeAt_occurs {c : Ctx} {e e' : Env} {m n : Node} {p : List Nat} (h : nodeAt c e m p = some (e', n)) :
    Occurs c e m e' n := by
  induction p generalizing e m with
  | nil => rw [nodeAt] at h; cases h; exact .here ..
  | cons i p ih =>
    match m with
    | .tok _ => cases h
    | .err _ => cases h
    | .phr ty ks =>
      rw [nodeAt] at h
      split at h
      · cases h
      · next hc =>
        rw [Option.bind_eq_some_iff] at h
        obtain ⟨k, hk, h⟩ := h
        refine .inside ?_ ?_ (List.mem_of_getElem? hk) (ih h)
        · rintro rfl; exact hc rfl
        · rintro rfl; exact hc rfl

/-- The node at a path in a document. -/
def docAt (c : Ctx) (root : Node) : List Nat → Option (Env × Node)
  | [] => none
  | i :: p => (root.kids[i]?).bind fun k =>
    nodeAt c ⟨c.range root, none, (root.kids.take (i + 1)).foldl (nsAfter c) [], none, false⟩ k p

theorem docAt_in {c : Ctx} {root n : Node} {e : Env} {p : List Nat} (h : docAt c root p = some (e, n)) :
    InDocument c root e n := by
  cases p with
  | nil => cases h
  | cons i p =>
    rw [docAt, Option.bind_eq_some_iff] at h
    obtain ⟨k, hk, h⟩ := h
    obtain ⟨hi, rfl⟩ := List.getElem?_eq_some_iff.mp hk
    refine ⟨root.kids.take i, root.kids[i], root.kids.drop (i + 1), ?_, ?_⟩
    · rw [List.getElem_cons_drop, List.take_append_drop]
    · have := nodeAt_occurs h
      rwa [List.take_succ_eq_append_getElem hi] at this

instance (c : Ctx) (u : Bool) (root : Node) : Decidable (SupportedFor c u root) := by unfold SupportedFor; infer_instance

/-! ### a document in which everything is found -/

namespace Src

/-- `function f(...){...}` -/
def funDecl (f : Bytes) (ps : List Src) (body : List Src) : Src :=
  .p .functionDeclaration [
    .p .functionDeclarationHeader [o b!"function", sp, nm f, o b!"(", .p .parameterDeclarationList ps, o b!")"],
    .p .functionDeclarationBody [block body]]
/-- `function(...)use(...){...}` -/
def closure (ps us : List Src) (body : List Src) : Src :=
  .p .anonymousFunctionCreationExpression [
    .p .anonymousFunctionHeader [o b!"function", o b!"(", .p .parameterDeclarationList ps, o b!")",
      .p .anonymousFunctionUseClause [o b!"use", o b!"(", .p .closureUseList us, o b!")"]],
    .p .functionDeclarationBody [block body]]
/-- A variable in `use`. -/
def use (s : Bytes) : Src := .p .anonymousFunctionUseVariable [.t .variableName s]
/-- `public $a=e;` -/
def propDecl (a : Bytes) (e : Src) : Src :=
  .p .propertyDeclaration [o b!"public", sp, .p .propertyElementList [
    .p .propertyElement [.t .variableName a, .p .propertyInitialiser [.t .equals b!"=", e]]], o b!";"]
/-- `const A=e;` in a class -/
def classConst (a : Bytes) (e : Src) : Src :=
  .p .classConstDeclaration [o b!"const", sp, .p .classConstElementList [
    .p .classConstElement [.p .identifier [nm a], .t .equals b!"=", e]], o b!";"]
/-- `const A=e;` -/
def constDecl (a : Bytes) (e : Src) : Src :=
  .p .constDeclaration [o b!"const", sp, .p .constElementList [.p .constElement [nm a, .t .equals b!"=", e]], o b!";"]
/-- `namespace N;` -/
def nspace (a : Bytes) : Src := .p .namespaceDefinition [o b!"namespace", sp, .p .namespaceName [nm a], o b!";"]
/-- A string. -/
def str (s : Bytes) : Src := .t .stringLiteral s
/-- `e1+e2` -/
def plus (l r : Src) : Src := .p (.transparent 3) [l, o b!"+", r]
/-- `a[b]` -/
def sub (l r : Src) : Src := .p (.transparent 4) [l, o b!"[", r, o b!"]"]

end Src

open Src in
/-- A document with definitions in and out of a namespace. -/
def sampleFind : Src := doc [
  stmt (call b!"define" [str b!"'LIMIT'", num b!"9"]),
  nspace b!"N",
  constDecl b!"K" (num b!"1"),
  classDecl b!"A" [
    classConst b!"X" (num b!"2"),
    propDecl b!"$p" (num b!"3"),
    methodDecl b!"m" [param b!"$x"] [
      stmt (assign (var b!"$g") (closure [param b!"$z"] [use b!"$x"] [ret (plus (var b!"$x") (var b!"$z"))])),
      ret (.p .functionCallExpression [var b!"$g", args [sub (var b!"$x") (num b!"0")]])]],
  funDecl b!"f" [param b!"$q"] [ret (method (var b!"$q") b!"m" [num b!"2"])],
  stmt (assign (var b!"$a") (create b!"A" []))]

example : sampleFind.text = b!"<?php\ndefine('LIMIT',9);namespace N;const K=1;class A{const X=2;public $p=3;function m($x){$g = function($z)use($x){return $x+$z;};return $g($x[0]);}}function f($q){return $q->m(2);}$a = new A();" := by
  decide +kernel

/-- The document is among those that are considered. -/
theorem sampleFind_supported : Supported sampleFind.ctx sampleFind.root := by decide +kernel

/-- A node of an example. -/
theorem place_of {c : Ctx} {root : Node} {P : Env → Node → Bool} (p : List Nat)
    (h : ((docAt c root p).any fun x => P x.1 x.2) = true) : ∃ e n, InDocument c root e n ∧ P e n = true := by
  rw [Option.any_eq_true] at h
  obtain ⟨⟨e, n⟩, h1, h2⟩ := h
  exact ⟨e, n, docAt_in h1, h2⟩

/-- A phrase of an example. -/
theorem phrase_of {c : Ctx} {root : Node} {ty : PType} {P : Env → Node → Bool} (p : List Nat)
    (h : ((docAt c root p).any fun x => x.2.isPhrase ty && P x.1 x.2) = true) :
    ∃ e ks, InDocument c root e (.phr ty ks) ∧ P e (.phr ty ks) = true := by
  obtain ⟨e, n, h1, h2⟩ := place_of (P := fun e n => n.isPhrase ty && P e n) p h
  rw [Bool.and_eq_true] at h2
  match n, h2 with
  | .phr ty' ks, h2 =>
    have : ty' = ty := by simpa [Node.isPhrase] using h2.1
    subst this
    exact ⟨e, ks, h1, h2.2⟩

/-- C67: the `$x` in the closure is a variable of the closure. -/
example : ∃ e ks, InDocument sampleFind.ctx sampleFind.root e (.phr .simpleVariable ks) ∧
    (decide (e.scope = ⟨⟨1, 90⟩, ⟨1, 124⟩⟩ ∧ sampleFind.ctx.nodeText (.phr .simpleVariable ks) = b!"$x")) = true :=
  phrase_of (P := fun e n => decide (e.scope = ⟨⟨1, 90⟩, ⟨1, 124⟩⟩ ∧ sampleFind.ctx.nodeText n = b!"$x"))
    [4,1,1,2,1,0,1,0,0,4,1,0,1,0,2,0] (by decide +kernel)

/-- C67: the parameter of `f`. -/
example : ∃ e ks, InDocument sampleFind.ctx sampleFind.root e (.phr .parameterDeclaration ks) ∧
    (ks.any fun k => (varTok k).isSome) = true :=
  phrase_of (P := fun _ n => n.kids.any fun k => (varTok k).isSome) [5,0,4,0] (by decide +kernel)

/-- C67: the variable in `use`. -/
example : ∃ e ks, InDocument sampleFind.ctx sampleFind.root e (.phr .anonymousFunctionUseVariable ks) ∧
    (decide (e.outer = some ⟨⟨1, 70⟩, ⟨1, 143⟩⟩) && ks.any fun k => (varTok k).isSome) = true :=
  phrase_of (P := fun e n => decide (e.outer = some ⟨⟨1, 70⟩, ⟨1, 143⟩⟩) && n.kids.any fun k => (varTok k).isSome)
    [4,1,1,2,1,0,1,0,0,4,0,4,2,0] (by decide +kernel)

/-- C68: a class, a function, a constant and a `define`. -/
example : (∃ e ks, InDocument sampleFind.ctx sampleFind.root e (.phr .classDeclaration ks) ∧
      (decide (e.ns = b!"N" ∧ headName sampleFind.ctx .classDeclarationHeader ks = some b!"A")) = true) ∧
    (∃ e ks, InDocument sampleFind.ctx sampleFind.root e (.phr .functionDeclaration ks) ∧
      (decide (e.ns = b!"N" ∧ headName sampleFind.ctx .functionDeclarationHeader ks = some b!"f")) = true) ∧
    (∃ e ks, InDocument sampleFind.ctx sampleFind.root e (.phr .constElement ks) ∧
      (decide (e.ns = b!"N" ∧ ks.findSome? (nameIn sampleFind.ctx) = some b!"K")) = true) ∧
    (∃ e ks, InDocument sampleFind.ctx sampleFind.root e (.phr .functionCallExpression ks) ∧
      (decide (e.ns = [] ∧ isDefineCall sampleFind.ctx ks = true ∧ firstString sampleFind.ctx ks = some b!"LIMIT")) = true) :=
  ⟨phrase_of (P := fun e n => decide (e.ns = b!"N" ∧ headName sampleFind.ctx .classDeclarationHeader n.kids = some b!"A"))
      [4] (by decide +kernel),
    phrase_of (P := fun e n => decide (e.ns = b!"N" ∧ headName sampleFind.ctx .functionDeclarationHeader n.kids = some b!"f"))
      [5] (by decide +kernel),
    phrase_of (P := fun e n => decide (e.ns = b!"N" ∧ n.kids.findSome? (nameIn sampleFind.ctx) = some b!"K"))
      [3,2,0] (by decide +kernel),
    phrase_of (P := fun e n => decide (e.ns = [] ∧ isDefineCall sampleFind.ctx n.kids = true ∧ firstString sampleFind.ctx n.kids = some b!"LIMIT"))
      [1,0] (by decide +kernel)⟩

/-- C69: the constant, the property and the method of the class. -/
example : ∀ p ∈ [([4,1,1,0,2,0], Kind.classConst, b!"X"), ([4,1,1,1,2,0], .property, b!"$p"), ([4,1,1,2], .method, b!"m")],
    ∃ e n, InDocument sampleFind.ctx sampleFind.root e n ∧
      (decide (memberOf sampleFind.ctx e n = some p.2 ∧ e.cls = some b!"\\N\\A")) = true := by
  intro p hp
  have h : ∀ p ∈ [([4,1,1,0,2,0], Kind.classConst, b!"X"), ([4,1,1,1,2,0], .property, b!"$p"), ([4,1,1,2], .method, b!"m")],
      ((docAt sampleFind.ctx sampleFind.root p.1).any fun x =>
        decide (memberOf sampleFind.ctx x.1 x.2 = some p.2 ∧ x.1.cls = some b!"\\N\\A")) = true := by decide +kernel
  exact place_of (P := fun e n => decide (memberOf sampleFind.ctx e n = some p.2 ∧ e.cls = some b!"\\N\\A")) p.1 (h p hp)

/-! ### C67 is false: variables that are lost -/

/-- The variable at a path is not recorded. -/
def lostAt (s : Src) (p : List Nat) : Bool :=
  (docAt s.ctx s.root p).any fun x => x.2.isPhrase .simpleVariable &&
    !((scopeTree (scopesOf s.ctx s.root)).any fun q => decide (q.1 = x.1.scope) && q.2.any fun r =>
      decide (r.v.name = s.ctx.nodeText x.2 ∧ r.v.range = s.ctx.range x.2))

theorem lost_of {s : Src} (p : List Nat) (h : lostAt s p = true) :
    ∃ e ks, InDocument s.ctx s.root e (.phr .simpleVariable ks) ∧
      ¬ Recorded s.ctx s.root e.scope (s.ctx.nodeText (.phr .simpleVariable ks)) (s.ctx.range (.phr .simpleVariable ks)) := by
  obtain ⟨e, ks, h1, h2⟩ := phrase_of (ty := .simpleVariable)
    (P := fun e n => !((scopeTree (scopesOf s.ctx s.root)).any fun q => decide (q.1 = e.scope) && q.2.any fun r =>
      decide (r.v.name = s.ctx.nodeText n ∧ r.v.range = s.ctx.range n))) p h
  refine ⟨e, ks, h1, ?_⟩
  rintro ⟨recs, hr, x, hx, h3, h4⟩
  simp only [Bool.not_eq_true', List.any_eq_false] at h2
  refine h2 _ hr ?_
  simp only [decide_true, Bool.true_and, List.any_eq_true]
  exact ⟨x, hx, by simp [h3, h4]⟩

open Src in
/-- `$x = 1;$t += $x;` -/
def lostCompound : Src := doc [
  stmt (assign (var b!"$x") (num b!"1")),
  stmt (.p .compoundAssignmentExpression [var b!"$t", sp, o b!"+=", sp, var b!"$x"])]

open Src in
/-- `$x = 1;f($x ?? 2);`: `CoalesceExpression` is no type the analysis mentions. -/
def lostCoalesce : Src := doc [
  stmt (assign (var b!"$x") (num b!"1")),
  stmt (call b!"f" [.p (.opaque 0) [var b!"$x", sp, o b!"??", sp, num b!"2"]])]

open Src in
/-- `$x = f();$x[0]->m();` -/
def lostSubscript : Src := doc [
  stmt (assign (var b!"$x") (call b!"f" [])),
  stmt (method (sub (var b!"$x") (num b!"0")) b!"m" [])]

open Src in
/-- `foreach($a as $k=>$v){$v;}`: `ForeachKey` is no type the analysis mentions. -/
def lostKey : Src := doc [
  .p .foreachStatement [o b!"foreach", par b!"(", .p .foreachCollection [var b!"$a"], sp, o b!"as", sp,
    .p (.opaque 1) [var b!"$k"], o b!"=>", .p .foreachValue [var b!"$v"], par b!")", block [stmt (var b!"$v")]]]

open Src in
/-- `list($a) = f();`: `ListIntrinsic` is no type the analysis mentions. -/
def lostList : Src := doc [
  stmt (assign (.p (.opaque 2) [o b!"list", par b!"(", .p (.opaque 3) [var b!"$a"], par b!")"]) (call b!"f" []))]

open Src in
/-- `$c = 1;$x instanceof $c;` -/
def lostInstance : Src := doc [
  stmt (assign (var b!"$c") (num b!"1")),
  stmt (.p .instanceOfExpression [var b!"$x", sp, .t .instanceOf b!"instanceof", sp,
    .p .instanceofTypeDesignator [var b!"$c"]])]

/-- C67 does not hold for all code: in each of these documents a variable is not recorded (`$t += $x` with spaces,
`$x ?? 2`, `$x[0]->m()`, the key of `foreach`, `list($a)`, `$x instanceof $c`). -/
theorem C67_false_lost : ∀ s ∈ [lostCompound, lostCoalesce, lostSubscript, lostKey, lostList, lostInstance],
    Parsed s.ctx s.root ∧ ∃ e ks, InDocument s.ctx s.root e (.phr .simpleVariable ks) ∧
      ¬ Recorded s.ctx s.root e.scope (s.ctx.nodeText (.phr .simpleVariable ks)) (s.ctx.range (.phr .simpleVariable ks)) := by
  intro s hs
  simp only [List.mem_cons, List.not_mem_nil, or_false] at hs
  rcases hs with rfl | rfl | rfl | rfl | rfl | rfl
  · exact ⟨Src.parsed _ (by decide +kernel), lost_of [2,0,4] (by decide +kernel)⟩
  · exact ⟨Src.parsed _ (by decide +kernel), lost_of [2,0,1,1,0] (by decide +kernel)⟩
  · exact ⟨Src.parsed _ (by decide +kernel), lost_of [2,0,0,0] (by decide +kernel)⟩
  · exact ⟨Src.parsed _ (by decide +kernel), lost_of [1,6,0] (by decide +kernel)⟩
  · exact ⟨Src.parsed _ (by decide +kernel), lost_of [1,0,0,2,0] (by decide +kernel)⟩
  · exact ⟨Src.parsed _ (by decide +kernel), lost_of [2,0,4,0] (by decide +kernel)⟩

/-- C67: so a variable that is used is reported as unused: `$x` in `$x = 1;$t += $x;`, in `$x = 1;f($x ?? 2);`, in
`$x = f();$x[0]->m();`. -/
theorem C67_false_unused : ∀ s ∈ [lostCompound, lostCoalesce, lostSubscript],
    ((Symbols.record (scopesOf s.ctx s.root).info.2).unusedVariables.map (·.name)).contains b!"$x" = true := by
  decide +kernel

open Src in
/-- `$x = 1;$f = function($q)use(&$x){return $x;};` -/
def lostReference : Src := doc [
  stmt (assign (var b!"$x") (num b!"1")),
  stmt (assign (var b!"$f") (closure [param b!"$q"] [.p .anonymousFunctionUseVariable [.t .ampersand b!"&", .t .variableName b!"$x"]]
    [ret (var b!"$x")]))]

/-- C67 does not hold for `use(&$x)`: the variable is recorded as `&$x`, and `$x` is reported as unused. -/
theorem C67_false_reference : Parsed lostReference.ctx lostReference.root ∧
    ((scopeTree (scopesOf lostReference.ctx lostReference.root)).map fun q => q.2.map (·.v.name)) =
      [[b!"$x", b!"$f", b!"&$x"], [b!"&$x", b!"$q", b!"$x"]] ∧
    ((Symbols.record (scopesOf lostReference.ctx lostReference.root).info.2).unusedVariables.map (·.name)).contains b!"$x" = true :=
  ⟨Src.parsed _ (by decide +kernel), by decide +kernel, by decide +kernel⟩

/-! ### C68 is false -/

open Src in
/-- `namespace N;define('X',1);` -/
def wrongDefine : Src := doc [nspace b!"N", stmt (call b!"define" [str b!"'X'", num b!"1"])]

/-- C68 does not hold for `define` in a namespace: PHP's constant is `\X`, the symbol is `\N\X`. -/
theorem C68_false_define : Parsed wrongDefine.ctx wrongDefine.root ∧
    ((flat (symbolsOf wrongDefine.ctx wrongDefine.root)).filter fun s => s.kind = .define).map (·.name) = [b!"\\N\\X"] :=
  ⟨Src.parsed _ (by decide +kernel), by decide +kernel⟩

open Src in
/-- `$a = define('X',1);` -/
def lostDefine : Src := doc [stmt (assign (var b!"$a") (call b!"define" [str b!"'X'", num b!"1"]))]

/-- C68 does not hold for a `define` whose result is used: there is no symbol. -/
theorem C68_false_value : Parsed lostDefine.ctx lostDefine.root ∧
    ((flat (symbolsOf lostDefine.ctx lostDefine.root)).filter fun s => s.kind = .define).map (·.name) = [] :=
  ⟨Src.parsed _ (by decide +kernel), by decide +kernel⟩

open Src in
/-- `namespace N;function object($q){$q;}` -/
def wrongNative : Src := doc [nspace b!"N", funDecl b!"object" [param b!"$q"] [stmt (var b!"$q")]]

/-- C68 does not hold for functions that are called like a type: they are not put into their namespace. -/
theorem C68_false_native : Parsed wrongNative.ctx wrongNative.root ∧
    ((flat (symbolsOf wrongNative.ctx wrongNative.root)).filter fun s => s.kind = .function).map (·.name) = [b!"object"] :=
  ⟨Src.parsed _ (by decide +kernel), by decide +kernel⟩

/-! ### C69 is false -/

open Src in
/-- `class A{function m($q){return new class{};}function n($q){$q;}}` -/
def wrongClass : Src := doc [classDecl b!"A" [
  methodDecl b!"m" [param b!"$q"] [ret (.p .objectCreationExpression [o b!"new", sp,
    .p .anonymousClassDeclaration [.p .anonymousClassDeclarationHeader [o b!"class"],
      .p .classDeclarationBody [o b!"{", o b!"}"]]])],
  methodDecl b!"n" [param b!"$q"] [stmt (var b!"$q")]]]

/-- C69 does not hold for a class in which an anonymous class is made: the method that makes it and all methods after it
are stored as methods of the anonymous class. -/
theorem C69_false_anonymous : Parsed wrongClass.ctx wrongClass.root ∧
    ((flat (symbolsOf wrongClass.ctx wrongClass.root)).filter fun s => s.kind = .class_).map (·.name) = [b!"\\A", b!"\\@"] ∧
    ((flat (symbolsOf wrongClass.ctx wrongClass.root)).filter fun s => s.kind = .method).map (fun s => (s.name, s.scope)) =
      [(b!"m", b!"\\@"), (b!"n", b!"\\@")] :=
  ⟨Src.parsed _ (by decide +kernel), by decide +kernel, by decide +kernel⟩

end Verif.Analyser
