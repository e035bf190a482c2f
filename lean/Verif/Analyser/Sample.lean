import Verif.Analyser.PropsOrder

/-!
Documents written down together with their syntax trees, for examples: the text is made of the texts of the tokens.
-/

namespace Verif.Analyser
open Verif.Symbols (symAt)

/-- A syntax tree with the texts of its tokens. -/
inductive Src where
  | t (type : TokType) (text : Bytes)
  | p (type : PType) (kids : List Src)

mutual

/-- The text. -/
def Src.text : Src → Bytes
  | .t _ s => s
  | .p _ kids => Src.textOf kids

/-- The text of some trees. -/
def Src.textOf : List Src → Bytes
  | [] => []
  | k :: ks => k.text ++ Src.textOf ks

end

mutual

/-- The syntax tree, from the offset `o` on. -/
def Src.node (o : Nat) : Src → Node
  | .t ty s => .tok ⟨ty, o, s.length⟩
  | .p ty kids => .phr ty (Src.nodes o kids)

/-- Some syntax trees. -/
def Src.nodes (o : Nat) : List Src → List Node
  | [] => []
  | k :: ks => k.node o :: Src.nodes (o + k.text.length) ks

end

/-- The document: spaces and parentheses are ignored in arguments, anonymous classes are called `@`. -/
def Src.ctx (s : Src) : Ctx := Ctx.ofText s.text (fun t => t == .whitespace || t == .other 2) (fun _ => b!"@")

/-- The whole tree. -/
def Src.root (s : Src) : Node := s.node 0

mutual

theorem Src.chain : ∀ (s : Src) (o : Nat) (b : Nat) (rest : List Tok), Chain (o + s.text.length) b rest →
    Chain o b (toks (s.node o) ++ rest)
  | .t ty s, o, b, rest, h => ⟨Nat.le_refl _, h⟩
  | .p ty kids, o, b, rest, h => by
    rw [Src.node, toks]
    rw [Src.text] at h
    exact Src.chains kids o b rest h

theorem Src.chains : ∀ (ks : List Src) (o : Nat) (b : Nat) (rest : List Tok), Chain (o + (Src.textOf ks).length) b rest →
    Chain o b (toksOf (Src.nodes o ks) ++ rest)
  | [], o, b, rest, h => by simpa [Src.nodes, toksOf, Src.textOf] using h
  | k :: ks, o, b, rest, h => by
    rw [Src.nodes, toksOf, List.append_assoc]
    refine Src.chain k o b _ (Src.chains ks _ b rest ?_)
    rw [Src.textOf, List.length_append] at h
    rwa [Nat.add_assoc]

end

instance decRegular (ty : PType) (kids : List Node) : Decidable (Regular ty kids) :=
  decidable_of_iff
    (kids ≠ [] ∧
      ((ty = .scopedPropertyAccessExpression ∨ ty = .scopedCallExpression ∨ ty = .classConstantAccessExpression ∨
        ty = .errorScopedAccessExpression) → 3 ≤ kids.length) ∧
      (ty = .propertyAccessExpression → hasMember (kids.drop 1) = true) ∧
      (ty = .methodCallExpression → hasMember (kids.drop 2) = true) ∧
      (ty = .memberName → ∀ k ∈ kids.tail, k.isPhrase .simpleVariable = false) ∧
      ((ty = .encapsulatedExpression ∨ ty = .cloneExpression) → (kids.filter Node.active).length ≤ 1) ∧
      ((ty = .simpleAssignmentExpression ∨ ty = .byRefAssignmentExpression ∨ ty = .compoundAssignmentExpression) →
        ((kids.head?.any fun k => k.isPhrase .propertyAccessExpression) = true) → ∀ k ∈ kids.tail, k.noValue = false) ∧
      ((ty = .simpleVariable ∨ ty = .anonymousFunctionUseVariable ∨ ty = .parameterDeclaration) →
        ∀ t ∈ toksOf kids, 0 < t.length))
    ⟨fun ⟨h1, h2, h3, h4, h5, h6, h7, h8⟩ => ⟨h1, h2, h3, h4, h5, h6,
        fun ht ⟨k, hk, hp⟩ => h7 ht (by rw [Option.any_eq_true]; exact ⟨k, hk, hp⟩), h8⟩,
      fun ⟨h1, h2, h3, h4, h5, h6, h7, h8⟩ => ⟨h1, h2, h3, h4, h5, h6,
        fun ht hp => h7 ht (by rw [Option.any_eq_true] at hp; obtain ⟨k, hk, hp⟩ := hp; exact ⟨k, hk, hp⟩), h8⟩⟩

mutual

instance decWF (c : Ctx) : (n : Node) → Decidable (WF c n)
  | .tok t => decidable_of_iff (t.type = .stringLiteral → 2 ≤ (c.tokText t).length) (by rw [WF])
  | .err t => .isTrue (by rw [WF]; trivial)
  | .phr ty kids =>
    have := decWFs c kids
    decidable_of_iff (Regular ty kids ∧ WFs c kids) (by rw [WF])

instance decWFs (c : Ctx) : (ns : List Node) → Decidable (WFs c ns)
  | [] => .isTrue (by rw [WFs]; trivial)
  | k :: ks =>
    have := decWF c k
    have := decWFs c ks
    decidable_of_iff (WF c k ∧ WFs c ks) (by rw [WFs])

end

/-- A text that the tokens of a regular tree cover is `Parsed`. -/
theorem Src.parsed (s : Src) (h : WF s.ctx s.root) : Parsed s.ctx s.root :=
  ⟨⟨0, s.text.length, by
    have := Src.chain s 0 s.text.length [] (by simp [Chain])
    rwa [List.append_nil] at this⟩, h, ofText_increasing _ _ _⟩

/-! ### shorthands -/

namespace Src

/-- A token the analysis does not mention. -/
def o (s : Bytes) : Src := .t (.other 0) s
/-- A parenthesis. -/
def par (s : Bytes) : Src := .t (.other 2) s
/-- A space. -/
def sp : Src := .t .whitespace b!" "
/-- A name. -/
def nm (s : Bytes) : Src := .t .name s
/-- A variable. -/
def var (s : Bytes) : Src := .p .simpleVariable [.t .variableName s]
/-- A qualified name. -/
def qn (s : Bytes) : Src := .p .qualifiedName [.p .namespaceName [nm s]]
/-- A statement made of an expression. -/
def stmt (e : Src) : Src := .p (.transparent 0) [e, o b!";"]
/-- An assignment. -/
def assign (l r : Src) : Src := .p .simpleAssignmentExpression [l, sp, .t .equals b!"=", sp, r]
/-- Arguments, separated by commas. -/
def args (ks : List Src) : Src := .p .argumentExpressionList ([par b!"("] ++ ks.intersperse (.t .comma b!",") ++ [par b!")"])
/-- A call of a method. -/
def method (e : Src) (m : Bytes) (as : List Src) : Src :=
  .p .methodCallExpression [e, .t .arrow b!"->", .p .memberName [nm m], args as]
/-- A call of a function. -/
def call (f : Bytes) (as : List Src) : Src := .p .functionCallExpression [qn f, args as]
/-- A number. -/
def num (s : Bytes) : Src := .t (.other 1) s
/-- A block of statements. -/
def block (ks : List Src) : Src := .p .compoundStatement ([o b!"{"] ++ [.p .statementList ks] ++ [o b!"}"])
/-- A parameter. -/
def param (s : Bytes) : Src := .p .parameterDeclaration [.t .variableName s]
/-- A method declaration. -/
def methodDecl (m : Bytes) (ps : List Src) (body : List Src) : Src :=
  .p .methodDeclaration [
    .p .methodDeclarationHeader [o b!"function", sp, .p .identifier [nm m], o b!"(", .p .parameterDeclarationList ps, o b!")"],
    .p .methodDeclarationBody [block body]]
/-- A class declaration. -/
def classDecl (a : Bytes) (members : List Src) : Src :=
  .p .classDeclaration [.p .classDeclarationHeader [o b!"class", sp, nm a],
    .p .classDeclarationBody [o b!"{", .p (.transparent 1) members, o b!"}"]]
/-- `new A(...)`. -/
def create (a : Bytes) (as : List Src) : Src :=
  .p .objectCreationExpression [o b!"new", sp, .p .classTypeDesignator [qn a], args as]
/-- `return e;`. -/
def ret (e : Src) : Src := .p (.transparent 2) [o b!"return", sp, e, o b!";"]
/-- A document. -/
def doc (ks : List Src) : Src := .p .statementList (o (b!"<?php" ++ [10]) :: ks)

end Src

open Src in
/-- `class A{function m($x){$y = $x;return $y->n(1,$x);}}$a = new A();$a->m(2);` -/
def sample : Src := doc [
  classDecl b!"A" [methodDecl b!"m" [param b!"$x"] [
    stmt (assign (var b!"$y") (var b!"$x")),
    ret (method (var b!"$y") b!"n" [num b!"1", var b!"$x"])]],
  stmt (assign (var b!"$a") (create b!"A" [])),
  stmt (method (var b!"$a") b!"m" [num b!"2"])]

example : sample.text = b!"<?php\nclass A{function m($x){$y = $x;return $y->n(1,$x);}}$a = new A();$a->m(2);" := by decide +kernel

theorem sample_parsed : Parsed sample.ctx sample.root := Src.parsed _ (by decide +kernel)

/-- C70: the symbols of the sample and where they begin. -/
example : (flat (symbolsOf sample.ctx sample.root)).map (fun s => (s.kind, s.range.start.character, s.range.stop.character, s.name))
    = [(.class_, 0, 52, b!"\\A"), (.method, 8, 51, b!"m"), (.variable, 23, 25, b!"$y"), (.variable, 28, 30, b!"$x"),
       (.variable, 38, 40, b!"$y"), (.methodAccess, 42, 43, b!"n"), (.argumentList, 43, 49, b!"(1,$x)"),
       (.variable, 46, 48, b!"$x"), (.variable, 52, 54, b!"$a"), (.designator, 61, 62, b!""),
       (.argumentList, 62, 64, b!"()"), (.variable, 65, 67, b!"$a"), (.methodAccess, 69, 70, b!"m"),
       (.argumentList, 70, 73, b!"(2)")] := by decide +kernel

/-- C63, C64, C65, C66, C45: the lookups in the sample. -/
example : (Symbols.hasTypesAtPos (infosOf sample.ctx sample.root) ⟨1, 39⟩).map (·.info.tag) = some b!"$y" ∧
    (Symbols.classAt (infosOf sample.ctx sample.root) ⟨1, 39⟩).map (·.info.tag) = some b!"\\A" ∧
    (Symbols.hasTypesBeforePos (infosOf sample.ctx sample.root) ⟨1, 41⟩).map (·.info.tag) = some b!"$y" ∧
    (Symbols.argumentListAndFunctionCallAt (infosOf sample.ctx sample.root) ⟨1, 45⟩).2.map (·.info.tag) = some b!"n" ∧
    (Symbols.findScope ⟨1, 39⟩ (rangeTree (scopesOf sample.ctx sample.root))).info = ⟨⟨1, 8⟩, ⟨1, 51⟩⟩ ∧
    ∀ p, ¬ Symbols.OfAnonymousClass (infosOf sample.ctx sample.root) p := by
  refine ⟨by decide +kernel, by decide +kernel, by decide +kernel, by decide +kernel, by decide +kernel, ?_⟩
  rintro p ⟨sp, d, c, a, h, ha, hc, _⟩
  have hv : p ∈ Symbols.pathsFrom [] 0 (infosOf sample.ctx sample.root) := by
    rw [Symbols.mem_paths, ← Symbols.symAt_isSome]
    exact ⟨a, by simp [Symbols.symAt, h]⟩
  have hall : ∀ p ∈ Symbols.pathsFrom [] 0 (infosOf sample.ctx sample.root),
      ∀ l ∈ Symbols.spineAt (infosOf sample.ctx sample.root) p,
        (l.reverse.drop 1).head?.all (fun t => t.info.kind ≠ .class_) = true ∨ (l.getLast?.all fun t => t.info.kind ≠ .args) = true := by
    decide +kernel
  rcases hall p hv _ h with h1 | h1
  · simp [hc] at h1
  · simp [ha] at h1

/-- C45: the variables of the method, none of which is unused. -/
example : ∃ x, Symbols.Within (scopesOf sample.ctx sample.root) x ∧ x.2.map (·.v.name) = [b!"$x", b!"$x", b!"$y", b!"$y", b!"$x"] ∧
    (Symbols.record x.2).unusedVariables = [] := by
  obtain ⟨t, ht⟩ : ∃ t, (scopesOf sample.ctx sample.root).kids[0]? = some t :=
    Option.isSome_iff_exists.mp (by decide +kernel)
  have hall : ∀ t ∈ (scopesOf sample.ctx sample.root).kids[0]?, t.info.2.map (·.v.name) = [b!"$x", b!"$x", b!"$y", b!"$y", b!"$x"] ∧
    (Symbols.record t.info.2).unusedVariables = [] := by decide +kernel
  refine ⟨t.info, ?_, hall t ht⟩
  have hm := List.mem_of_getElem? ht
  generalize scopesOf sample.ctx sample.root = s at hm
  obtain ⟨a, kids⟩ := s
  obtain ⟨b, kids'⟩ := t
  exact .kid hm (.root _ _)

open Src in
/-- `class A{const X=B::Y;}` -/
def sampleConst : Src := doc [
  classDecl b!"A" [.p .classConstDeclaration [o b!"const", sp, .p .classConstElementList [
    .p .classConstElement [.p .identifier [nm b!"X"], .t .equals b!"=",
      .p .classConstantAccessExpression [qn b!"B", o b!"::", .p .identifier [nm b!"Y"]]]], o b!";"]]]

/-- C70 does not hold for constants of classes: in `class A{const X=B::Y;}` the constant `X` stands behind `B` and `Y` in
the tree of symbols although it begins before them. -/
theorem C70_false_order : ∃ p q s t, Parsed sampleConst.ctx sampleConst.root ∧
    symAt (symbolsOf sampleConst.ctx sampleConst.root) p = some s ∧
    symAt (symbolsOf sampleConst.ctx sampleConst.root) q = some t ∧ List.Lex (· < ·) p q ∧
    s.info.kind = .classAccess ∧ t.info.kind = .classConst ∧ Position.Before t.info.range.start s.info.range.start := by
  obtain ⟨s, hs⟩ : ∃ s, symAt (symbolsOf sampleConst.ctx sampleConst.root) [0, 0] = some s :=
    Option.isSome_iff_exists.mp (by decide +kernel)
  obtain ⟨t, ht⟩ : ∃ t, symAt (symbolsOf sampleConst.ctx sampleConst.root) [0, 2] = some t :=
    Option.isSome_iff_exists.mp (by decide +kernel)
  have h1 : ∀ s ∈ symAt (symbolsOf sampleConst.ctx sampleConst.root) [0, 0],
      s.info.kind = .classAccess ∧ s.info.range.start = ⟨1, 16⟩ := by decide +kernel
  have h2 : ∀ s ∈ symAt (symbolsOf sampleConst.ctx sampleConst.root) [0, 2],
      s.info.kind = .classConst ∧ s.info.range.start = ⟨1, 14⟩ := by decide +kernel
  refine ⟨_, _, s, t, Src.parsed _ (by decide +kernel), hs, ht, by decide, (h1 s hs).1, (h2 t ht).1, ?_⟩
  rw [(h1 s hs).2, (h2 t ht).2]
  right; decide

end Verif.Analyser
