import Verif.Analyser.PropsSound
import Verif.Analyser.SampleFind

/-!
C145: the analysis finds the calls of functions, the accesses of members and the names of classes that are written in a
document.
-/

namespace Verif.Analyser
open Verif.Symbols (Tree Var Rec)

/-! ### specification -/

/-- The member name `m` is the one name `t`, and not a variable: `foo` and not `$foo` or `{$foo}`. -/
def OneName (m : Node) (t : Tok) : Prop := ∃ ms, m = .phr .memberName ms ∧ ms.filter Node.namesMember = [.tok t]

/-- The node is a call or an access of that sort, and the name in it has that place and that text. -/
inductive Writes (c : Ctx) : Node → Kind → Rng → Bytes → Prop
  /-- `f(...)`; a call of `define` is a declaration. -/
  | call {f : Node} {rest : List Node} : isDefineCall c (f :: rest) = false →
      Writes c (.phr .functionCallExpression (f :: rest)) .functionCall (c.range f) (c.nodeText f)
  /-- `$x->m(...)` -/
  | method {object next m : Node} {gap rest : List Node} {t : Tok} : (∀ k ∈ gap, k.isArrowOrSpace = true) → OneName m t →
      Writes c (.phr .methodCallExpression (object :: next :: gap ++ m :: rest)) .methodAccess (c.range m) (c.tokText t)
  /-- `$x->p` -/
  | property {object m : Node} {gap rest : List Node} {t : Tok} : (∀ k ∈ gap, k.isArrowOrSpace = true) → OneName m t →
      Writes c (.phr .propertyAccessExpression (object :: gap ++ m :: rest)) .propertyAccess (c.range m) (c.tokText t)
  /-- `A::m(...)` -/
  | scopedMethod {cls colons m : Node} {rest : List Node} : m.isPhrase .scopedMemberName = true →
      Writes c (.phr .scopedCallExpression (cls :: colons :: m :: rest)) .scopedMethodAccess (c.range m) (c.nodeText m)
  /-- `A::$p` -/
  | scopedProperty {cls colons m : Node} {rest : List Node} : m.isPhrase .scopedMemberName = true →
      Writes c (.phr .scopedPropertyAccessExpression (cls :: colons :: m :: rest)) .scopedPropertyAccess (c.range m) (c.nodeText m)
  /-- `A::K` -/
  | scopedConstant {cls colons m : Node} {rest : List Node} : m.isPhrase .scopedMemberName = true →
      Writes c (.phr .classConstantAccessExpression (cls :: colons :: m :: rest)) .scopedConstantAccess (c.range m) (c.nodeText m)
  /-- the `A` in `A::m(...)`, `A::$p`, `A::K` -/
  | scope {ty : PType} {cls : Node} {rest : List Node} :
      ty = .scopedCallExpression ∨ ty = .scopedPropertyAccessExpression ∨ ty = .classConstantAccessExpression → cls.isPhr = true →
      Writes c (.phr ty (cls :: rest)) .classAccess (c.range cls) (c.nodeText cls)
  /-- the `A` in `new A(...)`; the symbol has no name of its own -/
  | new {ks : List Node} {d : Node} : d ∈ ks → d.isPhrase .classTypeDesignator = true →
      Writes c (.phr .objectCreationExpression ks) .designator (c.range d) []
  /-- the `A` in `$x instanceof A` -/
  | instanceOf {pre post : List Node} {k : Node} : (∀ k' ∈ pre, k'.isName = false) → k.isName = true →
      Writes c (.phr .instanceofTypeDesignator (pre ++ k :: post)) .classAccess (c.range k) (c.nodeText k)
  /-- each of the names in `catch (A | B $e)` -/
  | caught {ks : List Node} {k : Node} : k ∈ ks → k.isName = true →
      Writes c (.phr .catchNameList ks) .classAccess (c.range k) (c.nodeText k)
  /-- the type before a parameter -/
  | paramType {ks : List Node} {k : Node} : k ∈ ks → k.isPhrase .typeDeclaration = true →
      Writes c (.phr .parameterDeclaration ks) .typeDeclaration (c.range k) (c.nodeText k)
  /-- each of the names in `use T, U;` in a class -/
  | traitUse {ks ms : List Node} {k : Node} : .phr .qualifiedNameList ms ∈ ks → k ∈ ms → k.isName = true →
      Writes c (.phr .traitUseClause ks) .traitAccess (c.range k) (c.nodeText k)
  /-- the name after `extends` in the header of a class -/
  | extends_ {ty : PType} {ks pre post : List Node} {k : Node} :
      ty = .classDeclarationHeader ∨ ty = .anonymousClassDeclarationHeader →
      .phr .classBaseClause (pre ++ k :: post) ∈ ks → k.isName = true → (∀ k' ∈ post, k'.isName = false) →
      Writes c (.phr ty ks) .classAccess (c.range k) (c.nodeText k)
  /-- each of the names after `implements` in the header of a class -/
  | implements_ {ty : PType} {ks pre post ms : List Node} {k : Node} :
      ty = .classDeclarationHeader ∨ ty = .anonymousClassDeclarationHeader →
      .phr .classInterfaceClause (pre ++ .phr .qualifiedNameList ms :: post) ∈ ks →
      (∀ k' ∈ pre, k'.isPhrase .qualifiedNameList = false) → k ∈ ms → k.isName = true →
      Writes c (.phr ty ks) .interfaceAccess (c.range k) (c.nodeText k)

/-! ### C145 -/

section
variable {c : Ctx} {root : Node} {e : Env}

theorem memberUse_of {kind : Kind} {m : Node} {gap rest : List Node} {t : Tok} (hg : ∀ k ∈ gap, k.isArrowOrSpace = true)
    (hm : OneName m t) : Fact.sym ⟨kind, c.range m, c.tokText t, []⟩ ∈ memberUse c kind (gap ++ m :: rest) := by
  obtain ⟨ms, rfl, h⟩ := hm
  have e1 : (gap ++ .phr .memberName ms :: rest).dropWhile Node.isArrowOrSpace = .phr .memberName ms :: rest := by
    induction gap with
    | nil => rw [List.nil_append, List.dropWhile_cons_of_neg (by simp [Node.isArrowOrSpace])]
    | cons k gap ih =>
      rw [List.cons_append, List.dropWhile_cons_of_pos (hg k (by simp)), ih fun k hk => hg k (by simp [hk])]
  unfold memberUse
  rw [e1]
  dsimp only
  rw [h]
  simp

theorem scopedUse_of {kind : Kind} {a b m : Node} {rest : List Node} (hm : m.isPhrase .scopedMemberName = true) :
    Fact.sym ⟨kind, c.range m, c.nodeText m, []⟩ ∈ scopedUse c kind (a :: b :: m :: rest) := by
  cases m with
  | tok t => cases hm
  | err t => cases hm
  | phr ty ms =>
    have : ty = .scopedMemberName := by simpa [Node.isPhrase] using hm
    subst this
    simp [scopedUse]

theorem Writes.fact {n : Node} {kind : Kind} {r : Rng} {name : Bytes} (h : Writes c n kind r name) :
    ∃ ty ks, n = .phr ty ks ∧ Fact.sym ⟨kind, r, name, []⟩ ∈ usesOf c ty ks := by
  cases h with
  | call h => exact ⟨_, _, rfl, by simp [usesOf, h]⟩
  | method h1 h2 => exact ⟨_, _, rfl, by simpa [usesOf] using memberUse_of h1 h2⟩
  | property h1 h2 => exact ⟨_, _, rfl, by simpa [usesOf] using memberUse_of h1 h2⟩
  | scopedMethod h => exact ⟨_, _, rfl, List.mem_append_right _ (scopedUse_of h)⟩
  | scopedProperty h => exact ⟨_, _, rfl, List.mem_append_right _ (scopedUse_of h)⟩
  | scopedConstant h => exact ⟨_, _, rfl, List.mem_append_right _ (scopedUse_of h)⟩
  | @scope ty cls rest h1 h2 =>
    refine ⟨_, _, rfl, ?_⟩
    have : Fact.sym ⟨.classAccess, c.range cls, c.nodeText cls, []⟩ ∈ classUse c (cls :: rest) := by
      cases cls with
      | tok t => cases h2
      | err t => cases h2
      | phr ty ms => simp [classUse]
    rcases h1 with rfl | rfl | rfl <;> exact List.mem_append_left _ this
  | @new ks d h1 h2 =>
    exact ⟨_, _, rfl, List.mem_map.mpr ⟨d, List.mem_filter.mpr ⟨h1, h2⟩, rfl⟩⟩
  | @instanceOf pre post k h1 h2 =>
    refine ⟨_, _, rfl, ?_⟩
    have : (pre ++ k :: post).find? Node.isName = some k := by
      rw [List.find?_append, List.find?_eq_none.mpr (fun k' hk' => by simp [h1 k' hk'])]
      simp [h2]
    simp [usesOf, this]
  | @caught ks k h1 h2 => exact ⟨_, _, rfl, List.mem_map.mpr ⟨k, List.mem_filter.mpr ⟨h1, h2⟩, rfl⟩⟩
  | @paramType ks k h1 h2 => exact ⟨_, _, rfl, List.mem_map.mpr ⟨k, List.mem_filter.mpr ⟨h1, h2⟩, rfl⟩⟩
  | @traitUse ks ms k h1 h2 h3 =>
    exact ⟨_, _, rfl, List.mem_flatMap.mpr ⟨_, List.mem_filter.mpr ⟨h1, by simp [Node.isPhrase]⟩,
      List.mem_map.mpr ⟨k, List.mem_filter.mpr ⟨h2, h3⟩, rfl⟩⟩⟩
  | @extends_ ty ks pre post k h1 h2 h3 h4 =>
    refine ⟨_, _, rfl, ?_⟩
    have : ((pre ++ k :: post).filter Node.isName).getLast? = some k := by
      have e1 : post.filter Node.isName = [] := List.filter_eq_nil_iff.mpr fun k' hk' => by simp [h4 k' hk']
      rw [List.filter_append, List.filter_cons_of_pos h3, e1]
      simp
    have : Fact.sym ⟨.classAccess, c.range k, c.nodeText k, []⟩ ∈ headUse c (.phr .classBaseClause (pre ++ k :: post)) := by
      simp only [headUse]
      rw [this]
      simp
    rcases h1 with rfl | rfl <;> exact List.mem_flatMap.mpr ⟨_, h2, this⟩
  | @implements_ ty ks pre post ms k h1 h2 h3 h4 h5 =>
    refine ⟨_, _, rfl, ?_⟩
    have : (pre ++ .phr .qualifiedNameList ms :: post).find? (Node.isPhrase .qualifiedNameList) = some (.phr .qualifiedNameList ms) := by
      rw [List.find?_append, List.find?_eq_none.mpr (fun k' hk' => by simp [h3 k' hk'])]
      simp [Node.isPhrase]
    have : Fact.sym ⟨.interfaceAccess, c.range k, c.nodeText k, []⟩ ∈
        headUse c (.phr .classInterfaceClause (pre ++ .phr .qualifiedNameList ms :: post)) := by
      simp only [headUse, this, Option.toList_some, List.flatMap_cons, List.flatMap_nil, List.append_nil]
      exact List.mem_map.mpr ⟨k, List.mem_filter.mpr ⟨h4, h5⟩, rfl⟩
    rcases h1 with rfl | rfl <;> exact List.mem_flatMap.mpr ⟨_, h2, this⟩

/-- C145 (partial: for code that is `UsesSupported`). Every call of a function, every access of a member, every class before
`::`, after `new`, `instanceof`, `catch`, `extends`, `implements` and `use`, and before a parameter, that is written in a
document is a symbol, with the place and the text of the name. -/
theorem C145_found_partial {n : Node} {kind : Kind} {r : Rng} {name : Bytes} (hs : UsesSupported c root)
    (h : InDocument c root e n) (hw : Writes c n kind r name) : IsSymbol c root ⟨kind, r, name, []⟩ := by
  obtain ⟨ty, ks, rfl, hx⟩ := hw.fact
  exact h.found hs (x := .sym _) (by unfold own; rw [if_pos rfl]; exact List.mem_append_left _ hx)

end

/-! ### the hypotheses are met -/

open Src in
/-- Calls and accesses in the places where they may be: arguments, conditions, objects, methods, closures. -/
def sampleCalls : Src := doc [
  funDecl b!"f" [param b!"$q"] [ret (method (method (var b!"$q") b!"m" [call b!"g" [var b!"$q"]]) b!"n" [])],
  classDecl b!"A" [methodDecl b!"m" [param b!"$x"] [
    stmt (assign (var b!"$y") (.p .scopedCallExpression [qn b!"B", o b!"::", .p .scopedMemberName [.p .identifier [nm b!"h"]],
      args [.p .propertyAccessExpression [var b!"$x", .t .arrow b!"->", .p .memberName [nm b!"p"]]]])),
    stmt (assign (var b!"$z") (create b!"C" [.p .classConstantAccessExpression [qn b!"D", o b!"::", .p .scopedMemberName [.p .identifier [nm b!"K"]]]])),
    ret (.p .scopedPropertyAccessExpression [qn b!"A", o b!"::", .p .scopedMemberName [.t .variableName b!"$s"]])]]]

/-- The document is among those that are considered. -/
theorem sampleCalls_supported : UsesSupported sampleCalls.ctx sampleCalls.root := by decide +kernel

example : sampleCalls.text = b!"<?php\nfunction f($q){return $q->m(g($q))->n();}class A{function m($x){$y = B::h($x->p);$z = new C(D::K);return A::$s;}}" := by
  decide +kernel

/-- The accesses and calls that are found in it. -/
example : (usesIn sampleCalls).map (fun x => (x.1, x.2.1)) = [(.methodAccess, b!"m"), (.functionCall, b!"g"), (.methodAccess, b!"n"),
    (.scopedMethodAccess, b!"h"), (.propertyAccess, b!"p"), (.scopedConstantAccess, b!"K"), (.scopedPropertyAccess, b!"$s")] := by
  decide +kernel

/-- What is written at a node, if it is a call or an access without anything unusual. -/
def writtenHere (c : Ctx) : Node → Option (Kind × Bytes)
  | .phr ty ks => (usesOf c ty ks).getLast?.bind fun x => match x with | .sym s => some (s.kind, s.name) | _ => none
  | _ => none

/-- C145: some of the calls and accesses, where they are. -/
example : ∀ p ∈ [([1,1,0,1,0,2], Kind.methodAccess, b!"n"), ([1,1,0,1,0,2,0], .methodAccess, b!"m")],
    ((docAt sampleCalls.ctx sampleCalls.root p.1).any fun x => decide (writtenHere sampleCalls.ctx x.2 = some p.2)) = true := by
  decide +kernel

open Src in
/-- The names of classes in all places: `extends`, `implements`, `use`, types of parameters, `instanceof`, `catch`. -/
def sampleNames : Src := doc [
  .p .classDeclaration [.p .classDeclarationHeader [o b!"class", sp, nm b!"A",
      .p .classBaseClause [sp, o b!"extends", sp, qn b!"B"],
      .p .classInterfaceClause [sp, o b!"implements", sp, .p .qualifiedNameList [qn b!"I", .t .comma b!",", qn b!"J"]]],
    .p .classDeclarationBody [o b!"{", .p (.transparent 1) [
      .p .traitUseClause [o b!"use", sp, .p .qualifiedNameList [qn b!"T"], o b!";"],
      methodDecl b!"m" [.p .parameterDeclaration [.p .typeDeclaration [qn b!"P"], sp, .t .variableName b!"$p"]] [
        .p (.transparent 2) [o b!"try{", stmt (call b!"g" [var b!"$p"]), o b!"}catch(",
          .p .catchNameList [qn b!"E", o b!"|", qn b!"F"], sp, .t .variableName b!"$e", o b!"){}"],
        ret (.p .instanceOfExpression [var b!"$p", sp, .t .instanceOf b!"instanceof", sp, .p .instanceofTypeDesignator [qn b!"Q"]])]], o b!"}"]]]

theorem sampleNames_supported : UsesSupported sampleNames.ctx sampleNames.root := by decide +kernel

example : sampleNames.text =
    b!"<?php\nclass A extends B implements I,J{use T;function m(P $p){try{g($p);}catch(E|F $e){}return $p instanceof Q;}}" := by
  decide +kernel

/-- The names of classes that are found in it. -/
example : ((flat (symbolsOf sampleNames.ctx sampleNames.root)).filter fun y =>
      y.kind ∈ [Kind.classAccess, .interfaceAccess, .traitAccess, .typeDeclaration]).map (fun y => (y.kind, y.name)) =
    [(.classAccess, b!"B"), (.interfaceAccess, b!"I"), (.interfaceAccess, b!"J"), (.traitAccess, b!"T"), (.typeDeclaration, b!"P"),
      (.classAccess, b!"E"), (.classAccess, b!"F"), (.classAccess, b!"Q")] := by
  decide +kernel

/-- C145: the names in the header, as `C145_found_partial` has them. -/
example : ∃ e r, InDocument sampleNames.ctx sampleNames.root e (.phr .classDeclarationHeader
      (match docAt sampleNames.ctx sampleNames.root [1, 0] with | some (_, .phr _ ks) => ks | _ => [])) ∧
    IsSymbol sampleNames.ctx sampleNames.root ⟨.classAccess, r, b!"B", []⟩ := by
  have h : ∃ e ks pre k, docAt sampleNames.ctx sampleNames.root [1, 0] = some (e, .phr .classDeclarationHeader ks) ∧
      .phr .classBaseClause (pre ++ [k]) ∈ ks ∧ k.isName = true ∧ sampleNames.ctx.nodeText k = b!"B" := by
    refine ⟨_, _, _, _, rfl, List.mem_cons_of_mem _ (List.mem_cons_of_mem _ (List.mem_cons_of_mem _ (List.mem_cons.mpr
      (Or.inl (congrArg _ (List.dropLast_append_getLast? _ (by rfl))))))), rfl, by decide +kernel⟩
  obtain ⟨e, ks, pre, k, h1, h2, h3, h4⟩ := h
  refine ⟨e, sampleNames.ctx.range k, ?_, ?_⟩
  · rw [h1]
    exact docAt_in h1
  · rw [← h4]
    exact C145_found_partial sampleNames_supported (docAt_in h1) (.extends_ (Or.inl rfl) h2 h3 (by simp))

/-! ### C145 is false -/

open Src in
/-- `A::K` -/
def constOf (a k : Bytes) : Src := .p .classConstantAccessExpression [qn a, o b!"::", .p .scopedMemberName [.p .identifier [nm k]]]

open Src in
/-- Class constants as the default value of a parameter and as the value of a constant. -/
def sampleDefaults : Src := doc [
  funDecl b!"f" [.p .parameterDeclaration [.t .variableName b!"$q", .t .equals b!"=", constOf b!"A" b!"K"]] [ret (constOf b!"A" b!"L")],
  constDecl b!"M" (constOf b!"A" b!"N")]

/-- C145 does not hold for the default values of parameters and the values of constants: of the three class constants only
the one in the body is a symbol. -/
theorem C145_false_default :
    sampleDefaults.text = b!"<?php\nfunction f($q=A::K){return A::L;}const M=A::N;" ∧
    (usesIn sampleDefaults).map (fun x => (x.1, x.2.1)) = [(.scopedConstantAccess, b!"L")] := by
  decide +kernel

open Src in
/-- An interface that extends one, and a function with a return type. -/
def sampleReturn : Src := doc [
  .p .interfaceDeclaration [.p .interfaceDeclarationHeader [o b!"interface", sp, nm b!"I",
      .p (.opaque 0) [sp, o b!"extends", sp, .p .qualifiedNameList [qn b!"J"]]],
    .p .interfaceDeclarationBody [o b!"{", o b!"}"]],
  .p .functionDeclaration [
    .p .functionDeclarationHeader [o b!"function", sp, nm b!"f", o b!"(", .p .parameterDeclarationList [], o b!")",
      .p (.opaque 1) [o b!":", .p .typeDeclaration [qn b!"R"]]],
    .p .functionDeclarationBody [block []]]]

/-- C145 does not hold for the names that an interface extends and for return types: no symbol has the name of either. -/
theorem C145_false_return :
    sampleReturn.text = b!"<?php\ninterface I extends J{}function f():R{}" ∧
    (flat (symbolsOf sampleReturn.ctx sampleReturn.root)).map (fun y => (y.kind, y.name)) =
      [(.interface_, b!"\\I"), (.function, b!"\\f")] := by
  decide +kernel

end Verif.Analyser
