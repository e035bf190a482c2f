import Verif.Decl.PropsUse

/-! C86, C87: declared types and the reach of doc comments; what is wrong in C82 to C85. -/

namespace Verif.Decl
open Verif.Analyser (Node PType TokType Tok Ctx Src tyOf)
open Verif.Types (Ty Union)

/-- C82: every type that is recorded for the text of a doc comment is the class around, for `self`, or the class that a
part of the text refers to by the rules of PHP. -/
theorem C82_php (env : Env) (text n : Bytes) (h : n ∈ (typesFromPhpDoc env text).map Ty.fqn) :
    ∃ part ∈ splitB 124 text, (Rpc.trimSpace part = b!"self" ∧ ∃ c, env.cls = some c ∧ n = c.name.fqn) ∨
      (Rpc.trimSpace part ≠ b!"self" ∧ FollowsPHP env.table (Rpc.trimSpace part) n) := by
  obtain ⟨part, hp, -, h1, h2⟩ := (C82_named env text n).1 h
  refine ⟨part, hp, ?_⟩
  by_cases hs : Rpc.trimSpace part = b!"self"
  · exact .inl ⟨hs, h1 hs⟩
  · refine .inr ⟨hs, ?_⟩
    rw [h2 hs]
    exact follows_php env.table _

example : b!"\\Lib\\Foo" ∈ (typesFromPhpDoc senv b!"null|Foo").map Ty.fqn := by decide +kernel

/-- An environment inside the class `App\A`. -/
def senvA : Env := { senv0 with cls := some ⟨.class_, ⟨b!"\\App\\A", b!"A", 0⟩⟩ }

/-- C82 is false for `self[]`, which becomes a class `\App\self`, while `self` is right. -/
theorem C82_false_self_array : (typesFromPhpDoc senvA b!"self").map Ty.fqn = [b!"\\App\\A"] ∧
    (typesFromPhpDoc senvA b!"self[]").map Ty.fqn = [b!"\\App\\self"] := by decide +kernel

/-- `interface B extends I, \J`. -/
def srcInterface : Src :=
  .p .interfaceDeclaration [.p .interfaceDeclarationHeader [tk b!"interface", ws b!" ", nm b!"B", ws b!" ",
    .p interfaceBaseClause [tk b!"extends", ws b!" ",
      .p .qualifiedNameList [.p .qualifiedName [nm b!"I"], tk b!",", ws b!" ", .p .fullyQualifiedName [nm b!"\\J"]]]],
    tk b!"{}"]

/-- C83 is false for interfaces: a base that is written with a leading backslash is dropped, and the others are not
resolved. The same names after `implements` are recorded as `\App\I` and `\J`. -/
theorem C83_false_interface :
    (newInterface { senv0 with ctx := srcInterface.ctx } srcInterface.root).name.fqn = b!"\\App\\B" ∧
    (newInterface { senv0 with ctx := srcInterface.ctx } srcInterface.root).exts.map Ty.fqn = [b!"I"] ∧
    (newClass senv (part 5)).impls.map Ty.fqn = [b!"\\App\\I", b!"\\J"] := by decide +kernel

/-- What is recorded for the bases of an interface is never resolved: neither the imports nor the namespace matter. -/
theorem C83_false_interface_unresolved (env : Env) (t : Imports.Table) (n : Node) :
    (newInterface { env with table := t } n).exts = (newInterface env n).exts := by
  have hh : ∀ (hs : List Node) (s : InterfaceRec),
      hs.foldl (interfaceHeaderStep { env with table := t }) s = hs.foldl (interfaceHeaderStep env) s := by
    intro hs
    induction hs with
    | nil => intros; rfl
    | cons k hs ih =>
      intro s
      rw [List.foldl_cons, List.foldl_cons, ih]
      rfl
  unfold newInterface
  simp only [hh]

/-- `use Lib\{function f, C as D};`. -/
def srcMixed : Src :=
  .p (.opaque 20)
    [tk b!"use", ws b!" ", .p .namespaceName [nm b!"Lib"], tk b!"\\{",
     .p useGroupClauseList
      [.p useGroupClause [.t tFunction b!"function", ws b!" ", .p .namespaceName [nm b!"f"]], tk b!",", ws b!" ",
       .p useGroupClause [.p .namespaceName [nm b!"C"], ws b!" ", .p aliasingClause [tk b!"as", ws b!" ", nm b!"D"]]],
     tk b!"}", tk b!";"]

/-- C84 is false for groups that mix kinds: the function becomes a class. -/
theorem C84_false_mixed_group : ∃ t, useDeclaration srcMixed.ctx srcMixed.root (Imports.newTable ⟨0, 0⟩) = some t ∧
    Imports.names t.functions = [] ∧ Imports.names t.classes = [(b!"f", b!"Lib\\f"), (b!"D", b!"Lib\\C")] := by
  refine ⟨_, rfl, ?_, ?_⟩ <;> decide +kernel

/-- C84 is false for the places of imports in groups: with an alias the place is that of `as D` only, without the
name. -/
theorem C84_false_group_range : ∃ t item, useDeclaration srcMixed.ctx srcMixed.root (Imports.newTable ⟨0, 0⟩) = some t ∧
    t.classes.get b!"D" = some item ∧ item.range = ⟨⟨0, 23⟩, ⟨0, 27⟩⟩ ∧
    srcMixed.ctx.range (sub (sub srcMixed.root 4) 3) = ⟨⟨0, 21⟩, ⟨0, 27⟩⟩ := by
  refine ⟨_, _, rfl, rfl, ?_, ?_⟩ <;> decide +kernel

/-- `const binary = 7`. -/
def srcNative : Src := .p .constElement [nm b!"binary", ws b!" ", .t .equals b!"=", ws b!" ", ex b!"7"]

/-- C85 is false for constants with the name of a native type: in the namespace `App` the constant `binary` is recorded
as `binary`, while `MAX` is recorded as `\App\MAX`. -/
theorem C85_false_native_name :
    (newConst { senv0 with ctx := srcNative.ctx } srcNative.root).name.fqn = b!"binary" ∧
    (newConst senv (part 7)).name.fqn = b!"\\App\\MAX" := by decide +kernel

/-- C86: the type that is declared for a parameter is among those that are recorded, as PHP resolves the name. (Partial:
see below for return types, nullable types and `self`.) -/
theorem C86_parameter_partial (env : Env) (ks hs ls es : List Node) (i : Nat) (e t : Node) (var : Tok)
    (value : Option (List Node))
    (h : OnlyPhrase .functionDeclarationHeader ks (.phr .functionDeclarationHeader hs))
    (hl : OnlyPhrase .parameterDeclarationList hs (.phr .parameterDeclarationList ls))
    (he : Listed .parameterDeclaration ls es) (hi : es[i]? = some e)
    (hw : ParamWritten e (some t) var value) :
    ∃ p, (newFunction env (.phr .functionDeclaration ks)).params[i]? = some p ∧
      ∃ n ∈ p.types.map Ty.fqn, FollowsPHP env.table (env.ctx.nodeText t) n := by
  rw [(params_of env ks hs ls es hl he).1 h]
  refine ⟨_, by rw [List.getElem?_map, hi]; rfl, _, ?_, follows_php env.table _⟩
  have hd : (env.table.getClassReferenceFQN (tyOf (env.ctx.nodeText t))).1 ∈ (newParameter env e).types.map Ty.fqn := by
    rw [(newParameter_spec env e (some t) var value hw).2.1, mem_declared]
    exact ⟨t, rfl, rfl⟩
  generalize env.validDoc _ = o
  cases o with
  | none => exact hd
  | some d =>
    show _ ∈ ((newParameter env e).applyDoc env d).types.map Ty.fqn
    unfold Param.applyDoc
    split
    · exact (Types.C25_merge _ _ _).2 (.inl hd)
    · exact hd

/-- C86 is false for return types: whatever is declared, without a doc comment nothing is recorded. -/
theorem C86_false_return_type (env : Env) (ks hs : List Node)
    (h : OnlyPhrase .functionDeclarationHeader ks (.phr .functionDeclarationHeader hs))
    (hd : DocApplies env (.phr .functionDeclaration ks) none) :
    (newFunction env (.phr .functionDeclaration ks)).returns = [] := (C81_undocumented env ks hs).1 h hd

/-- The sample declares a return type. -/
example : OnlyPhrase returnType (sub (part 3) 0).kids (sub (sub (part 3) 0) 6) ∧ DocApplies senv0 (part 3) none ∧
    (newFunction senv0 (part 3)).returns = [] :=
  ⟨OnlyPhrase.of_filter rfl, fun d hd => (by cases hd), by decide +kernel⟩

/-- `?Foo $a` and `self $b`. -/
def srcOdd : Src :=
  .p .parameterDeclarationList
    [.p .parameterDeclaration [.p .typeDeclaration [tk b!"?", .p .qualifiedName [nm b!"Foo"]], ws b!" ",
       .t .variableName b!"$a"], tk b!",", ws b!" ",
     .p .parameterDeclaration [.p .typeDeclaration [.p .qualifiedName [nm b!"self"]], ws b!" ", .t .variableName b!"$b"]]

/-- C86 is false for nullable types and for `self`: `?Foo`, with `use Lib\Foo`, becomes `\App\?Foo`, and `self` in the
class `App\A` becomes `\App\self`. -/
theorem C86_false_nullable_self :
    (newParameters { senvA with ctx := srcOdd.ctx } srcOdd.root).map (fun p => p.types.map Ty.fqn) =
      [[b!"\\App\\?Foo"], [b!"\\App\\self"]] := by decide +kernel

/-- C87: a doc comment applies to a declaration if it ends on the line above, and only then. (Partial: the one on the same
line should apply as well, and not to what is on the next line.) -/
theorem C87_line_above_partial (env : Env) (n d : Node) (hd : env.doc = some (newPhpDoc env d)) :
    (env.validDoc n).isSome = true ↔ (env.ctx.range d).stop.line + 1 = (env.ctx.range n).start.line := by
  constructor
  · intro h
    by_contra hne
    rw [validDoc_none env n fun d' hd' => ?_] at h
    · cases h
    · rw [hd] at hd'
      cases hd'
      exact hne
  · intro h
    rw [validDoc_of env n d ⟨hd, h⟩]
    rfl

example : (senv.validDoc (part 3)).isSome = true ∧ (senv.validDoc (part 5)).isSome = false := by decide +kernel

/-- `/** @return Foo */ function a() {}` and, on the next line, `function b() {}`. -/
def srcSameLine : Src :=
  .p (.opaque 0)
    [.p .documentComment [tk b!"/** ",
       .p (.docTag 1) [.t .docTagName b!"@return", ws b!" ", .p .typeDeclaration [nm b!"Foo"]], tk b!" */"], ws b!" ",
     .p .functionDeclaration [.p .functionDeclarationHeader [.t tFunction b!"function", ws b!" ", nm b!"a", tk b!"()"],
       ws b!" ", .p .functionDeclarationBody [tk b!"{}"]], ws b!"\n",
     .p .functionDeclaration [.p .functionDeclarationHeader [.t tFunction b!"function", ws b!" ", nm b!"b", tk b!"()"],
       ws b!" ", .p .functionDeclarationBody [tk b!"{}"]]]

/-- After the doc comment, which is the last one for both functions. -/
def senvSame : Env :=
  { senv0 with
    ctx := srcSameLine.ctx
    doc := some (newPhpDoc { senv0 with ctx := srcSameLine.ctx } (sub srcSameLine.root 0)) }

/-- C87 is false for a doc comment on the line of its declaration: it is not applied to that one, and it is applied to the
declaration on the next line. -/
theorem C87_false_same_line :
    (newFunction senvSame (sub srcSameLine.root 2)).name = b!"a" ∧
    (newFunction senvSame (sub srcSameLine.root 2)).returns = [] ∧
    (newFunction senvSame (sub srcSameLine.root 4)).name = b!"b" ∧
    (newFunction senvSame (sub srcSameLine.root 4)).returns.map Ty.fqn = [b!"\\Lib\\Foo"] := by decide +kernel

end Verif.Decl
