import Verif.Decl.Lemmas
import Verif.Analyser.Sample

/-! A document with declarations, for examples, and lemmas that check what is written in it by computation. -/

namespace Verif.Decl
open Verif.Analyser (Node PType TokType Tok Ctx Src)

theorem OnlyPhrase.of_filter {ty : PType} {ks : List Node} {x : Node}
    (h : ks.filter (fun k => typ? k = some ty) = [x]) : OnlyPhrase ty ks x := by
  induction ks with
  | nil => cases h
  | cons k ks ih =>
    by_cases hk : typ? k = some ty
    · rw [List.filter_cons_of_pos (by simpa using hk)] at h
      obtain ⟨rfl, h'⟩ := List.cons.inj h
      refine ⟨[], ks, rfl, (typ_iff _ _).1 hk, fun k' hk' hp => ?_⟩
      have := List.filter_eq_nil_iff.1 h' k' hk'
      exact this (by simpa using (typ_iff _ _).2 hp)
    · rw [List.filter_cons_of_neg (by simpa using hk)] at h
      obtain ⟨pre, post, rfl, hx, hn⟩ := ih h
      refine ⟨k :: pre, post, rfl, hx, fun k' h' => ?_⟩
      rcases List.mem_cons.1 h' with rfl | h'
      · rwa [← typ_iff]
      · exact hn k' h'

theorem NoPhrase.of_filter {ty : PType} {ks : List Node} (h : ks.filter (fun k => typ? k = some ty) = []) :
    NoPhrase ty ks := fun k hk hp => List.filter_eq_nil_iff.1 h k hk (by simpa using (typ_iff _ _).2 hp)

theorem NoToken.of_filter {ty : TokType} {ks : List Node} (h : ks.filter (fun k => tokType? k = some ty) = []) :
    ∀ k ∈ ks, ¬ IsToken ty k := fun k hk hp => List.filter_eq_nil_iff.1 h k hk (by simpa using (tokType_iff _ _).2 hp)

theorem OnlyToken.of_filter {ty : TokType} {ks : List Node} {t : Tok}
    (h : ks.filter (fun k => tokType? k = some ty) = [.tok t]) : OnlyToken ty ks t := by
  induction ks with
  | nil => cases h
  | cons k ks ih =>
    by_cases hk : tokType? k = some ty
    · rw [List.filter_cons_of_pos (by simpa using hk)] at h
      obtain ⟨rfl, h'⟩ := List.cons.inj h
      exact ⟨[], ks, rfl, Option.some.inj hk, NoToken.of_filter h'⟩
    · rw [List.filter_cons_of_neg (by simpa using hk)] at h
      obtain ⟨pre, post, rfl, hx, hn⟩ := ih h
      refine ⟨k :: pre, post, rfl, hx, fun k' h' => ?_⟩
      rcases List.mem_cons.1 h' with rfl | h'
      · rwa [← tokType_iff]
      · exact hn k' h'

theorem Listed.of_filter {ty : PType} {ks es : List Node} (h : ks.filter (fun k => typ? k = some ty) = es) :
    Listed ty ks es := by
  induction ks generalizing es with
  | nil => cases h; exact .nil
  | cons k ks ih =>
    by_cases hk : typ? k = some ty
    · rw [List.filter_cons_of_pos (by simpa using hk)] at h
      subst h
      exact .take ((typ_iff _ _).1 hk) (ih rfl)
    · rw [List.filter_cons_of_neg (by simpa using hk)] at h
      exact .skip (fun hp => hk ((typ_iff _ _).2 hp)) (ih h)

theorem writes_iff {ks : List Node} {ty : TokType} : Writes ks ty ↔ (ks.any fun k => tokType? k = some ty) = true := by
  unfold Writes
  simp only [List.any_eq_true, decide_eq_true_eq, tokType_iff]

instance (ks : List Node) (ty : TokType) : Decidable (Writes ks ty) := decidable_of_iff _ writes_iff.symm

instance (ks : List Node) : Decidable (OneVisibility ks) := by unfold OneVisibility; infer_instance

theorem IsTag.of {c : Ctx} {name : Bytes} {k : Node} (i : Nat) (t : Tok) (rest : List Node) (hk : k = .phr (.docTag i) (.tok t :: rest))
    (ht : t.type = .docTagName) (hn : c.tokText t = name) : IsTag c name k :=
  ⟨⟨i, _, hk⟩, [], t, rest, by rw [hk]; rfl, ht, hn, fun _ h => absurd h List.not_mem_nil⟩

theorem HasValue.of {ks : List Node} (i : Nat) (eq sp v : Node) (t : Tok) (he : eq = .tok t) (ht : t.type = .equals)
    (hsp : tokType? sp = some .whitespace) (hv : typ? v = some (.opaque 7)) (hk : ks = ks.take i ++ eq :: ([sp] ++ [v]))
    (hno : (ks.take i).filter (fun k => tokType? k = some .equals) = []) : HasValue ks (ks.take i) (some [v]) := by
  obtain ⟨qs, rfl⟩ := (typ_iff _ _).1 hv
  subst he
  refine ⟨NoToken.of_filter hno, t, [sp], hk, ht, ?_, by simp, ?_, ?_⟩
  · intro k hk
    obtain rfl := List.mem_singleton.1 hk
    exact (tokType_iff _ _).1 hsp
  · intro k hk
    cases hk
    rintro ⟨t, h, -⟩
    cases h
  · intro k hk
    obtain rfl := List.mem_singleton.1 hk
    refine ⟨?_, ?_, ?_, ?_, ?_⟩
    · rintro ⟨t, h, -⟩; cases h
    · rintro ⟨t, h, -⟩; cases h
    · rintro ⟨t, h⟩; cases h
    · rintro ⟨t, h⟩; cases h
    · intro t h; cases h

instance (s : Bytes) : Decidable (Ordinary s) := by unfold Ordinary; infer_instance

instance (m : GoMap Bytes Imports.Item) (a : Bytes) : Decidable (Imports.SameCase m a) := by
  unfold Imports.SameCase; infer_instance

/-- White space. -/
def ws (s : Bytes) : Src := .t .whitespace s
/-- A token that does not matter. -/
def tk (s : Bytes) : Src := .t (.other 0) s
/-- A name token. -/
def nm (s : Bytes) : Src := .t .name s
/-- An expression. -/
def ex (s : Bytes) : Src := .p (.opaque 7) [tk s]

/-- `/** Counts.`, ` * @param Bar|null $a how`, ` * @return Baz`, ` */`. -/
def srcDoc : Src :=
  .p .documentComment
    [tk b!"/** ", .p docDescription [tk b!"Counts."], ws b!"\n * ",
     .p (.docTag 0) [.t .docTagName b!"@param", ws b!" ",
       .p .typeUnion [.p .typeDeclaration [nm b!"Bar"], tk b!"|", .p .typeDeclaration [nm b!"null"]], ws b!" ",
       .t .variableName b!"$a", ws b!" ", .p docDescription [tk b!"how"]],
     ws b!"\n * ",
     .p (.docTag 1) [.t .docTagName b!"@return", ws b!" ", .p .typeDeclaration [nm b!"Baz"]],
     tk b!"\n */"]

/-- `Foo $a, $b = 1 + 2`. -/
def srcParams : Src :=
  .p .parameterDeclarationList
    [.p .parameterDeclaration [.p .typeDeclaration [nm b!"Foo"], ws b!" ", .t .variableName b!"$a"], tk b!",", ws b!" ",
     .p .parameterDeclaration [.t .variableName b!"$b", ws b!" ", .t .equals b!"=", ws b!" ", ex b!"1 + 2"]]

/-- `function count(Foo $a, $b = 1 + 2): int {}`. -/
def srcFunction : Src :=
  .p .functionDeclaration
    [.p .functionDeclarationHeader [.t tFunction b!"function", ws b!" ", nm b!"count", tk b!"(", srcParams, tk b!")",
       .p returnType [tk b!": int"]],
     ws b!" ", .p .functionDeclarationBody [tk b!"{}"]]

/-- `class A extends Foo implements I, \J {`, `use T;`, `private static $p, $q;`, `protected const X = 1;`,
`abstract public function m($x);`, `}`. -/
def srcClass : Src :=
  .p .classDeclaration
    [.p .classDeclarationHeader [tk b!"class", ws b!" ", nm b!"A", ws b!" ",
       .p .classBaseClause [tk b!"extends", ws b!" ", .p .qualifiedName [nm b!"Foo"]], ws b!" ",
       .p .classInterfaceClause [tk b!"implements", ws b!" ",
         .p .qualifiedNameList [.p .qualifiedName [nm b!"I"], tk b!",", ws b!" ", .p .fullyQualifiedName [nm b!"\\J"]]]],
     ws b!" ",
     .p .classDeclarationBody [tk b!"{",
       .p (.transparent 5)
         [.p .traitUseClause [tk b!"use", ws b!" ", .p .qualifiedNameList [.p .qualifiedName [nm b!"T"]], tk b!";"],
          .p .propertyDeclaration
            [.p memberModifierList [.t tPrivate b!"private", ws b!" ", .t tStatic b!"static"], ws b!" ",
             .p .propertyElementList [.p .propertyElement [.t .variableName b!"$p"], tk b!",", ws b!" ",
               .p .propertyElement [.t .variableName b!"$q"]], tk b!";"],
          .p .classConstDeclaration
            [.p memberModifierList [.t tProtected b!"protected"], ws b!" ", .t tConst b!"const", ws b!" ",
             .p .classConstElementList [.p .classConstElement
               [.p .identifier [nm b!"X"], ws b!" ", .t .equals b!"=", ws b!" ", ex b!"1"]], tk b!";"],
          .p .methodDeclaration
            [.p .methodDeclarationHeader
              [.p memberModifierList [.t tAbstract b!"abstract", ws b!" ", .t tPublic b!"public"], ws b!" ",
               .t tFunction b!"function", ws b!" ", .p .identifier [nm b!"m"], tk b!"(",
               .p .parameterDeclarationList [.p .parameterDeclaration [.t .variableName b!"$x"]], tk b!")"], tk b!";"]],
       tk b!"}"]]

/-- `MAX = 7`. -/
def srcConst : Src := .p .constElement [nm b!"MAX", ws b!" ", .t .equals b!"=", ws b!" ", ex b!"7"]

/-- `use Lib\Foo, Lib\Bar as B;`. -/
def srcUse : Src :=
  .p (.opaque 20)
    [tk b!"use", ws b!" ", .p useClauseList
      [.p useClause [.p .namespaceName [nm b!"Lib\\Foo"]], tk b!",", ws b!" ",
       .p useClause [.p .namespaceName [nm b!"Lib\\Bar"], ws b!" ", .p aliasingClause [tk b!"as", ws b!" ", nm b!"B"]]],
     tk b!";"]

/-- `use function Lib\{f, g as h};`. -/
def srcGroup : Src :=
  .p (.opaque 20)
    [tk b!"use", ws b!" ", .t tFunction b!"function", ws b!" ", .p .namespaceName [nm b!"Lib"], tk b!"\\{",
     .p useGroupClauseList
      [.p useGroupClause [.p .namespaceName [nm b!"f"]], tk b!",", ws b!" ",
       .p useGroupClause [.p .namespaceName [nm b!"g"], ws b!" ", .p aliasingClause [tk b!"as", ws b!" ", nm b!"h"]]],
     tk b!"}", tk b!";"]

/-- The document. -/
def srcAll : Src :=
  .p (.opaque 0) [tk b!"<?php\n", srcDoc, ws b!"\n", srcFunction, ws b!"\n", srcClass, ws b!"\n", srcConst, ws b!"\n",
    srcUse, ws b!"\n", srcGroup]

/-- Its text and positions. -/
def sctx : Ctx := srcAll.ctx

/-- The part of the document with that number. -/
def part (i : Nat) : Node := srcAll.root.kids.getD i srcAll.root
/-- The part of a node with that number. -/
def sub (n : Node) (i : Nat) : Node := n.kids.getD i n

/-- `namespace App; use Lib\Foo;`, without a doc comment. -/
def senv0 : Env :=
  { ctx := sctx
    table := ({ Imports.newTable ⟨1, 0⟩ with ns := some b!"App" } : Imports.Table).addClassName [] b!"Lib\\Foo" default
    cls := none, doc := none, strip := id }

/-- The same after the doc comment. -/
def senv : Env := { senv0 with doc := some (newPhpDoc senv0 (part 1)) }

/-- `private static $p, $q;` of the sample. -/
def sProps : Node := sub (sub (sub (part 5) 2) 1) 1
/-- `protected const X = 1;`. -/
def sConsts : Node := sub (sub (sub (part 5) 2) 1) 2
/-- `abstract public function m($x);`. -/
def sMethod : Node := sub (sub (sub (part 5) 2) 1) 3

/-- The value `1 + 2`. -/
def sValue : Node := sub (sub (sub (sub (part 3) 0) 4) 3) 4

/-- The members of the sample. -/
def sMembers : Node := sub (sub (part 5) 2) 1

end Verif.Decl
