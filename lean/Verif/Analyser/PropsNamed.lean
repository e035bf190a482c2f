import Verif.Analyser.Named

/-!
C140: a declaration has the name that is written there, in the namespace in force.
-/

namespace Verif.Analyser
open Verif.Symbols (Tree Var Rec)

/-! ### specification -/

/-- The name that is written in a declaration. A class without a name has the one that is made for it. If a syntax error
led to several names, it is the last one. -/
def writtenName (c : Ctx) : Node → Option Bytes
  | .phr ty ks =>
    match ty with
    | .functionDeclaration => (headNames c true .functionDeclarationHeader ks).getLast?
    | .methodDeclaration => (headNames c true .methodDeclarationHeader ks).getLast?
    | .classDeclaration => (headNames c false .classDeclarationHeader ks).getLast?
    | .interfaceDeclaration => (headNames c false .interfaceDeclarationHeader ks).getLast?
    | .traitDeclaration => (headNames c false .traitDeclarationHeader ks).getLast?
    | .anonymousClassDeclaration =>
      if headNames c false .anonymousClassDeclarationHeader ks = [] then some (c.anonName (c.range (.phr ty ks)).start) else none
    | .functionCallExpression => (defineNames c ks).getLast?
    | .constElement => (ks.filterMap (spelled c false)).getLast?
    | .propertyElement => (ks.filterMap varTok).getLast?.map c.tokText
    | .classConstElement =>
      ((ks.takeWhile fun k => !k.isEquals).filter fun k => k.isPhrase .identifier).getLast?.map c.nodeText
    | _ => none
  | _ => none

/-- Members of classes, which have no namespace. -/
def Kind.inClass : Kind → Bool
  | .method | .property | .classConst => true
  | _ => false

/-- In the document there is the node `n`, in the namespace `ns`: the one that was declared last. -/
def InNamespace (c : Ctx) (root : Node) (ns : Bytes) (n : Node) : Prop :=
  ∃ before k after, root.kids = before ++ k :: after ∧ n ∈ nodesIn k ∧ ns = (before ++ [k]).foldl (nsAfter c) []

/-! ### C140 -/

section
variable {c : Ctx} {root : Node}

theorem fullName_plain {raw : Bytes} (h : plain raw = true) (ns : Bytes) :
    ((tyOf raw).setNamespace ns).fqn = fullName ns raw ∧ nameOf ns raw = fullName ns raw := by
  rw [nameOf, tyOf_plain h, setNamespace_plain h]
  exact ⟨rfl, rfl⟩

theorem calls_written {n : Node} {ns name raw : Bytes} {kind : Kind} (hd : n.declares kind = true) (hk : kind.titled = true)
    (h : n.calls c ns name) (hw : writtenName c n = some raw) :
    if kind.inClass then name = raw else plain raw = true → name = fullName ns raw := by
  cases n with
  | tok t => cases hw
  | err t => cases hw
  | phr ty ks =>
    cases ty <;> first | (cases hw; done) | skip
    all_goals (cases kind <;> first | (cases hk; done) | (cases hd; done) | skip)
    all_goals simp only [Node.calls] at h
    all_goals simp only [writtenName] at hw
    case phr.classDeclaration.class_ => exact fun hp => (h raw hw).trans (fullName_plain hp ns).1
    case phr.interfaceDeclaration.interface_ => exact fun hp => (h raw hw).trans (fullName_plain hp ns).1
    case phr.traitDeclaration.trait_ => exact fun hp => (h raw hw).trans (fullName_plain hp ns).1
    case phr.functionDeclaration.function => exact fun hp => (h raw hw).trans (fullName_plain hp ns).2
    case phr.functionCallExpression.define => exact fun hp => (h raw hw).trans (fullName_plain hp ns).2
    case phr.constElement.const_ => exact fun hp => (h raw hw).trans (fullName_plain hp ns).1
    case phr.methodDeclaration.method => exact h raw hw
    case phr.propertyElement.property =>
      obtain ⟨t, ht, rfl⟩ := Option.map_eq_some_iff.mp hw
      exact h t ht
    case phr.classConstElement.classConst =>
      obtain ⟨k, hk, rfl⟩ := Option.map_eq_some_iff.mp hw
      exact h k hk
    case phr.anonymousClassDeclaration.class_ =>
      split at hw
      · next hn =>
        injection hw with hw
        subst hw
        exact fun hp => (h hn).trans (fullName_plain hp ns).1
      · cases hw

/-- C140: every symbol for a declaration with a name belongs to a declaration of that sort in the document. It has the
range of the declaration and the name that is written in it: as it stands, for a member of a class, and together with the
namespace in force for everything else. -/
theorem C140_names (hr : ∀ k ∈ root.kids, k.orderly = true) {s : Sym} (h : IsSymbol c root s) (hk : s.kind.titled = true) :
    ∃ ns n, InNamespace c root ns n ∧ n.declares s.kind = true ∧ s.range = c.range n ∧
      ∀ raw, writtenName c n = some raw →
        if s.kind.inClass then s.name = raw else plain raw = true → s.name = fullName ns raw := by
  have hs : s ∈ (analyse c root).syms := List.mem_append_left _ h
  unfold analyse scanForChildren at hs
  rw [of_kids] at hs
  rcases names_statements hr (St.start c root) s hs with g | ⟨before, k, after, e, ht⟩
  · simp [St.syms, St.start, flat] at g
  · obtain ⟨n, h1, h2, h3, ns, h4, h5⟩ := ht hk
    refine ⟨ns, n, ⟨before, k, after, e, h1, h4⟩, h2, h3, fun raw hraw => calls_written h2 hk h5 hraw⟩

end

theorem names_first {ks : List Node} (h4 : (ks.filter fun k => k.isPhrase .namespaceName).length ≤ 1)
    (h5 : (ks.dropWhile fun k => !k.isPhrase .namespaceName).isEmpty = true ∨
      ((ks.takeWhile fun k => !k.isPhrase .namespaceName).all fun k => !k.isPhrase .statementList) = true) :
    ((ks.dropWhile fun k => !k.isPhrase .statementList).all fun k => !k.isPhrase .namespaceName) = true := by
  induction ks with
  | nil => rfl
  | cons x ks ih =>
    cases hx : x.isPhrase .namespaceName with
    | true =>
      have hns : x.isPhrase .statementList = false := by
        cases x with
        | phr ty ms => simp only [Node.isPhrase, decide_eq_true_eq] at hx ⊢; subst hx; rfl
        | tok t => rfl
        | err t => rfl
      rw [List.dropWhile_cons, if_pos (by simp [hns]), List.all_eq_true]
      intro y hy
      have hy' : y ∈ ks := (List.dropWhile_suffix _).mem hy
      rw [List.filter_cons_of_pos hx, List.length_cons] at h4
      have : ks.filter (fun k => k.isPhrase .namespaceName) = [] := List.length_eq_zero_iff.mp (by
        have : (ks.filter fun k => k.isPhrase .namespaceName).length + 1 ≤ 1 := h4
        omega)
      simpa using List.filter_eq_nil_iff.mp this y hy'
    | false =>
      rw [List.filter_cons_of_neg (by simp [hx])] at h4
      rw [List.dropWhile_cons, List.takeWhile_cons] at h5
      simp only [hx, Bool.not_false, if_true, List.all_cons, Bool.and_eq_true, Bool.not_eq_true'] at h5
      rw [List.dropWhile_cons]
      split
      · exact ih h4 (h5.imp id And.right)
      · next hl =>
        have hl : x.isPhrase .statementList = true := by simpa using hl
        rcases h5 with h5 | h5
        · rw [List.all_cons, hx, Bool.not_false, Bool.true_and, List.all_eq_true]
          intro y hy
          have hd : ks.dropWhile (fun k => !k.isPhrase .namespaceName) = [] := by simpa using h5
          have := List.all_eq_true.mp (List.all_takeWhile (p := fun k => !Node.isPhrase .namespaceName k) (l := ks)) y (by
            have := List.takeWhile_append_dropWhile (p := fun k => !Node.isPhrase .namespaceName k) (l := ks)
            rw [hd, List.append_nil] at this
            rw [this]; exact hy)
          exact this
        · rw [hl] at h5; cases h5.1

/-- The trees that are considered for finding declarations (C68) are orderly. -/
theorem Supported.orderly {c : Ctx} {root : Node} (h : Supported c root) : ∀ k ∈ root.kids, k.orderly = true := by
  intro k hk
  have hs := List.all_eq_true.mp h k hk
  unfold statement at hs
  unfold Node.orderly
  split at hs
  · next ks =>
    simp only [Bool.and_eq_true, Bool.not_eq_true', Bool.or_eq_true, decide_eq_true_eq] at hs ⊢
    obtain ⟨⟨⟨⟨_, h2⟩, _⟩, h4⟩, h5⟩ := hs
    refine ⟨⟨h2, h4⟩, ?_⟩
    exact names_first h4 h5
  · next hne =>
    simp only [Bool.and_eq_true] at hs
    split
    · exact absurd rfl (hne _)
    · exact hs.2

/-! ### examples -/

open Src in
/-- Declarations of all sorts, some of them in a namespace, one with two names. -/
def sampleNamed : Src := doc [
  funDecl b!"f" [param b!"$q"] [stmt (var b!"$q")],
  nspace b!"N",
  classDecl b!"A" [
    propDecl b!"$p" (num b!"1"),
    classConst b!"K" (num b!"2"),
    methodDecl b!"m" [param b!"$q"] [ret (create b!"B" [])]],
  .p .interfaceDeclaration [.p .interfaceDeclarationHeader [o b!"interface", sp, nm b!"I"], .p .interfaceDeclarationBody [o b!"{}"]],
  .p .traitDeclaration [.p .traitDeclarationHeader [o b!"trait", sp, nm b!"T", sp, nm b!"U"], .p .traitDeclarationBody [o b!"{}"]],
  constDecl b!"C" (num b!"3"),
  nspace b!"M",
  funDecl b!"g" [param b!"$q"] [stmt (call b!"define" [str b!"'X'", num b!"4"])]]

/-- C140_names: the document is orderly, and there are symbols of all sorts, with their names. -/
example : (∀ k ∈ sampleNamed.root.kids, k.orderly = true) ∧
    ((flat (symbolsOf sampleNamed.ctx sampleNamed.root)).filter (·.kind.titled)).map (fun s => (s.kind, s.name)) =
      [(.function, b!"\\f"), (.class_, b!"\\N\\A"), (.property, b!"$p"), (.classConst, b!"K"), (.method, b!"m"),
       (.interface_, b!"\\N\\I"), (.trait_, b!"\\N\\U"), (.const_, b!"\\N\\C"), (.function, b!"\\M\\g"), (.define, b!"\\M\\X")] := by
  decide +kernel

/-- C140_names: the written names are plain. -/
example : [b!"f", b!"A", b!"I", b!"U", b!"C", b!"g", b!"X"].all plain = true := by decide +kernel

/-- C140_names: the names of the statements. -/
example : (sampleNamed.root.kids.filterMap (writtenName sampleNamed.ctx)) = [b!"f", b!"A", b!"I", b!"U", b!"g"] := by
  decide +kernel

open Src in
/-- `namespace A{namespace B;}function f($q){$q;}`: a namespace inside another one, which is an error in PHP. -/
def nestedNamespaces : Src := doc [
  .p .namespaceDefinition [o b!"namespace", sp, .p .namespaceName [nm b!"A"], o b!"{", .p .statementList [nspace b!"B"], o b!"}"],
  funDecl b!"f" [param b!"$q"] [stmt (var b!"$q")]]

/-- C140 asks for namespaces at the outer level: otherwise the inner namespace stays in force behind the outer one. -/
theorem C140_needs_orderly : (nestedNamespaces.root.kids.all Node.orderly) = false ∧
    ((flat (symbolsOf nestedNamespaces.ctx nestedNamespaces.root)).filter (·.kind.titled)).map (fun s => (s.kind, s.name)) =
      [(.function, b!"\\B\\f")] ∧
    nestedNamespaces.root.kids.foldl (nsAfter nestedNamespaces.ctx) [] = b!"A" := by
  decide +kernel

end Verif.Analyser
