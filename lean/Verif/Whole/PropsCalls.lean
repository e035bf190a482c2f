import Verif.Whole.PropsUses

/-! C143: from a call of a function or a use of a constant in the text to where go to definition leads. -/

namespace Verif.Whole

open Verif.Encoding Verif.Storage Verif.Store Verif.Query
open Analyser (Ctx Node IsSymbol InDocument InNamespace Supported tyOf)
open Imports (Qualified FullyQualified lookedUp SameCase firstSegment inNamespace names phpFunctionName phpConstName)

/-- The name that `newFunctionCall` (`functionCall.go:42-56`) records is the text of the first child; go to definition
(`definition.go:66`) takes it with `NewTypeString`. -/
def calledName (c : Ctx) (p : Node) : Types.Ty :=
  tyOf (match p.kids with
    | k :: _ => c.nodeText k
    | [] => [])

/-- The name that `newConstantAccess` (`constantAccess.go:24-33`, `39-41`) records is the text of the expression; go to
definition (`definition.go:58`) takes it with `NewTypeString`. -/
def constantName (c : Ctx) (p : Node) : Types.Ty := tyOf (c.nodeText p)

/-- The resolution of a function or constant name follows PHP (C27): it is not the name of a built-in type and has no brackets;
no import has its first part as alias if it is qualified, and none is that alias in other case; a global declaration of that
name does not hide one of the namespace, and a qualified name is not also a global one. `own` are the imports of functions or
constants, `there` is what exists. -/
structure PlainUse (tbl : Imports.Table) (own : GoMap Bytes Imports.Item) (there : Bytes → Prop) (text : Bytes) : Prop where
  some : text ≠ []
  notBoolean : text ≠ b!"boolean"
  notInteger : text ≠ b!"integer"
  noArray : ¬ b!"]" <:+ text
  notNative : text ∉ Types.natives
  qualified : Qualified text → tbl.classes.get (lookedUp text) = none
  full : FullyQualified text → own.get (lookedUp text) = none
  sameCase : SameCase tbl.classes (firstSegment text)
  global : ¬ FullyQualified text → there (92 :: text) →
    ¬ Qualified text ∧ ¬ there (inNamespace tbl.getNamespace text) ∨ tbl.getNamespace = []

theorem PlainUse.ty {tbl : Imports.Table} {own : GoMap Bytes Imports.Item} {there : Bytes → Prop} {text : Bytes}
    (h : PlainUse tbl own there text) : tyOf text = ⟨text, text, 0⟩ :=
  Decl.tyOf_plain h.some h.notBoolean h.notInteger h.noArray

/-- Of the functions that exist, the code and PHP choose the same. -/
theorem same_function (tbl : Imports.Table) (there : Bytes → Bool) (text : Bytes)
    (h : PlainUse tbl tbl.functions (fun q => there q = true) text) (hc : SameCase tbl.functions text) {q : Bytes}
    (hq : there q = true) :
    q = tbl.getFunctionReferenceFQN there (tyOf text) ↔
      q = phpFunctionName there tbl.getNamespace (names tbl.classes) (names tbl.functions) text := by
  have e := h.ty
  by_cases hs : ¬ Qualified text → tbl.functions.get text = none →
      there (92 :: text) = true ∨ there (inNamespace tbl.getNamespace text) = true
  · have := Imports.C27_function_partial tbl ⟨text, text, 0⟩ there h.notNative h.qualified h.full ⟨h.sameCase, hc⟩
      (fun hf hd => (h.global hf hd).imp_left fun x => ⟨x.1, by simpa using x.2⟩) hs
    rw [e, this]
  · simp only [not_forall, not_or, Bool.not_eq_true] at hs
    obtain ⟨hQ, hg, hd1, hd2⟩ := hs
    have hf : ¬ FullyQualified text := fun hf => hQ (by
      unfold FullyQualified at hf
      unfold Qualified
      cases text with
      | nil => cases hf
      | cons x xs => cases hf; exact List.mem_cons_self)
    have hnf : Types.isFQN text = false := by
      rw [Bool.eq_false_iff]
      intro hh
      rcases (Imports.isFQN_iff _).mp hh with hh | hh
      · exact h.notNative hh
      · exact hf hh
    have h1 : tbl.getFunctionReferenceFQN there (tyOf text) = inNamespace tbl.getNamespace text := by
      rw [e, Imports.Table.getFunctionReferenceFQN, Imports.imported_plain tbl _ _ hf hQ]
      simp only [hg, Option.map_none, Imports.globalFQN, hnf, Bool.false_eq_true, if_false, hd1]
      have := Imports.setNamespace_fqn ⟨text, text, 0⟩ tbl.getNamespace
      simpa [hnf] using this
    have h2 : phpFunctionName there tbl.getNamespace (names tbl.classes) (names tbl.functions) text = 92 :: text := by
      rw [phpFunctionName, if_neg hf, if_neg hQ, Imports.get_names _ _ hc, hg]
      simp [hd2]
    rw [h1, h2]
    constructor
    · rintro rfl; rw [hd2] at hq; cases hq
    · rintro rfl; rw [hd1] at hq; cases hq

/-- Of the constants that exist, the code and PHP choose the same. -/
theorem same_constant (tbl : Imports.Table) (consts defines : Bytes → Bool) (text : Bytes)
    (h : PlainUse tbl tbl.constants (fun q => (consts q || defines q) = true) text) {q : Bytes}
    (hq : (consts q || defines q) = true) :
    q = tbl.getConstReferenceFQN consts defines (tyOf text) ↔
      q = phpConstName (fun q => consts q || defines q) tbl.getNamespace (names tbl.classes) (names tbl.constants) text := by
  have e := h.ty
  by_cases hs : ¬ Qualified text → tbl.constants.get text = none →
      (consts (92 :: text) || defines (92 :: text)) = true ∨
        (consts (inNamespace tbl.getNamespace text) || defines (inNamespace tbl.getNamespace text)) = true
  · have := Imports.C27_constant_partial tbl ⟨text, text, 0⟩ consts defines h.notNative h.qualified h.full h.sameCase
      (fun hf hd => (h.global hf hd).imp_left fun x => ⟨x.1, by simpa using x.2⟩) hs
    rw [e, this]
  · simp only [not_forall, not_or, Bool.not_eq_true] at hs
    obtain ⟨hQ, hg, hd1, hd2⟩ := hs
    have hf : ¬ FullyQualified text := fun hf => hQ (by
      unfold FullyQualified at hf
      unfold Qualified
      cases text with
      | nil => cases hf
      | cons x xs => cases hf; exact List.mem_cons_self)
    have hnf : Types.isFQN text = false := by
      rw [Bool.eq_false_iff]
      intro hh
      rcases (Imports.isFQN_iff _).mp hh with hh | hh
      · exact h.notNative hh
      · exact hf hh
    have hd1' := Bool.or_eq_false_iff.mp hd1
    have h1 : tbl.getConstReferenceFQN consts defines (tyOf text) = inNamespace tbl.getNamespace text := by
      rw [e, Imports.Table.getConstReferenceFQN, Imports.imported_plain tbl _ _ hf hQ]
      simp only [hg, Option.map_none, Imports.globalFQN, hnf, Bool.false_eq_true, if_false, hd1'.1, hd1'.2]
      have := Imports.setNamespace_fqn ⟨text, text, 0⟩ tbl.getNamespace
      simpa [hnf] using this
    have h2 : phpConstName (fun q => consts q || defines q) tbl.getNamespace (names tbl.classes) (names tbl.constants) text =
        92 :: text := by
      rw [phpConstName, if_neg hf, if_neg hQ, Imports.get_names_exact, hg]
      simp [hd2]
    rw [h1, h2]
    constructor
    · rintro rfl; rw [hd2] at hq; cases hq
    · rintro rfl; rw [hd1] at hq; cases hq

section
variable {env : Env} {root : Bytes} {h : List HOp} {s : Store} {T : Bytes → Option (Ctx × Node)} {L : Bytes → Option Doc}

/-- What can be led to exists. -/
theorem leads_to_there {Q Q' : Analyser.Kind → Bytes → Prop} {r : List Sym} (h : LeadsToText env T Q r)
    (hr : ∀ y ∈ r, b!"file://" <+: y.location.uri ∧ ∃ kind q, (Q kind q ∧ IsThere T kind q) ∧ WrittenAt T kind (· = q) y.location)
    (hQ : ∀ k q, IsThere T k q → (Q k q ↔ Q' k q)) : LeadsToText env T Q' r := by
  refine ⟨fun y hy => ?_, fun file c root e n kind q ht hsup hn hd hq hf hone => ?_⟩
  · obtain ⟨h1, kind, q, ⟨h2, h3⟩, h4⟩ := hr y hy
    exact ⟨h1, kind, q, (hQ kind q h3).mp h2, h4⟩
  · have : IsThere T kind q := ⟨file, c, root, ht, _, (declared_symbol hsup hn hd).1, rfl, rfl⟩
    exact h.2 file c root e n kind q ht hsup hn hd ((hQ kind q this).mpr hq) hf hone

theorem leads_there (he : EnvOK env) (hsl : env.LowerSlash) (hok : HistOK env h) (hs : run env root h = some s)
    (hT : Current T (latest h)) (hns : ∀ file c root, T file = some (c, root) → ∀ k ∈ root.kids, k.orderly = true)
    (tbl : Imports.Table) (keyOf : Bytes → Bytes) (n ni : Nat) (u : Use)
    (hu : match u with
      | .cls ts => ∀ t ∈ ts, Unaliased tbl t
      | .intf ts => ∀ t ∈ ts, Unaliased tbl t
      | .trt _ => True
      | .typ _ => True
      | .function _ => True
      | .constant _ => True
      | _ => False) (Q' : Analyser.Kind → Bytes → Prop) (hQ : ∀ k q, IsThere T k q → (Asks env T tbl u k q ↔ Q' k q)) :
    ∃ r, definitionIn env s tbl keyOf n ni u = some r ∧ LeadsToText env T Q' r := by
  obtain ⟨r, h1, h2⟩ := definition_leads he hsl hok hs hT tbl keyOf n ni u hu
  obtain ⟨r', h1', h3⟩ := leads_to_text he hsl hok hs hT hns tbl keyOf n ni u hu
  obtain rfl : r = r' := Option.some.inj (h1.symm.trans h1')
  refine ⟨r, h1, leads_to_there h3 (fun y hy => ?_) hQ⟩
  obtain ⟨x, hx, ⟨hg, ha⟩, ho, rfl⟩ := (h2 y).mp hy
  rw [stored_location]
  obtain ⟨file, c, root, a, ht, hsym, hst⟩ := live_text hT hx
  exact ⟨ho, sort x, titleOf x, ⟨ha, file, c, root, ht, a, hsym, hst.kind hg, hst.of.2.symm⟩, written_of_live hT hns hx hg⟩

open Classical in
/-- C143: after any history of indexing, re-indexing, deleting, restarting and crashing, go to definition on the name of a
called function leads to the functions that are written in the current texts under the full name that PHP calls there: the
imported function, else the function of the namespace if there is one, else the global function; nowhere else; and to each
of them, unless the same file declares it twice. -/
theorem C143_function (he : EnvOK env) (hsl : env.LowerSlash) (hok : HistOK env h) (hs : run env root h = some s)
    (hT : Current T (latest h)) (hns : ∀ file c root, T file = some (c, root) → ∀ k ∈ root.kids, k.orderly = true)
    (tbl : Imports.Table) (keyOf : Bytes → Bytes) (n ni : Nat) (c : Ctx) (ty : Analyser.PType) (name : Node) (rest : List Node)
    (hp : PlainUse tbl tbl.functions (IsThere T .function) (c.nodeText name))
    (hc : SameCase tbl.functions (c.nodeText name)) :
    ∃ r, definitionIn env s tbl keyOf n ni (.function (calledName c (.phr ty (name :: rest)))) = some r ∧
      LeadsToText env T (fun kind q => kind = .function ∧ q = phpFunctionName (fun q => decide (IsThere T .function q))
        tbl.getNamespace (names tbl.classes) (names tbl.functions) (c.nodeText name)) r := by
  refine leads_there he hsl hok hs hT hns tbl keyOf n ni _ trivial _ fun k q hq => ?_
  have key := fun hq' => same_function tbl (fun q => decide (IsThere T .function q)) (c.nodeText name) (q := q)
    (by simpa using hp) hc hq'
  cases k <;> simp only [Asks, reduceCtorEq, false_and, true_and]
  exact key (decide_eq_true hq)

open Classical in
/-- C143: the same for constants, declared with `const` or with `define`. -/
theorem C143_constant (he : EnvOK env) (hsl : env.LowerSlash) (hok : HistOK env h) (hs : run env root h = some s)
    (hT : Current T (latest h)) (hns : ∀ file c root, T file = some (c, root) → ∀ k ∈ root.kids, k.orderly = true)
    (tbl : Imports.Table) (keyOf : Bytes → Bytes) (n ni : Nat) (c : Ctx) (p : Node)
    (hp : PlainUse tbl tbl.constants (fun q => IsThere T .const_ q ∨ IsThere T .define q) (c.nodeText p)) :
    ∃ r, definitionIn env s tbl keyOf n ni (.constant (constantName c p)) = some r ∧
      LeadsToText env T (fun kind q => (kind = .const_ ∨ kind = .define) ∧
        q = phpConstName (fun q => decide (IsThere T .const_ q ∨ IsThere T .define q)) tbl.getNamespace (names tbl.classes)
          (names tbl.constants) (c.nodeText p)) r := by
  refine leads_there he hsl hok hs hT hns tbl keyOf n ni _ trivial _ fun k q hq => ?_
  have key := fun hq' => same_constant tbl (fun q => decide (IsThere T .const_ q)) (fun q => decide (IsThere T .define q))
    (c.nodeText p) (q := q) (by simpa using hp) hq'
  have e : (fun q => decide (IsThere T .const_ q) || decide (IsThere T .define q)) =
      fun q => decide (IsThere T .const_ q ∨ IsThere T .define q) := by
    funext q; simp
  rw [e] at key
  cases k <;> simp only [Asks, reduceCtorEq, false_and, true_and, or_false, or_true]
  · exact key (by simp [hq])
  · exact key (by simp [hq])

end

/-! ### an example -/

namespace Demo

open Verif.Store.Demo (env uA)

theorem there_iff (kind : Analyser.Kind) (q : Bytes) : IsThere texts kind q ↔
    ((Analyser.flat (Analyser.symbolsOf sampleText.ctx sampleText.root)).any fun a => a.kind == kind && a.name == q) = true := by
  simp only [List.any_eq_true, Bool.and_eq_true, beq_iff_eq]
  constructor
  · rintro ⟨u, c, root, ht, a, ha, h1, h2⟩
    unfold texts at ht
    split at ht
    · cases ht; exact ⟨a, ha, h1, h2⟩
    · cases ht
  · rintro ⟨a, ha, h1, h2⟩
    exact ⟨uA, _, _, if_pos rfl, a, ha, h1, h2⟩

/-- `f()` and `X` in the namespace `N`. -/
def callSrc : Analyser.Src := .p .statementList [Analyser.Src.call b!"f" [],
  .p .constantAccessExpression [Analyser.Src.qn b!"X"]]

def callNode (i : Nat) : Node := callSrc.root.kids.getD i callSrc.root

/-- Non-vacuity of C143: with the texts of C141 in the index, the conditions hold for `f` and `X` in the namespace `N`, PHP
means `\\N\\f` and `\\N\\X`, and the answers are their places. -/
example : HistOK env textHist ∧ Current texts (latest textHist) ∧
    (∃ k ks, callNode 0 = .phr .functionCallExpression (k :: ks) ∧ callSrc.ctx.nodeText k = b!"f") ∧
    callSrc.ctx.nodeText (callNode 1) = b!"X" ∧
    PlainUse useEnv.table useEnv.table.functions (IsThere texts .function) b!"f" ∧
    PlainUse useEnv.table useEnv.table.constants (fun q => IsThere texts .const_ q ∨ IsThere texts .define q) b!"X" ∧
    IsThere texts .function b!"\\N\\f" ∧ IsThere texts .define b!"\\N\\X" ∧
    (∃ s, run env Store.Demo.root textHist = some s ∧
      ([Use.function (calledName callSrc.ctx (callNode 0)), .constant (constantName callSrc.ctx (callNode 1))].map fun u =>
          (definitionIn env s useEnv.table id 9 9 u).map (·.map (·.location))) =
        [some [onLine 52 82], some [onLine 67 80]]) := by
  refine ⟨textHist_ok, texts_current, ⟨_, _, rfl, by decide +kernel⟩, by decide +kernel, ?_, ?_, ?_, ?_, ?_⟩
  · refine ⟨by decide, by decide, by decide, by decide, by decide, by decide, by decide, by decide +kernel, fun _ hh => ?_⟩
    rw [there_iff] at hh
    exact absurd hh (by decide +kernel)
  · refine ⟨by decide, by decide, by decide, by decide, by decide, by decide, by decide, by decide +kernel, fun _ hh => ?_⟩
    rw [there_iff, there_iff] at hh
    exact absurd hh (by decide +kernel)
  · rw [there_iff]; decide +kernel
  · rw [there_iff]; decide +kernel
  · exact Store.Demo.observe _ _ (by decide +kernel)

end Demo

end Verif.Whole
