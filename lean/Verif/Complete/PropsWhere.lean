import Verif.Complete.WhereSpec

/-! C123: which completions are offered where. -/

namespace Verif.Complete
open Verif.Analyser (Node Tok PType)
open Verif.References (Spine Touched nodeSpineAt phraseType)
open Verif.Query (Access)
open Verif.Store (Sym)

variable {q : Ask} {g : Setting}

/-! ### Lemmas -/

theorem parentType_eq (ps : List Node) (i : Nat) : parentType ps i = (ps.map Decl.typ?)[i]?.join := by
  unfold parentType
  rw [List.getElem?_map]
  cases ps[i]? with
  | none => rfl
  | some p => cases p <;> rfl

/-- The phrases around the cursor are those that the handler sees. -/
theorem cursor_parents (hq : Sequence q) {types : List PType} (h : Cursor q types) (i : Nat) (ty : PType)
    (ht : types[i]? = some ty) : parentType q.parents i = some ty := by
  obtain ⟨a, b, hc⟩ := hq
  obtain ⟨t, ps, hs, ho, hp⟩ := h
  have e : q.parents = ps := by
    unfold Ask.parents
    rw [References.nodeSpineAt_eq hc hs ho]; rfl
  rw [e, parentType_eq]
  have hi : i < types.length := (List.getElem?_eq_some_iff.1 ht).1
  obtain ⟨r, hr⟩ := hp
  rw [← hr, List.getElem?_append_left (by simpa using hi), List.getElem?_map, ht]
  rfl

/-- What the handler sees are phrases around the cursor. -/
theorem parents_cursor (types : List PType) (hne : types ≠ [])
    (h : ∀ (i : Nat) (ty : PType), types[i]? = some ty → parentType q.parents i = some ty) : Cursor q types := by
  unfold Ask.parents at h
  cases hn : nodeSpineAt q.root q.offset with
  | none =>
    rw [hn] at h
    cases types with
    | nil => exact absurd rfl hne
    | cons ty tys =>
      have := h 0 ty rfl
      simp [parentType, phraseType] at this
  | some x =>
    obtain ⟨ps, t⟩ := x
    rw [hn] at h
    simp only [Option.map_some, Option.getD_some] at h
    have hm := List.mem_of_getLast? hn
    rw [List.mem_filter, References.mem_spines] at hm
    obtain ⟨⟨xs, e, hs⟩, ht⟩ := hm
    simp only [List.append_nil] at e
    subst e
    refine ⟨t, ps, hs, by simpa [References.touches, Touched] using ht, ?_⟩
    rw [List.prefix_iff_getElem?]
    intro i hi
    have hi' : i < types.length := by simpa using hi
    have := h i types[i] (List.getElem?_eq_getElem hi')
    rw [parentType_eq] at this
    rw [List.getElem_map]
    cases hx : (ps.map Decl.typ?)[i]? with
    | none => rw [hx] at this; cases this
    | some y => rw [hx] at this; simpa using this

theorem parent_phrase {root : Node} : ∀ {ps : List Node} {p : Node}, References.Up root p ps → ∀ (i : Nat), i < ps.length →
    ∃ ty, parentType ps i = some ty
  | [], _, _, i, hi => by simp at hi
  | .phr ty _ :: _, _, _, 0, _ => ⟨ty, rfl⟩
  | .tok t :: _, _, h, 0, _ => by simp [References.Up, Node.kids] at h
  | .err t :: _, _, h, 0, _ => by simp [References.Up, Node.kids] at h
  | _ :: qs, _, h, i + 1, hi => by
    obtain ⟨ty, e⟩ := parent_phrase h.2 i (by simpa using hi)
    exact ⟨ty, by simpa [parentType] using e⟩

/-- There is a phrase between two phrases. -/
theorem parent_between {i : Nat} {ty : PType} (h : parentType q.parents (i + 1) = some ty) :
    ∃ n, parentType q.parents i = some n := by
  have hl : i + 1 < q.parents.length := by
    rcases Nat.lt_or_ge (i + 1) q.parents.length with hl | hl
    · exact hl
    · unfold parentType at h
      rw [List.getElem?_eq_none hl] at h; cases h
  unfold Ask.parents at hl ⊢
  cases hn : nodeSpineAt q.root q.offset with
  | none => rw [hn] at hl; simp at hl
  | some x =>
    obtain ⟨ps, t⟩ := x
    rw [hn] at hl
    have hm := List.mem_of_getLast? hn
    rw [List.mem_filter, References.mem_spines] at hm
    obtain ⟨⟨xs, e, hs⟩, -⟩ := hm
    simp only [List.append_nil] at e
    subst e
    exact parent_phrase hs i (by simp only [Option.map_some, Option.getD_some] at hl; omega)

/-- The phrases from number `j` on, where `j` is 1 in the name of a member after `::` and 0 elsewhere. -/
theorem near_of {j : Nat} (hj : j = 0 ∨ j = 1 ∧ parentType q.parents 0 = some .scopedMemberName) (types : List PType)
    (hne : types ≠ []) (h : ∀ (i : Nat) (ty : PType), types[i]? = some ty → parentType q.parents (j + i) = some ty) :
    Near q types := by
  rcases hj with rfl | ⟨rfl, h0⟩
  · exact .inl (parents_cursor types hne fun i ty hi => by simpa using h i ty hi)
  · refine .inr (parents_cursor _ (by simp) fun i ty hi => ?_)
    match i with
    | 0 => simp at hi; rw [← hi]; exact h0
    | i + 1 => rw [Nat.add_comm]; exact h i ty (by simpa using hi)

theorem near1 {j : Nat} (hj : j = 0 ∨ j = 1 ∧ parentType q.parents 0 = some .scopedMemberName) {a : PType}
    (h0 : parentType q.parents j = some a) : Near q [a] :=
  near_of hj [a] (by simp) fun i ty h => by
    match i with
    | 0 => simp at h; rw [← h]; exact h0
    | _ + 1 => simp at h

theorem near2 {j : Nat} (hj : j = 0 ∨ j = 1 ∧ parentType q.parents 0 = some .scopedMemberName) {a b : PType}
    (h0 : parentType q.parents j = some a) (h1 : parentType q.parents (j + 1) = some b) : Near q [a, b] :=
  near_of hj [a, b] (by simp) fun i ty h => by
    match i with
    | 0 => simp at h; rw [← h]; exact h0
    | 1 => simp at h; rw [← h]; exact h1
    | _ + 2 => simp at h

theorem near3 {j : Nat} (hj : j = 0 ∨ j = 1 ∧ parentType q.parents 0 = some .scopedMemberName) {a c : PType}
    (h0 : parentType q.parents j = some a) (h2 : parentType q.parents (j + 2) = some c) : ∃ n, Near q [a, n, c] := by
  obtain ⟨n, h1⟩ := parent_between h2
  exact ⟨n, near_of hj [a, n, c] (by simp) fun i ty h => by
    match i with
    | 0 => simp at h; rw [← h]; exact h0
    | 1 => simp at h; rw [← h]; exact h1
    | 2 => simp at h; rw [← h]; exact h2
    | _ + 3 => simp at h⟩

theorem near4 {j : Nat} (hj : j = 0 ∨ j = 1 ∧ parentType q.parents 0 = some .scopedMemberName) {a c d : PType}
    (h0 : parentType q.parents j = some a) (h2 : parentType q.parents (j + 2) = some c)
    (h3 : parentType q.parents (j + 3) = some d) : ∃ n, Near q [a, n, c, d] := by
  obtain ⟨n, h1⟩ := parent_between h2
  exact ⟨n, near_of hj [a, n, c, d] (by simp) fun i ty h => by
    match i with
    | 0 => simp at h; rw [← h]; exact h0
    | 1 => simp at h; rw [← h]; exact h1
    | 2 => simp at h; rw [← h]; exact h2
    | 3 => simp at h; rw [← h]; exact h3
    | _ + 4 => simp at h⟩

/-- The two `switch` statements. -/
theorem choose_cases {x : Choice} (h : choose q = some x) : ∃ j, (j = 0 ∨ j = 1 ∧ parentType q.parents 0 = some .scopedMemberName) ∧
    ∃ y, byPhrase q q.parents (j + 1) (parentType q.parents j) = some y ∧ bySymbol q.found y = x := by
  unfold choose at h
  simp only [Option.map_eq_some_iff] at h
  obtain ⟨y, h1, h2⟩ := h
  split at h1
  · next e => exact ⟨1, .inr ⟨rfl, e⟩, y, h1, h2⟩
  · exact ⟨0, .inl rfl, y, h1, h2⟩

/-- Which phrases lead to which list. -/
def Reason (ps : List Node) (i : Nat) (parent : Option PType) : Choice → Prop
  | .nothing => True
  | .vars => parent = some .simpleVariable ∨ parent = some encapsulatedVariableList
  | .names _ => parent = some .namespaceName ∧ parentType ps (i + 1) = some .constantAccessExpression
  | .classes _ => parent = some .namespaceName ∧ parentType ps (i + 1) = some .classBaseClause
  | .interfaces _ => parent = some .namespaceName ∧ (parentType ps (i + 1) = some Decl.interfaceBaseClause ∨
      parentType ps (i + 1) = some .qualifiedNameList ∧ parentType ps (i + 2) = some .classInterfaceClause)
  | .traits _ => parent = some .namespaceName ∧ parentType ps (i + 1) = some .qualifiedNameList ∧
      parentType ps (i + 2) = some .traitUseClause
  | .types _ => False
  | .static _ => parent = some .errorScopedAccessExpression ∨ parent = some .classConstantAccessExpression ∨
      parent = some .scopedCallExpression ∨ parent = some .scopedPropertyAccessExpression ∨
      ((parent = some .simpleVariable ∨ parent = some encapsulatedVariableList) ∧ parentType ps i = some .scopedMemberName) ∨
      parent = some .identifier ∧ (parentType ps (i + 1) = some .classConstantAccessExpression ∨
        parentType ps (i + 1) = some .scopedCallExpression)
  | .members _ => parent = some .propertyAccessExpression ∨ parent = some .memberName ∧
      (parentType ps i = some .propertyAccessExpression ∨ parentType ps i = some .methodCallExpression)

theorem scopedIf_cases (s : Option Access) : scopedIf s = .nothing ∨ ∃ a, scopedIf s = .static a := by
  cases s <;> simp [scopedIf]

theorem membersIf_cases (s : Option Access) : membersIf s = .nothing ∨ ∃ a, membersIf s = .members a := by
  cases s <;> simp [membersIf]

theorem onConstant_cases (s : Option CSym) : onConstant s = .nothing ∨ ∃ a, onConstant s = .static a := by
  unfold onConstant; split
  · exact scopedIf_cases _
  · exact .inl rfl

theorem onScopedCall_cases (s : Option CSym) : onScopedCall s = .nothing ∨ ∃ a, onScopedCall s = .static a := by
  unfold onScopedCall; split
  · exact scopedIf_cases _
  · exact .inl rfl

theorem onScopedProperty_cases (s : Option CSym) : onScopedProperty s = .nothing ∨ ∃ a, onScopedProperty s = .static a := by
  unfold onScopedProperty; split
  · exact .inr ⟨_, rfl⟩
  · exact .inl rfl

theorem onProperty_cases (s : Option CSym) : onProperty s = .nothing ∨ ∃ a, onProperty s = .members a := by
  unfold onProperty; split
  · exact membersIf_cases _
  · exact .inl rfl

theorem onMethod_cases (s : Option CSym) : onMethod s = .nothing ∨ ∃ a, onMethod s = .members a := by
  unfold onMethod; split
  · exact membersIf_cases _
  · exact .inl rfl

theorem onClass_cases (s : Option CSym) : onClass s = .nothing ∨ ∃ a, onClass s = .static a := by
  unfold onClass; split
  · exact .inr ⟨_, rfl⟩
  · exact .inl rfl

theorem reason {ps : List Node} {i : Nat} {parent : Option PType} {y : Choice} (h : byPhrase q ps i parent = some y) :
    Reason ps i parent y := by
  unfold byPhrase at h
  split at h
  · split at h
    · next e =>
      rcases onScopedProperty_cases q.found with e' | ⟨a, e'⟩ <;> rw [e'] at h <;> cases h <;> simp [Reason, e]
    · cases h; simp [Reason]
  · split at h
    · next e =>
      rcases onScopedProperty_cases q.found with e' | ⟨a, e'⟩ <;> rw [e'] at h <;> cases h <;> simp [Reason, e]
    · cases h; simp [Reason]
  · split at h
    · next e => cases h; simp [Reason, e]
    · next e => cases h; simp [Reason, e]
    · next e => cases h; simp [Reason, e]
    · next e =>
      split at h
      · next e' => cases h; simp [Reason, e, e']
      · next e' => cases h; simp [Reason, e, e']
      · cases h; trivial
    · cases h; trivial
  · rcases onConstant_cases q.found with e' | ⟨a, e'⟩ <;> rw [e'] at h <;> cases h <;> simp [Reason]
  · rcases onConstant_cases q.found with e' | ⟨a, e'⟩ <;> rw [e'] at h <;> cases h <;> simp [Reason]
  · rcases onScopedCall_cases q.found with e' | ⟨a, e'⟩ <;> rw [e'] at h <;> cases h <;> simp [Reason]
  · rcases onScopedProperty_cases q.found with e' | ⟨a, e'⟩ <;> rw [e'] at h <;> cases h <;> simp [Reason]
  · split at h
    · next e =>
      simp only [Option.map_eq_some_iff] at h
      obtain ⟨t, -, rfl⟩ := h
      rcases onClass_cases (q.foundAt t.offset) with e' | ⟨a, e'⟩ <;> rw [e'] <;> simp [Reason, e]
    · next e =>
      simp only [Option.map_eq_some_iff] at h
      obtain ⟨t, -, rfl⟩ := h
      rcases onClass_cases (q.foundAt t.offset) with e' | ⟨a, e'⟩ <;> rw [e'] <;> simp [Reason, e]
    · cases h; trivial
  · rcases membersIf_cases q.before with e' | ⟨a, e'⟩ <;> rw [e'] at h <;> cases h <;> simp [Reason]
  · split at h
    · next e => rcases onProperty_cases q.found with e' | ⟨a, e'⟩ <;> rw [e'] at h <;> cases h <;> simp [Reason, e]
    · next e => rcases onMethod_cases q.found with e' | ⟨a, e'⟩ <;> rw [e'] at h <;> cases h <;> simp [Reason, e]
    · cases h; trivial
  · cases h; trivial

/-- Without the name of a class at the cursor the first `switch` decides. -/
theorem bySymbol_other {f : Option CSym} (h : ¬ ClassName f) (y : Choice) : bySymbol f y = y := by
  unfold bySymbol
  split
  · exact absurd trivial h
  · exact absurd trivial h
  · exact absurd trivial h
  · rfl

/-- With it, the second one. -/
theorem bySymbol_class {f : Option CSym} (h : ClassName f) (y : Choice) :
    (∃ w, bySymbol f y = .classes w ∧ f = some (.designator w)) ∨
    ∃ w, bySymbol f y = .types w ∧ ((∃ a, f = some (.classAccess w a)) ∨ f = some (.typeDeclaration w)) := by
  unfold ClassName at h
  split at h
  · exact .inl ⟨_, rfl, rfl⟩
  · exact .inr ⟨_, rfl, .inl ⟨_, rfl⟩⟩
  · exact .inr ⟨_, rfl, .inr rfl⟩
  · exact h.elim

theorem only_step' {P : Sym → Prop} {α} {search : Nat → Option (Store.Found α × Bool)} {con : α → Sym}
    {insert : α → Bytes → Bytes} {offer : α → Option Imports.Offer} {l l' : CList} (hl : Only P l) (hP : ∀ a, P (con a))
    (he : searchAll search (fun y => itemOf (insert y) (con y) (offer y)) l = some l') : Only P l' := by
  obtain ⟨f, b, h1, h2, -⟩ := searchAll_some con insert offer l l' he
  intro y hy
  rw [h2, List.mem_append, List.mem_map] at hy
  rcases hy with hy | ⟨c, hc, rfl⟩
  · exact hl y hy
  · exact hP c

theorem only_namespaces' {P : Sym → Prop} {env : Store.Env} {s : Store.Store} {word : Bytes} {l l' : CList} (hl : Only P l)
    (he : addNamespaces env s word l = some l') : Only P l' := by
  unfold addNamespaces at he
  split at he
  · simp only [Option.map_eq_some_iff] at he
    obtain ⟨⟨names, b⟩, -, rfl⟩ := he
    intro y hy
    refine hl y ?_
    simpa [CList.symbols, List.filterMap_map, Function.comp_def, Item.symbol] using hy
  · cases he; exact hl

section
variable {env : Store.Env} {s : Store.Store} {tbl : Imports.Table} {word : Bytes} {limit : Option Int} {l : CList}

theorem only_empty (P : Sym → Prop) : Only P CList.empty := by simp [Only, CList.symbols, CList.empty]

theorem classes_only (h : classCompletion env s tbl word limit = some l) : Only IsClass l :=
  only_step' (con := .cla) (insert := fun _ => id) (only_empty _) (fun _ => trivial) h

theorem interfaces_only (h : interfaceCompletion env s tbl word limit = some l) : Only IsInterface l :=
  only_step' (con := .int) (insert := fun _ => id) (only_empty _) (fun _ => trivial) h

theorem traits_only (h : traitCompletion env s tbl word limit = some l) : Only IsTrait l :=
  only_step' (con := .tra) (insert := fun _ => id) (only_empty _) (fun _ => trivial) h

theorem types_only (h : typeCompletion env s tbl word limit = some l) : Only (fun y => IsClass y ∨ IsInterface y) l := by
  simp only [typeCompletion, Option.bind_eq_bind, Option.bind_eq_some_iff] at h
  obtain ⟨l1, a1, l2, a2, a3⟩ := h
  exact only_namespaces' (only_step' (con := .int) (insert := fun _ => id)
    (only_step' (con := .cla) (insert := fun _ => id) (only_empty _) (fun _ => .inl trivial) a1) (fun _ => .inr trivial) a2) a3

theorem names_only (h : nameCompletion env s tbl word limit = some l) :
    Only (fun y => IsClass y ∨ IsInterface y ∨ IsValue y) l := by
  simp only [nameCompletion, Option.bind_eq_bind, Option.bind_eq_some_iff] at h
  obtain ⟨l1, a1, l2, a2, l3, a3, l4, a4, l5, a5, a6⟩ := h
  have h1 : Only (fun y => IsClass y ∨ IsInterface y ∨ IsValue y) l1 :=
    only_step' (con := .cla) (insert := fun _ => id) (only_empty _) (fun _ => .inl trivial) a1
  have h2 := only_step' (con := .int) (insert := fun _ => id) h1 (fun _ => .inr (.inl trivial)) a2
  have h3 := only_step' (con := .con) (insert := fun _ => id) h2 (fun _ => .inr (.inr trivial)) a3
  have h4 := only_step' (con := .def_) (insert := fun _ => id) h3 (fun _ => .inr (.inr trivial)) a4
  have h5 := only_step' (con := .fn) (insert := fun c => callText (!c.params.isEmpty)) h4 (fun _ => .inr (.inr trivial)) a5
  exact only_namespaces' h5 a6

end

/-! ### C123: what is offered where -/

/-- C123: the lists of names by the place of the cursor. What a list of names offers are
* traits, in the list of a `use` in a class,
* interfaces, after `implements` or `extends` of an interface,
* classes and interfaces with functions and constants, at a name in an expression,
* classes only, after `new` (or after the `extends` of a class, if the analysis has not recognised the name),
* classes and interfaces, at other names of classes. -/
theorem C123_names {l : CList} (h : completion g q = some (.names l)) :
    (¬ ClassName q.found ∧ Only IsTrait l ∧ ∃ n, Near q [.namespaceName, n, .qualifiedNameList, .traitUseClause]) ∨
    (¬ ClassName q.found ∧ Only IsInterface l ∧ ∃ n, Near q [.namespaceName, n, .qualifiedNameList, .classInterfaceClause] ∨
      Near q [.namespaceName, n, Decl.interfaceBaseClause]) ∨
    (¬ ClassName q.found ∧ Only (fun y => IsClass y ∨ IsInterface y ∨ IsValue y) l ∧
      ∃ n, Near q [.namespaceName, n, .constantAccessExpression]) ∨
    (¬ ClassName q.found ∧ Only IsClass l ∧ ∃ n, Near q [.namespaceName, n, .classBaseClause]) ∨
    (Only IsClass l ∧ ∃ w, q.found = some (.designator w)) ∨
    (Only (fun y => IsClass y ∨ IsInterface y) l ∧
      ∃ w, (∃ a, q.found = some (.classAccess w a)) ∨ q.found = some (.typeDeclaration w)) := by
  unfold completion at h
  simp only [Option.bind_eq_some_iff] at h
  obtain ⟨x, h1, h2⟩ := h
  obtain ⟨j, hj, y, h3, h4⟩ := choose_cases h1
  by_cases hn : ClassName q.found
  · rcases bySymbol_class hn y with ⟨w, e, hf⟩ | ⟨w, e, hf⟩
    · rw [h4] at e; subst e
      simp only [list, Option.map_eq_some_iff] at h2
      obtain ⟨l', h5, h6⟩ := h2
      cases h6
      exact .inr (.inr (.inr (.inr (.inl ⟨classes_only h5, w, hf⟩))))
    · rw [h4] at e; subst e
      simp only [list, Option.map_eq_some_iff] at h2
      obtain ⟨l', h5, h6⟩ := h2
      cases h6
      exact .inr (.inr (.inr (.inr (.inr ⟨types_only h5, w, hf⟩))))
  · rw [bySymbol_other hn] at h4
    subst h4
    have hr := reason h3
    cases y with
    | nothing => simp [list] at h2
    | vars => simp [list] at h2
    | names w =>
      simp only [list, Option.map_eq_some_iff] at h2
      obtain ⟨l', h5, h6⟩ := h2
      cases h6
      exact .inr (.inr (.inl ⟨hn, names_only h5, near3 hj hr.1 hr.2⟩))
    | classes w =>
      simp only [list, Option.map_eq_some_iff] at h2
      obtain ⟨l', h5, h6⟩ := h2
      cases h6
      exact .inr (.inr (.inr (.inl ⟨hn, classes_only h5, near3 hj hr.1 hr.2⟩)))
    | interfaces w =>
      simp only [list, Option.map_eq_some_iff] at h2
      obtain ⟨l', h5, h6⟩ := h2
      cases h6
      refine .inr (.inl ⟨hn, interfaces_only h5, ?_⟩)
      rcases hr.2 with e | ⟨e, e'⟩
      · obtain ⟨n, hn⟩ := near3 hj hr.1 e
        exact ⟨n, .inr hn⟩
      · obtain ⟨n, hn⟩ := near4 hj hr.1 e e'
        exact ⟨n, .inl hn⟩
    | traits w =>
      simp only [list, Option.map_eq_some_iff] at h2
      obtain ⟨l', h5, h6⟩ := h2
      cases h6
      exact .inl ⟨hn, traits_only h5, near4 hj hr.1 hr.2.1 hr.2.2⟩
    | types w => exact hr.elim
    | static a => simp [list] at h2
    | members a => simp [list] at h2

/-- C123: variables are offered at variables and in the text of strings with variables only. -/
theorem C123_variables {l : List Bytes} (h : completion g q = some (.vars l)) : ¬ ClassName q.found ∧
    l = Analyser.variableCompletion g.ctx q.root g.pos q.word ∧ (Near q [.simpleVariable] ∨ Near q [encapsulatedVariableList]) := by
  unfold completion at h
  simp only [Option.bind_eq_some_iff] at h
  obtain ⟨x, h1, h2⟩ := h
  obtain ⟨j, hj, y, h3, h4⟩ := choose_cases h1
  by_cases hn : ClassName q.found
  · rcases bySymbol_class hn y with ⟨w, e, hf⟩ | ⟨w, e, hf⟩ <;> rw [h4] at e <;> subst e <;> simp [list] at h2
  · rw [bySymbol_other hn] at h4
    subst h4
    have hr := reason h3
    cases y with
    | vars =>
      simp only [list, Option.some.injEq, Shown.vars.injEq] at h2
      refine ⟨hn, h2.symm, ?_⟩
      rcases hr with e | e
      · exact .inl (near1 hj e)
      · exact .inr (near1 hj e)
    | _ => simp [list] at h2

/-- C123: members are offered in accesses to members only. -/
theorem C123_members {l : List MItem} (h : completion g q = some (.members l)) : ¬ ClassName q.found ∧
    ∃ ty ∈ ([.errorScopedAccessExpression, .classConstantAccessExpression, .scopedCallExpression,
        .scopedPropertyAccessExpression, .scopedMemberName, .propertyAccessExpression, .methodCallExpression] : List PType),
      Near q [ty] ∨ ∃ a, Near q [a, ty] ∨ ∃ b, Near q [a, b, ty] := by
  unfold completion at h
  simp only [Option.bind_eq_some_iff] at h
  obtain ⟨x, h1, h2⟩ := h
  obtain ⟨j, hj, y, h3, h4⟩ := choose_cases h1
  by_cases hn : ClassName q.found
  · rcases bySymbol_class hn y with ⟨w, e, hf⟩ | ⟨w, e, hf⟩ <;> rw [h4] at e <;> subst e <;> simp [list] at h2
  · rw [bySymbol_other hn] at h4
    subst h4
    have hr := reason h3
    refine ⟨hn, ?_⟩
    cases y with
    | static a =>
      rcases hr with e | e | e | e | ⟨e | e, e'⟩ | ⟨e, e' | e'⟩
      · exact ⟨_, by simp, .inl (near1 hj e)⟩
      · exact ⟨_, by simp, .inl (near1 hj e)⟩
      · exact ⟨_, by simp, .inl (near1 hj e)⟩
      · exact ⟨_, by simp, .inl (near1 hj e)⟩
      · exact ⟨.scopedMemberName, by simp, .inr ⟨_, .inl (near2 hj e e')⟩⟩
      · exact ⟨.scopedMemberName, by simp, .inr ⟨_, .inl (near2 hj e e')⟩⟩
      · obtain ⟨n, hh⟩ := near3 hj e e'
        exact ⟨.classConstantAccessExpression, by simp, .inr ⟨_, .inr ⟨n, hh⟩⟩⟩
      · obtain ⟨n, hh⟩ := near3 hj e e'
        exact ⟨.scopedCallExpression, by simp, .inr ⟨_, .inr ⟨n, hh⟩⟩⟩
    | members a =>
      rcases hr with e | ⟨e, e' | e'⟩
      · exact ⟨_, by simp, .inl (near1 hj e)⟩
      · exact ⟨.propertyAccessExpression, by simp, .inr ⟨_, .inl (near2 hj e e')⟩⟩
      · exact ⟨.methodCallExpression, by simp, .inr ⟨_, .inl (near2 hj e e')⟩⟩
    | _ => simp [list] at h2

/-! ### C124: at these places it is offered -/

theorem at0 (hq : Sequence q) {a : PType} {r : List PType} (h : Cursor q (a :: r)) : parentType q.parents 0 = some a :=
  cursor_parents hq h 0 a rfl

theorem at1 (hq : Sequence q) {a b : PType} {r : List PType} (h : Cursor q (a :: b :: r)) : parentType q.parents 1 = some b :=
  cursor_parents hq h 1 b rfl

theorem at2 (hq : Sequence q) {a b c : PType} {r : List PType} (h : Cursor q (a :: b :: c :: r)) :
    parentType q.parents 2 = some c := cursor_parents hq h 2 c rfl

theorem at3 (hq : Sequence q) {a b c d : PType} {r : List PType} (h : Cursor q (a :: b :: c :: d :: r)) :
    parentType q.parents 3 = some d := cursor_parents hq h 3 d rfl

/-- C124: at a name in an expression what can stand in an expression is offered. -/
theorem C124_expression (hq : Sequence q) (hn : ¬ ClassName q.found) (n : PType)
    (h : Cursor q [.namespaceName, n, .constantAccessExpression]) :
    completion g q = (nameCompletion g.env g.store g.table q.word baseLimit).map .names := by
  simp [completion, choose, at0 hq h, byPhrase, at2 hq h, bySymbol_other hn, list]

/-- C124: after `implements` and after `extends` of an interface, interfaces. -/
theorem C124_interfaces (hq : Sequence q) (hn : ¬ ClassName q.found) (n : PType)
    (h : Cursor q [.namespaceName, n, .qualifiedNameList, .classInterfaceClause] ∨
      Cursor q [.namespaceName, n, Decl.interfaceBaseClause]) :
    completion g q = (interfaceCompletion g.env g.store g.table q.word baseLimit).map .names := by
  rcases h with h | h
  · simp [completion, choose, at0 hq h, byPhrase, at2 hq h, at3 hq h, bySymbol_other hn, list]
  · simp [completion, choose, at0 hq h, byPhrase, at2 hq h, bySymbol_other hn, list]

/-- C124: after `use` in a class, traits. -/
theorem C124_traits (hq : Sequence q) (hn : ¬ ClassName q.found) (n : PType)
    (h : Cursor q [.namespaceName, n, .qualifiedNameList, .traitUseClause]) :
    completion g q = (traitCompletion g.env g.store g.table q.word baseLimit).map .names := by
  simp [completion, choose, at0 hq h, byPhrase, at2 hq h, at3 hq h, bySymbol_other hn, list]

/-- C124: at a variable that is not a static property, variables. -/
theorem C124_variables (hq : Sequence q) (hn : ¬ ClassName q.found) (n : PType) (hs : n ≠ .scopedMemberName)
    (h : Cursor q [.simpleVariable, n]) :
    completion g q = some (.vars (Analyser.variableCompletion g.ctx q.root g.pos q.word)) := by
  simp [completion, choose, at0 hq h, byPhrase, at1 hq h, bySymbol_other hn, list, hs]

theorem dollar_iff (hq : Sequence q) : isDollar q = true ↔ AtDollar q := by
  obtain ⟨a, b, hc⟩ := hq
  constructor
  · intro h
    unfold isDollar at h
    cases e : nodeSpineAt q.root q.offset with
    | none => rw [e] at h; simp at h
    | some x =>
      have hm := List.mem_filter.1 (List.mem_of_getLast? (show _ = some (x.1, x.2) from e))
      obtain ⟨ps, hps, hs⟩ := (References.mem_spines q.root [] x.1 x.2).1 hm.1
      refine ⟨x.2, ps, hs, by simpa [References.touches, Touched] using hm.2, ?_⟩
      rw [e] at h
      simp only [Option.map_some] at h
      split at h
      · next e => exact .inl (Option.some.inj e)
      · next e => exact .inr (Option.some.inj e)
      · cases h
  · rintro ⟨t, ps, hs, ht, h⟩
    unfold isDollar
    rw [References.nodeSpineAt_eq hc hs ht]
    rcases h with h | h <;> simp [h]

theorem dollar_eq (hq : Sequence q) {only : Bool} (h : only = true ↔ AtDollar q) : isDollar q = only := by
  have := (dollar_iff hq).trans h.symm
  cases only <;> cases e : isDollar q <;> simp_all

/-- C124: after `Name::$`, the members of what the access has before `::`, only properties (`only`) if the cursor is at
`$` or a variable. -/
theorem C124_static (hq : Sequence q) (only : Bool) (ho : only = true ↔ AtDollar q) (a : Access)
    (hf : q.found = some (.scopedProperty a))
    (h : Cursor q [.simpleVariable, .scopedMemberName] ∨ Cursor q [.scopedPropertyAccessExpression]) :
    completion g q = (scopedCompletion g.world g.keyOf g.classes g.interfaces g.hasParams g.isMatch q.word only a
      g.currentClass).map .members := by
  rw [← dollar_eq hq ho]
  rcases h with h | h
  · simp [completion, choose, at0 hq h, byPhrase, at1 hq h, bySymbol, hf, onScopedProperty, list]
  · simp [completion, choose, at0 hq h, byPhrase, bySymbol, hf, onScopedProperty, list]

/-- C124: directly behind `Name::`, the members of what is before it, only properties at `$`. -/
theorem C124_colons (hq : Sequence q) (only : Bool) (ho : only = true ↔ AtDollar q) (a : Access)
    (h : q.found = some (.scopedConstant (some a)) ∧
        (Cursor q [.errorScopedAccessExpression] ∨ Cursor q [.classConstantAccessExpression]) ∨
      q.found = some (.scopedMethod (some a)) ∧ Cursor q [.scopedCallExpression]) :
    completion g q = (scopedCompletion g.world g.keyOf g.classes g.interfaces g.hasParams g.isMatch q.word only a
      g.currentClass).map .members := by
  rw [← dollar_eq hq ho]
  rcases h with ⟨hf, h | h⟩ | ⟨hf, h⟩
  · simp [completion, choose, at0 hq h, byPhrase, bySymbol, hf, onConstant, scopedIf, list]
  · simp [completion, choose, at0 hq h, byPhrase, bySymbol, hf, onConstant, scopedIf, list]
  · simp [completion, choose, at0 hq h, byPhrase, bySymbol, hf, onScopedCall, scopedIf, list]

/-- C124: with a part of a name behind `Name::`, the members of the class named at the beginning of the access. -/
theorem C124_identifier (hq : Sequence q) (only : Bool) (ho : only = true ↔ AtDollar q) (hn : ¬ ClassName q.found)
    (n ty : PType)
    (hty : ty = .classConstantAccessExpression ∨ ty = .scopedCallExpression) (t : Tok) (ps : List Node) (p : Node)
    (hs : Spine q.root t ps) (ht : Touched q.offset t) (hp : ([.identifier, n, ty] : List PType).map some <+: ps.map Decl.typ?)
    (h2 : ps[2]? = some p) (first : Tok) (hf : Analyser.firstToken p = some first) (name : Bytes) (own : Access)
    (hc : q.foundAt first.offset = some (.classAccess name own)) :
    completion g q = (scopedCompletion g.world g.keyOf g.classes g.interfaces g.hasParams g.isMatch q.word only own
      g.currentClass).map .members := by
  rw [← dollar_eq hq ho]
  have h : Cursor q [.identifier, n, ty] := ⟨t, ps, hs, ht, hp⟩
  have e : q.parents = ps := by
    obtain ⟨a, b, hch⟩ := hq
    unfold Ask.parents
    rw [References.nodeSpineAt_eq hch hs ht]; rfl
  have h2' : q.parents[2]? = some p := by rw [e]; exact h2
  rcases hty with rfl | rfl
  · simp [completion, choose, at0 hq h, byPhrase, at2 hq h, bySymbol_other hn, list, h2', hf, hc, onClass]
  · simp [completion, choose, at0 hq h, byPhrase, at2 hq h, bySymbol_other hn, list, h2', hf, hc, onClass]

/-- C124: behind `->`, the members of what is before it: without a name, of the last expression before the cursor; with a
part of a name, of the scope of the access. -/
theorem C124_arrow (hq : Sequence q) (hn : ¬ ClassName q.found) (a : Access)
    (h : q.before = some a ∧ Cursor q [.propertyAccessExpression] ∨
      q.found = some (.property (some a)) ∧ Cursor q [.memberName, .propertyAccessExpression] ∨
      q.found = some (.method (some a)) ∧ Cursor q [.memberName, .methodCallExpression]) :
    completion g q = (memberCompletion g.world g.keyOf g.classes g.interfaces g.hasParams g.isMatch q.word a
      g.currentClass).map .members := by
  rcases h with ⟨hb, h⟩ | ⟨hf, h⟩ | ⟨hf, h⟩
  · simp [completion, choose, at0 hq h, byPhrase, bySymbol_other hn, hb, membersIf, list]
  · simp [completion, choose, at0 hq h, at1 hq h, byPhrase, bySymbol, hf, onProperty, membersIf, list]
  · simp [completion, choose, at0 hq h, at1 hq h, byPhrase, bySymbol, hf, onMethod, membersIf, list]

/-- The parents at the cursor have first tokens; otherwise the request may fail. -/
def Filled (q : Ask) : Prop := ∀ p ∈ q.parents, ∃ t, Analyser.firstToken p = some t

/-- There is always a choice. -/
theorem chosen (hf : Filled q) (i : Nat) (parent : Option PType) : ∃ y, byPhrase q q.parents i parent = some y := by
  have key : ∀ k, ∀ ty, parentType q.parents k = some ty → ∃ t, q.parents[k]?.bind Analyser.firstToken = some t := by
    intro k ty h
    unfold parentType at h
    cases e : q.parents[k]? with
    | none => rw [e] at h; cases h
    | some p => exact hf p (List.mem_of_getElem? e)
  unfold byPhrase
  split
  · split <;> exact ⟨_, rfl⟩
  · split <;> exact ⟨_, rfl⟩
  · split
    · exact ⟨_, rfl⟩
    · exact ⟨_, rfl⟩
    · exact ⟨_, rfl⟩
    · split <;> exact ⟨_, rfl⟩
    · exact ⟨_, rfl⟩
  · exact ⟨_, rfl⟩
  · exact ⟨_, rfl⟩
  · exact ⟨_, rfl⟩
  · exact ⟨_, rfl⟩
  · split
    · next e => obtain ⟨t, ht⟩ := key _ _ e; rw [ht]; exact ⟨_, rfl⟩
    · next e => obtain ⟨t, ht⟩ := key _ _ e; rw [ht]; exact ⟨_, rfl⟩
    · exact ⟨_, rfl⟩
  · exact ⟨_, rfl⟩
  · split <;> exact ⟨_, rfl⟩
  · exact ⟨_, rfl⟩

/-- C124: after `new`, classes that fit the name written there; as a type, before `::`, after `extends` of a class, after
`instanceof` and in a `catch`, classes and interfaces. -/
theorem C124_class (hf : Filled q) (name : Bytes) :
    (q.found = some (.designator name) →
      completion g q = (classCompletion g.env g.store g.table name baseLimit).map .names) ∧
    ((∃ a, q.found = some (.classAccess name a)) ∨ q.found = some (.typeDeclaration name) →
      completion g q = (typeCompletion g.env g.store g.table name baseLimit).map .names) := by
  obtain ⟨y1, h1⟩ := chosen hf 1 (parentType q.parents 0)
  obtain ⟨y2, h2⟩ := chosen hf 2 (parentType q.parents 1)
  constructor
  · intro h
    unfold completion choose
    simp only [h1, h2]
    split <;> simp [h, bySymbol, list]
  · rintro (⟨a, h⟩ | h)
    · unfold completion choose
      simp only [h1, h2]
      split <;> simp [h, bySymbol, list]
    · unfold completion choose
      simp only [h1, h2]
      split <;> simp [h, bySymbol, list]

/-- C124 needs the places that are named: at a name in other phrases, like the name of a call with its arguments or a
name in a `use` of a namespace, nothing is offered. -/
theorem C124_needs_place (hq : Sequence q) (hn : ¬ ClassName q.found) (n p : PType)
    (hp : p ∉ ([.constantAccessExpression, .classBaseClause, Decl.interfaceBaseClause, .qualifiedNameList] : List PType))
    (h : Cursor q [.namespaceName, n, p]) : completion g q = some .nothing := by
  simp only [List.mem_cons, List.not_mem_nil, or_false, not_or] at hp
  unfold completion choose
  simp only [at0 hq h, reduceCtorEq, if_false, Option.some.injEq, byPhrase, at2 hq h]
  split
  · next e => exact absurd (Option.some.inj e) hp.1
  · next e => exact absurd (Option.some.inj e) hp.2.1
  · next e => exact absurd (Option.some.inj e) hp.2.2.1
  · next e => exact absurd (Option.some.inj e) hp.2.2.2
  · simp [bySymbol_other hn, list]

/-! ### examples -/

namespace Demo
open Verif.Analyser.Src

/-- `class B extends P implements I{use T;}Na;$v;Foo::$s;Foo::c;$v->p;f();` -/
def places : Analyser.Src := doc [
  .p .classDeclaration [
    .p .classDeclarationHeader [o b!"class", sp, nm b!"B", .p .classBaseClause [o b!" extends ", qn b!"P"],
      .p .classInterfaceClause [o b!" implements ", .p .qualifiedNameList [qn b!"I"]]],
    .p .classDeclarationBody [o b!"{", .p (.transparent 1) [.p .traitUseClause [o b!"use ", .p .qualifiedNameList [qn b!"T"],
      o b!";"]], o b!"}"]],
  stmt (.p .constantAccessExpression [qn b!"Na"]),
  stmt (var b!"$v"),
  stmt (.p .scopedPropertyAccessExpression [qn b!"Foo", o b!"::", .p .scopedMemberName [var b!"$s"]]),
  stmt (.p .classConstantAccessExpression [qn b!"Foo", o b!"::", .p .scopedMemberName [.p .identifier [nm b!"c"]]]),
  stmt (.p .propertyAccessExpression [var b!"$v", .t .arrow b!"->", .p .memberName [nm b!"p"]]),
  stmt (call b!"f" [])]

example : places.text = b!"<?php\nclass B extends P implements I{use T;}Na;$v;Foo::$s;Foo::c;$v->p;f();" := by decide +kernel

/-- A request in that text. -/
def ask (offset : Nat) (word : Bytes) (found : Option CSym) : Ask where
  root := places.root
  offset := offset
  word := word
  found := found
  foundAt := fun o => if o = 58 then some (.classAccess b!"Foo" ⟨b!"Foo", [b!"\\Foo"]⟩) else none
  before := some ⟨b!"$v", [b!"\\V"]⟩

theorem sequence (offset : Nat) (word : Bytes) (found : Option CSym) : Sequence (ask offset word found) :=
  ⟨0, places.text.length, by
    have := Analyser.Src.chain places 0 places.text.length [] (by simp [Analyser.Chain])
    rwa [List.append_nil] at this⟩

theorem cursor_of {q : Ask} {types : List PType} (hne : types ≠ [])
    (h : (List.range types.length).all (fun i => parentType q.parents i == types[i]?) = true) : Cursor q types :=
  parents_cursor types hne fun i ty hi => by
    rw [List.all_eq_true] at h
    have := h i (List.mem_range.2 (List.getElem?_eq_some_iff.1 hi).1)
    rw [beq_iff_eq] at this
    rw [this, hi]

/-- The places of C123 and C124 in that text. -/
example : Cursor (ask 42 b!"T" none) [.namespaceName, .qualifiedName, .qualifiedNameList, .traitUseClause] ∧
    Cursor (ask 36 b!"I" none) [.namespaceName, .qualifiedName, .qualifiedNameList, .classInterfaceClause] ∧
    Cursor (ask 23 b!"P" none) [.namespaceName, .qualifiedName, .classBaseClause] ∧
    Cursor (ask 46 b!"Na" none) [.namespaceName, .qualifiedName, .constantAccessExpression] ∧
    Cursor (ask 49 b!"v" none) [.simpleVariable, .transparent 0] ∧
    Cursor (ask 57 b!"s" none) [.simpleVariable, .scopedMemberName] ∧
    Cursor (ask 64 b!"c" none) [.identifier, .scopedMemberName, .classConstantAccessExpression] ∧
    Cursor (ask 63 b!"" none) [.classConstantAccessExpression] ∧
    Cursor (ask 69 b!"" none) [.propertyAccessExpression] ∧
    Cursor (ask 70 b!"p" none) [.memberName, .propertyAccessExpression] ∧
    Cursor (ask 72 b!"f" none) [.namespaceName, .qualifiedName, .functionCallExpression] ∧
    AtDollar (ask 57 b!"s" none) ∧ ¬ AtDollar (ask 64 b!"c" none) := by
  refine ⟨?_, ?_, ?_, ?_, ?_, ?_, ?_, ?_, ?_, ?_, ?_, (dollar_iff (sequence _ _ _)).1 (by decide +kernel),
    fun h => absurd ((dollar_iff (sequence _ _ _)).2 h) (by decide +kernel)⟩ <;> exact cursor_of (by simp) (by decide +kernel)

/-- The choices there, with the symbols that the analysis finds. -/
example : choose (ask 42 b!"T" (some .other)) = some (.traits b!"T") ∧
    choose (ask 36 b!"I" (some .other)) = some (.interfaces b!"I") ∧
    choose (ask 23 b!"P" (some (.classAccess b!"P" ⟨b!"P", [b!"\\P"]⟩))) = some (.types b!"P") ∧
    choose (ask 46 b!"Na" (some .other)) = some (.names b!"Na") ∧
    choose (ask 49 b!"v" (some .other)) = some .vars ∧
    choose (ask 57 b!"s" (some (.scopedProperty ⟨b!"Foo", [b!"\\Foo"]⟩))) = some (.static ⟨b!"Foo", [b!"\\Foo"]⟩) ∧
    choose (ask 64 b!"c" (some (.scopedConstant none))) = some (.static ⟨b!"Foo", [b!"\\Foo"]⟩) ∧
    choose (ask 69 b!"" (some .other)) = some (.members ⟨b!"$v", [b!"\\V"]⟩) ∧
    choose (ask 72 b!"f" (some .other)) = some .nothing := by decide +kernel

/-- C124_class: all parents have first tokens. -/
example : Filled (ask 23 b!"P" (some (.classAccess b!"P" ⟨b!"P", [b!"\\P"]⟩))) := by
  have h : ((ask 23 b!"P" (some (.classAccess b!"P" ⟨b!"P", [b!"\\P"]⟩))).parents.all fun p => (Analyser.firstToken p).isSome) = true := by
    decide +kernel
  intro p hp
  exact Option.isSome_iff_exists.1 (List.all_eq_true.1 h p hp)

end Demo

end Verif.Complete
