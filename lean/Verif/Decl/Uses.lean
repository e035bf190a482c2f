import Verif.Decl.PropsClasses
import Verif.Decl.Sample

/-!
What the names of classes stand for where they are used: before `::`, after `new`, `instanceof`, `extends`, `implements`
and `use`, in `catch` and in the types of parameters (`analysis/classAccess.go`, `relativeScope.go`,
`classTypeDesignator.go`, `typeDeclaration.go`, `interfaceAccess.go`, `traitAccess.go`, `binaryExpression.go`).
-/

namespace Verif.Decl
open Verif.Analyser (Node PType TokType Tok Ctx Src tyOf)
open Verif.Types (Ty Union add merge natives)
open Verif.Imports (Table)

/-- `phrase.RelativeScope`. -/
abbrev relativeScopePhrase : PType := .opaque 120

/-- What `getLastClass()` (`document.go:357-362`) returns: a `*Class`, `*Interface` or `*Trait` with its name and the
names behind `extends`. -/
inductive Enclosing where
  | class_ (name ext : Ty)
  | interface_ (name : Ty) (exts : List Ty)
  | trait_ (name : Ty)
  deriving DecidableEq, Repr

/-- `IsNameRelative` (`relativeScope.go:10-12`). -/
def isNameRelative (name : Bytes) : Bool := name == b!"static" || name == b!"self" || name == b!"$this"

/-- `IsNameParent` (`relativeScope.go:14-16`). -/
def isNameParent (name : Bytes) : Bool := name == b!"parent"

/-- `newRelativeScope` (`relativeScope.go:30-45`): its types. -/
def relativeScope : Option Enclosing → Union
  | some (.class_ name _) => add [] name
  | some (.interface_ name _) => add [] name
  | some (.trait_ name) => add [] name
  | none => []

/-- `newParentScope` (`relativeScope.go:47-62`): its types. -/
def parentScope : Option Enclosing → Union
  | some (.class_ _ ext) => add [] ext
  | some (.interface_ _ exts) => exts.foldl add []
  | _ => []

/-- The types of `newClassAccess` (`classAccess.go:17-46`). The types of a variable before `::` are not recorded here, they
are found when the access is resolved (`classAccess.go:64-70`, see `Infer`). -/
def classAccessTypes (env : Env) (cls : Option Enclosing) (p : Node) : Union :=
  let name := env.ctx.nodeText p
  if isNameRelative name then merge [] (relativeScope cls)
  else if isNameParent name then merge [] (parentScope cls)
  else if p.isName then add [] (resolvedName env p)
  else []

/-- `newInstanceOfTypeDesignator` (`binaryExpression.go:9-22`): the first name counts. -/
def instanceOfTypes (env : Env) (cls : Option Enclosing) (p : Node) : Union :=
  match p.kids.find? Node.isName with
  | some k => classAccessTypes env cls k
  | none => []

/-- The types of `newInterfaceAccess` (`interfaceAccess.go:13-28`). -/
def interfaceAccessTypes (env : Env) (p : Node) : Union := if p.isName then add [] (resolvedName env p) else []

/-- The types of `newTraitAccess` (`traitAccess.go:51-66`). -/
def traitAccessTypes (env : Env) (p : Node) : Union := if p.isName then add [] (resolvedName env p) else []

/-- One child in `ClassTypeDesignator.analyseNode` (`classTypeDesignator.go:46-66`): name and types. -/
def designatorStep (env : Env) (cls : Option Enclosing) (d : Bytes × Union) (k : Node) : Bytes × Union :=
  if k.isName then ((tyOf (env.ctx.nodeText k)).original, add d.2 (resolvedName env k))
  else if typ? k = some relativeScopePhrase then (d.1, merge d.2 (relativeScope cls))
  else d

/-- `newClassTypeDesignator` (`classTypeDesignator.go:18-41`) with `analyseNode` (`:43-66`) for every designator and
`addChild` and `referenceClass` (`:68-71`, `:99-104`) for every anonymous class; `anonymous` are the names that these get
(`anonymousClass.go:11-18`). -/
def creationStep (env : Env) (cls : Option Enclosing) (anonymous : Node → Ty) (d : Bytes × Union) (k : Node) : Bytes × Union :=
  if typ? k = some .classTypeDesignator then k.kids.foldl (designatorStep env cls) d
  else if typ? k = some .anonymousClassDeclaration then ((anonymous k).original, add d.2 (anonymous k))
  else d

/-- The name and types of a `new` expression (`classTypeDesignator.go:18-41`). -/
def creation (env : Env) (cls : Option Enclosing) (anonymous : Node → Ty) (p : Node) : Bytes × Union :=
  p.kids.foldl (creationStep env cls anonymous) ([], [])

/-- One child in the loop of `newTypeDeclaration` (`typeDeclaration.go:28-41`). -/
def typeNameStep (env : Env) (d : Bytes × Union) (k : Node) : Bytes × Union :=
  if k.isName then ((tyOf (env.ctx.nodeText k)).original, add d.2 (resolvedName env k)) else d

/-- `newTypeDeclaration` (`typeDeclaration.go:14-43`): name and types. -/
def typeDeclaration (env : Env) (p : Node) : Bytes × Union :=
  if typ? p = some .typeDeclaration then ((tyOf (env.ctx.nodeText p)).original, add [] (declaredType env p))
  else p.kids.foldl (typeNameStep env) ([], [])

/-! ### specification -/

/-- The full name of the class in which the code is. -/
def Enclosing.title : Enclosing → Bytes
  | .class_ name _ => name.fqn
  | .interface_ name _ => name.fqn
  | .trait_ name => name.fqn

/-- The full names of its parents. What `parent` means in a trait depends on the class that uses it. -/
def Enclosing.parents : Enclosing → List Bytes
  | .class_ _ ext => [ext.fqn]
  | .interface_ _ exts => exts.map Ty.fqn
  | .trait_ _ => []

/-- The full name `q` is one that the name `text` stands for before `::` by the rules of PHP: `self`, `static` and `$this`
are the enclosing class, `parent` is its parent, other names follow the imports and the namespace. -/
def Means (table : Table) (cls : Option Enclosing) (text q : Bytes) : Prop :=
  if text = b!"self" ∨ text = b!"static" ∨ text = b!"$this" then ∃ c, cls = some c ∧ q = c.title
  else if text = b!"parent" then ∃ c, cls = some c ∧ q ∈ c.parents
  else q = Imports.phpClassName natives table.getNamespace (Imports.names table.classes) text

/-- The lookup in the import table follows PHP for this name (C26): no type suffix or alias of a native type, aliases written
in the same case, and no alias that is the first part of a fully qualified name or the name of a native type. -/
structure Resolvable (table : Table) (text : Bytes) : Prop where
  some : text ≠ []
  notBoolean : text ≠ b!"boolean"
  notInteger : text ≠ b!"integer"
  noArray : ¬ b!"]" <:+ text
  sameCase : Imports.SameCase table.classes (Imports.firstSegment text)
  full : Imports.FullyQualified text → table.classes.get (Imports.firstSegment (text.drop 1)) = none
  native : text ∈ natives → table.classes.get text = none

/-! ### theorems -/

theorem Resolvable.fqn {env : Env} {p : Node} (h : Resolvable env.table (env.ctx.nodeText p)) :
    (resolvedName env p).fqn =
      Imports.phpClassName natives env.table.getNamespace (Imports.names env.table.classes) (env.ctx.nodeText p) :=
  follows_php _ _ h.1 h.2 h.3 h.4 h.5 h.6 h.7

theorem mem_add_fqn (u : Union) (t : Ty) (q : Bytes) : q ∈ (add u t).map Ty.fqn ↔ q ∈ u.map Ty.fqn ∨ q = t.fqn := by
  unfold add
  split
  · rename_i h
    simp only [Types.hasFQN, List.any_eq_true, beq_iff_eq] at h
    obtain ⟨x, hx, e⟩ := h
    constructor
    · exact .inl
    · rintro (h | rfl)
      · exact h
      · exact List.mem_map.mpr ⟨x, hx, e⟩
  · simp

theorem mem_foldl_add_fqn (ts u : Union) (q : Bytes) :
    q ∈ (ts.foldl add u).map Ty.fqn ↔ q ∈ u.map Ty.fqn ∨ q ∈ ts.map Ty.fqn := by
  induction ts generalizing u with
  | nil => simp
  | cons t ts ih => rw [List.foldl_cons, ih, mem_add_fqn, List.map_cons, List.mem_cons, or_assoc]

theorem mem_merge_fqn (u ts : Union) (q : Bytes) :
    q ∈ (merge u ts).map Ty.fqn ↔ q ∈ u.map Ty.fqn ∨ q ∈ ts.map Ty.fqn := mem_foldl_add_fqn ts u q

theorem mem_relativeScope (cls : Option Enclosing) (q : Bytes) :
    q ∈ (relativeScope cls).map Ty.fqn ↔ ∃ c, cls = some c ∧ q = c.title := by
  cases cls with
  | none => simp [relativeScope]
  | some c => cases c <;> simp [relativeScope, mem_add_fqn, Enclosing.title, add, Types.hasFQN]

theorem mem_parentScope (cls : Option Enclosing) (q : Bytes) :
    q ∈ (parentScope cls).map Ty.fqn ↔ ∃ c, cls = some c ∧ q ∈ c.parents := by
  cases cls with
  | none => simp [parentScope]
  | some c =>
    cases c with
    | class_ => simp [parentScope, Enclosing.parents, add, Types.hasFQN]
    | interface_ _ exts => rw [parentScope, mem_foldl_add_fqn]; simp [Enclosing.parents]
    | trait_ => simp [parentScope, Enclosing.parents]

theorem isNameRelative_iff (s : Bytes) : isNameRelative s = true ↔ s = b!"self" ∨ s = b!"static" ∨ s = b!"$this" := by
  simp only [isNameRelative, Bool.or_eq_true, beq_iff_eq]
  tauto

/-- C142: a name before `::`, behind `instanceof` or `extends`, or in a `catch` stands for exactly the classes that it means:
the enclosing class, its parents, or the class that the imports and the namespace give. -/
theorem C142_access (env : Env) (cls : Option Enclosing) (p : Node) (hp : IsName p)
    (hr : Resolvable env.table (env.ctx.nodeText p)) (q : Bytes) :
    q ∈ (classAccessTypes env cls p).map Ty.fqn ↔ Means env.table cls (env.ctx.nodeText p) q := by
  unfold classAccessTypes Means
  simp only
  by_cases h1 : isNameRelative (env.ctx.nodeText p) = true
  · rw [if_pos h1, if_pos ((isNameRelative_iff _).mp h1), mem_merge_fqn, mem_relativeScope]
    simp
  · rw [if_neg h1, if_neg fun h => h1 ((isNameRelative_iff _).mpr h)]
    by_cases h2 : isNameParent (env.ctx.nodeText p) = true
    · rw [if_pos h2, if_pos (by simpa [isNameParent] using h2), mem_merge_fqn, mem_parentScope]
      simp
    · have h3 : env.ctx.nodeText p ≠ b!"parent" := by simpa [isNameParent] using h2
      rw [if_neg h2, if_neg h3, if_pos ((isName_iff p).mpr hp), mem_add_fqn, hr.fqn]
      simp

/-- C142: whatever is written before `::` (a name or the keyword `static`), `self`, `static`, `$this` and `parent` stand for
the enclosing class and its parents. -/
theorem C142_relative (env : Env) (cls : Option Enclosing) (p : Node)
    (h : env.ctx.nodeText p ∈ [b!"self", b!"static", b!"$this", b!"parent"]) (q : Bytes) :
    q ∈ (classAccessTypes env cls p).map Ty.fqn ↔ Means env.table cls (env.ctx.nodeText p) q := by
  unfold classAccessTypes Means
  simp only
  by_cases h1 : isNameRelative (env.ctx.nodeText p) = true
  · rw [if_pos h1, if_pos ((isNameRelative_iff _).mp h1), mem_merge_fqn, mem_relativeScope]
    simp
  · have h2 : env.ctx.nodeText p = b!"parent" := by
      rw [isNameRelative_iff] at h1
      simp only [List.mem_cons, List.not_mem_nil, or_false] at h
      tauto
    rw [if_neg h1, if_neg fun h => h1 ((isNameRelative_iff _).mpr h), if_pos (by simp [isNameParent, h2]), if_pos h2,
      mem_merge_fqn, mem_parentScope]
    simp

/-- C142, `instanceof`. -/
theorem C142_instanceof (env : Env) (cls : Option Enclosing) (p x : Node) (hx : OnlyName p.kids x)
    (hr : Resolvable env.table (env.ctx.nodeText x)) (q : Bytes) :
    q ∈ (instanceOfTypes env cls p).map Ty.fqn ↔ Means env.table cls (env.ctx.nodeText x) q := by
  obtain ⟨pre, post, e, hn, hno⟩ := hx
  have : p.kids.find? Node.isName = some x := by
    rw [e, List.find?_append, List.find?_eq_none.mpr, Option.none_or, List.find?_cons_of_pos ((isName_iff x).mpr hn)]
    intro k hk hh
    exact hno k (List.mem_append_left _ hk) ((isName_iff k).mp hh)
  rw [instanceOfTypes, this]
  exact C142_access env cls x hn hr q

/-- C142: the names behind `implements`, and the traits that a class uses, are the ones that the imports and the namespace
give. -/
theorem C142_heads (env : Env) (p : Node) (hp : IsName p) (hr : Resolvable env.table (env.ctx.nodeText p)) :
    let q := Imports.phpClassName natives env.table.getNamespace (Imports.names env.table.classes) (env.ctx.nodeText p)
    (interfaceAccessTypes env p).map Ty.fqn = [q] ∧ (traitAccessTypes env p).map Ty.fqn = [q] := by
  have : (add [] (resolvedName env p)).map Ty.fqn = [(resolvedName env p).fqn] := rfl
  simp only [interfaceAccessTypes, traitAccessTypes, if_pos ((isName_iff p).mpr hp), this, hr.fqn, and_self]

theorem foldl_same {α : Type} {f : α → Node → α} {ks : List Node} (h : ∀ k ∈ ks, ∀ s, f s k = s) (s : α) :
    ks.foldl f s = s := by
  induction ks generalizing s with
  | nil => rfl
  | cons k ks ih => rw [List.foldl_cons, h k List.mem_cons_self, ih fun k hk => h k (List.mem_cons_of_mem _ hk)]

/-- C142: an object that is created from a named class is of the class that the imports and the namespace give, one that
is created with `new static` is of the enclosing class, and one of an anonymous class is of that class. -/
theorem C142_new (env : Env) (cls : Option Enclosing) (anonymous : Node → Ty) (p d : Node)
    (hd : OnlyPhrase .classTypeDesignator p.kids d) (ha : NoPhrase .anonymousClassDeclaration p.kids) :
    (∀ x, OnlyName d.kids x → NoPhrase relativeScopePhrase d.kids → Resolvable env.table (env.ctx.nodeText x) →
      (creation env cls anonymous p).2.map Ty.fqn =
        [Imports.phpClassName natives env.table.getNamespace (Imports.names env.table.classes) (env.ctx.nodeText x)]) ∧
    (∀ x c, OnlyPhrase relativeScopePhrase d.kids x → (∀ k ∈ d.kids, ¬ IsName k) → cls = some c →
      (creation env cls anonymous p).2.map Ty.fqn = [c.title]) := by
  have key : creation env cls anonymous p = d.kids.foldl (designatorStep env cls) ([], []) := by
    obtain ⟨pre, post, e, ⟨ks, rfl⟩, hno⟩ := hd
    have hsame : ∀ l : List Node, (∀ k ∈ l, k ∈ pre ++ post) → ∀ k ∈ l, ∀ s, creationStep env cls anonymous s k = s := by
      intro l hl k hk s
      have h1 := hno k (hl k hk)
      have h2 := ha k (by
        rw [e]
        rcases List.mem_append.mp (hl k hk) with h | h
        · exact List.mem_append_left _ h
        · exact List.mem_append_right _ (List.mem_cons_of_mem _ h))
      rw [creationStep, if_neg (by rwa [typ_iff]), if_neg (by rwa [typ_iff])]
    rw [creation, e, List.foldl_append, List.foldl_cons, foldl_same (hsame pre fun k => List.mem_append_left _),
      foldl_same (hsame post fun k => List.mem_append_right _)]
    rfl
  rw [key]
  constructor
  · rintro x ⟨pre, post, e, hn, hno⟩ hrel hr
    have hsame : ∀ l : List Node, (∀ k ∈ l, k ∈ pre ++ post) → ∀ k ∈ l, ∀ s, designatorStep env cls s k = s := by
      intro l hl k hk s
      have h1 := hno k (hl k hk)
      have h2 := hrel k (by
        rw [e]
        rcases List.mem_append.mp (hl k hk) with h | h
        · exact List.mem_append_left _ h
        · exact List.mem_append_right _ (List.mem_cons_of_mem _ h))
      rw [designatorStep, if_neg (by rwa [isName_iff]), if_neg (by rwa [typ_iff])]
    rw [e, List.foldl_append, List.foldl_cons, foldl_same (hsame pre fun k => List.mem_append_left _),
      foldl_same (hsame post fun k => List.mem_append_right _), designatorStep, if_pos ((isName_iff x).mpr hn), ← hr.fqn]
    rfl
  · rintro x c ⟨pre, post, e, ⟨ks, rfl⟩, hno⟩ hnn rfl
    have hsame : ∀ l : List Node, (∀ k ∈ l, k ∈ pre ++ post) → ∀ k ∈ l, ∀ s, designatorStep env (some c) s k = s := by
      intro l hl k hk s
      have h1 := hno k (hl k hk)
      have h2 := hnn k (by
        rw [e]
        rcases List.mem_append.mp (hl k hk) with h | h
        · exact List.mem_append_left _ h
        · exact List.mem_append_right _ (List.mem_cons_of_mem _ h))
      rw [designatorStep, if_neg (by rwa [isName_iff]), if_neg (by rwa [typ_iff])]
    rw [e, List.foldl_append, List.foldl_cons, foldl_same (hsame pre fun k => List.mem_append_left _),
      foldl_same (hsame post fun k => List.mem_append_right _)]
    cases c <;> rfl

/-- C142: an object of an anonymous class is of that class. -/
theorem C142_anonymous (env : Env) (cls : Option Enclosing) (anonymous : Node → Ty) (p d : Node)
    (hd : OnlyPhrase .anonymousClassDeclaration p.kids d) (ha : NoPhrase .classTypeDesignator p.kids) :
    (creation env cls anonymous p).2 = [anonymous d] := by
  obtain ⟨pre, post, e, ⟨ks, rfl⟩, hno⟩ := hd
  have hsame : ∀ l : List Node, (∀ k ∈ l, k ∈ pre ++ post) → ∀ k ∈ l, ∀ s, creationStep env cls anonymous s k = s := by
    intro l hl k hk s
    have h1 := hno k (hl k hk)
    have h2 := ha k (by
      rw [e]
      rcases List.mem_append.mp (hl k hk) with h | h
      · exact List.mem_append_left _ h
      · exact List.mem_append_right _ (List.mem_cons_of_mem _ h))
    rw [creationStep, if_neg (by rwa [typ_iff]), if_neg (by rwa [typ_iff])]
  rw [creation, e, List.foldl_append, List.foldl_cons, foldl_same (hsame pre fun k => List.mem_append_left _),
    foldl_same (hsame post fun k => List.mem_append_right _)]
  rfl

/-- C142: a declared type is the class that the imports and the namespace give. -/
theorem C142_types (env : Env) (p : Node) (hp : IsPhrase .typeDeclaration p)
    (hr : Resolvable env.table (env.ctx.nodeText p)) :
    typeDeclaration env p = (env.ctx.nodeText p, (typeDeclaration env p).2) ∧ (typeDeclaration env p).2.map Ty.fqn =
      [Imports.phpClassName natives env.table.getNamespace (Imports.names env.table.classes) (env.ctx.nodeText p)] := by
  obtain ⟨ks, rfl⟩ := hp
  have e := tyOf_plain hr.some hr.notBoolean hr.notInteger hr.noArray
  have h : typeDeclaration env (.phr .typeDeclaration ks) = ((tyOf (env.ctx.nodeText (.phr .typeDeclaration ks))).original,
      [resolvedName env (.phr .typeDeclaration ks)]) := rfl
  rw [h, e, ← hr.fqn]
  exact ⟨rfl, rfl⟩

/-! ### examples and findings -/

/-- `Foo`, `self`, `parent`, `SELF`, `new Foo`, `new static`, `Foo`, `self` (types), `new self`, `Foo` (after `instanceof`) and
`new class {}`. -/
def srcUses : Src := .p .statementList [
  .p .qualifiedName [nm b!"Foo"], .p .qualifiedName [nm b!"self"], .p .qualifiedName [nm b!"parent"],
  .p .qualifiedName [nm b!"SELF"],
  .p .objectCreationExpression [tk b!"new", ws b!" ", .p .classTypeDesignator [.p .qualifiedName [nm b!"Foo"]]],
  .p .objectCreationExpression [tk b!"new", ws b!" ", .p .classTypeDesignator [.p relativeScopePhrase [tk b!"static"]]],
  .p .typeDeclaration [nm b!"Foo"], .p .typeDeclaration [nm b!"self"],
  .p .objectCreationExpression [tk b!"new", ws b!" ", .p .classTypeDesignator [.p .qualifiedName [nm b!"self"]]],
  .p .instanceofTypeDesignator [.p .qualifiedName [nm b!"Foo"]],
  .p .objectCreationExpression [tk b!"new", ws b!" ", .p .anonymousClassDeclaration [tk b!"class {}"]]]

/-- `namespace App; use Lib\Foo;` -/
def uenv : Env := { senv0 with ctx := srcUses.ctx }

/-- In `class A extends Foo`. -/
def inA : Option Enclosing := some (.class_ ⟨b!"\\App\\A", b!"A", 0⟩ ⟨b!"\\Lib\\Foo", b!"Foo", 0⟩)

/-- A node of the example. -/
def useAt (i : Nat) : Node := srcUses.root.kids.getD i srcUses.root

theorem Resolvable.of (table : Table) (text : Bytes)
    (h : text ≠ [] ∧ text ≠ b!"boolean" ∧ text ≠ b!"integer" ∧ ¬ b!"]" <:+ text ∧
      Imports.SameCase table.classes (Imports.firstSegment text) ∧ ¬ Imports.FullyQualified text ∧ text ∉ natives) :
    Resolvable table text := ⟨h.1, h.2.1, h.2.2.1, h.2.2.2.1, h.2.2.2.2.1, fun hf => absurd hf h.2.2.2.2.2.1,
      fun hn => absurd hn h.2.2.2.2.2.2⟩

/-- Non-vacuity of C142: the hypotheses are met, and the names are those of the classes that are meant. -/
example : IsName (useAt 0) ∧ uenv.ctx.nodeText (useAt 0) = b!"Foo" ∧ Resolvable uenv.table b!"Foo" ∧
    Means uenv.table inA b!"Foo" b!"\\Lib\\Foo" ∧ Means uenv.table inA b!"self" b!"\\App\\A" ∧
    Means uenv.table inA b!"parent" b!"\\Lib\\Foo" ∧
    [0, 1, 2].map (fun i => (classAccessTypes uenv inA (useAt i)).map Ty.fqn) =
      [[b!"\\Lib\\Foo"], [b!"\\App\\A"], [b!"\\Lib\\Foo"]] :=
  ⟨.inl ⟨_, rfl⟩, by decide +kernel, .of _ _ (by decide +kernel),
    by unfold Means; rw [if_neg (by decide), if_neg (by decide)]; decide +kernel,
    by unfold Means; rw [if_pos (by decide)]; exact ⟨_, rfl, rfl⟩,
    by unfold Means; rw [if_neg (by decide), if_pos rfl]; exact ⟨_, rfl, List.mem_singleton.mpr rfl⟩, by decide +kernel⟩

/-- Non-vacuity of C142_new, C142_anonymous, C142_types and C142_instanceof. -/
example : OnlyPhrase .classTypeDesignator (useAt 4).kids (sub (useAt 4) 2) ∧
    NoPhrase .anonymousClassDeclaration (useAt 4).kids ∧
    OnlyName (sub (useAt 4) 2).kids (sub (sub (useAt 4) 2) 0) ∧ NoPhrase relativeScopePhrase (sub (useAt 4) 2).kids ∧
    OnlyPhrase .classTypeDesignator (useAt 5).kids (sub (useAt 5) 2) ∧
    OnlyPhrase relativeScopePhrase (sub (useAt 5) 2).kids (sub (sub (useAt 5) 2) 0) ∧
    OnlyPhrase .anonymousClassDeclaration (useAt 10).kids (sub (useAt 10) 2) ∧
    OnlyName (useAt 9).kids (sub (useAt 9) 0) ∧ IsPhrase .typeDeclaration (useAt 6) ∧
    [4, 5].map (fun i => (creation uenv inA (fun _ => ⟨[], [], 0⟩) (useAt i)).2.map Ty.fqn) =
      [[b!"\\Lib\\Foo"], [b!"\\App\\A"]] ∧
    (creation uenv inA (fun _ => ⟨b!"\\App\\anonClass#1", b!"anonClass#1", 0⟩) (useAt 10)).2.map Ty.fqn =
      [b!"\\App\\anonClass#1"] ∧
    typeDeclaration uenv (useAt 6) = (b!"Foo", [⟨b!"\\Lib\\Foo", b!"Foo", 0⟩]) ∧
    (instanceOfTypes uenv inA (useAt 9)).map Ty.fqn = [b!"\\Lib\\Foo"] :=
  ⟨.of_filter rfl, .of_filter rfl, .of_filter 0 _ rfl rfl rfl, .of_filter rfl, .of_filter rfl, .of_filter rfl,
    .of_filter rfl, .of_filter 0 _ rfl rfl rfl, ⟨_, rfl⟩,
    by decide +kernel, by decide +kernel, by decide +kernel, by decide +kernel⟩

/-- C142 does not extend to other spellings: `SELF` is the enclosing class in PHP, but is taken for a class of the namespace. -/
theorem C142_needs_lower_case : uenv.ctx.nodeText (useAt 3) = b!"SELF" ∧
    (classAccessTypes uenv inA (useAt 3)).map Ty.fqn = [b!"\\App\\SELF"] := by decide +kernel

/-- C142 does not extend to `new self` and `self` as a type: if the parser gives a name, as it does for `self` in `self::`,
they are taken for a class `self` of the namespace. -/
theorem C142_needs_no_self :
    (creation uenv inA (fun _ => ⟨[], [], 0⟩) (useAt 8)).2.map Ty.fqn = [b!"\\App\\self"] ∧
    typeDeclaration uenv (useAt 7) = (b!"self", [⟨b!"\\App\\self", b!"self", 0⟩]) := by decide +kernel

end Verif.Decl
