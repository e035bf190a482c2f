import Verif.References.PropsText
import Verif.Decl.Uses

/-! C148: find references on a class, from the text of the files. -/

namespace Verif.References
open Verif.Types
open Verif.Imports (Table importTableAtPos inNamespace)
open Verif.Encoding (Range)
open Verif.Analyser (Node Tok PType Ctx Kind toks Chain InDocument IsSymbol Writes UsesSupported Supported SitsIn flat symbolsOf InNamespace writtenName)
open Verif.Store (Env Store Doc HOp)
open Verif.Decl (Enclosing Means Resolvable IsName OnlyName OnlyPhrase NoPhrase)

/-! ### names of classes -/

/-- What is in force at a name in the text: the imports and the namespace (`env.table`), the class around it, and the names
that anonymous classes get. -/
structure Around where
  env : Decl.Env
  cls : Option Enclosing
  anonymous : Node → Ty

/-- The symbols for names of classes (`store.go:1140`). -/
def classUseOf : Kind → Option ClassUse
  | .classAccess => some .classAccess
  | .designator => some .designator
  | .typeDeclaration => some .typeDeclaration
  | .interfaceAccess => some .interfaceAccess
  | .traitAccess => some .traitAccess
  | _ => none

/-- The types that the symbol for the name at the node `p` gets (see `Decl/Uses.lean`). For the class after `new`, `p` is the
designator; there is one in each expression. -/
def Around.types (w : Around) (p : Node) : ClassUse → Union
  | .classAccess => Decl.classAccessTypes w.env w.cls p
  | .designator => (Decl.creation w.env w.cls w.anonymous (.phr .objectCreationExpression [p])).2
  | .typeDeclaration => (Decl.typeDeclaration w.env p).2
  | .interfaceAccess => Decl.interfaceAccessTypes w.env p
  | .traitAccess => Decl.traitAccessTypes w.env p

/-- The name of a class `p` is written there: before `::`, after `new`, `instanceof`, `catch`, `extends`, `implements` or `use`,
or as the type of a parameter. -/
inductive ClassIn : Node → ClassUse → Node → Prop
  | scope {ty : PType} {p : Node} {rest : List Node} :
      ty = .scopedCallExpression ∨ ty = .scopedPropertyAccessExpression ∨ ty = .classConstantAccessExpression → p.isPhr = true →
      ClassIn (.phr ty (p :: rest)) .classAccess p
  | new {ks : List Node} {p : Node} : p ∈ ks → p.isPhrase .classTypeDesignator = true →
      ClassIn (.phr .objectCreationExpression ks) .designator p
  | instanceOf {pre post : List Node} {p : Node} : (∀ k ∈ pre, k.isName = false) → p.isName = true →
      ClassIn (.phr .instanceofTypeDesignator (pre ++ p :: post)) .classAccess p
  | caught {ks : List Node} {p : Node} : p ∈ ks → p.isName = true → ClassIn (.phr .catchNameList ks) .classAccess p
  | extends_ {ty : PType} {ks pre post : List Node} {p : Node} :
      ty = .classDeclarationHeader ∨ ty = .anonymousClassDeclarationHeader →
      .phr .classBaseClause (pre ++ p :: post) ∈ ks → p.isName = true → (∀ k ∈ post, k.isName = false) →
      ClassIn (.phr ty ks) .classAccess p
  | paramType {ks : List Node} {p : Node} : p ∈ ks → p.isPhrase .typeDeclaration = true →
      ClassIn (.phr .parameterDeclaration ks) .typeDeclaration p
  | implements_ {ty : PType} {ks pre post ms : List Node} {p : Node} :
      ty = .classDeclarationHeader ∨ ty = .anonymousClassDeclarationHeader →
      .phr .classInterfaceClause (pre ++ .phr .qualifiedNameList ms :: post) ∈ ks →
      (∀ k ∈ pre, k.isPhrase .qualifiedNameList = false) → p ∈ ms → p.isName = true → ClassIn (.phr ty ks) .interfaceAccess p
  | traitUse {ks ms : List Node} {p : Node} : .phr .qualifiedNameList ms ∈ ks → p ∈ ms → p.isName = true →
      ClassIn (.phr .traitUseClause ks) .traitAccess p

/-- The node can be the name of a class in such a use. -/
def couldBe (p : Node) : ClassUse → Prop
  | .classAccess => p.spells .classAccess = true
  | .designator => p.declares .designator = true
  | .typeDeclaration => p.spells .typeDeclaration = true
  | .interfaceAccess => p.spells .interfaceAccess = true
  | .traitAccess => p.spells .traitAccess = true

/-- The symbol `s` has the types of the name that the symbol `a` of the analysis stands for. -/
def HasTypes (W : Bytes → Node → Around) (u : Bytes) (c : Ctx) (root : Node) (a : Analyser.Sym) (s : Symbol) : Prop :=
  match classUseOf a.kind with
  | none => ∀ k name types, s.mark ≠ .classUse k name types
  | some k => ∃ name types, s.mark = .classUse k name types ∧ (k = .classAccess → name = a.name) ∧
      (∃ σ p, SitsIn c root σ p ∧ couldBe p k ∧ a.range = c.range p ∧ types = (W u p).types p k) ∧
      ∀ e n p, InDocument c root e n → ClassIn n k p → a.range = c.range p → types = (W u p).types p k

/-- The names of classes have the types that they get by what is in force where they are. In the code the symbols are made
with these types. -/
structure Typed (T : Bytes → Option (Ctx × Node)) (src : Doc → File) (h : List HOp) (W : Bytes → Node → Around) : Prop where
  context : ∀ u c root p, T u = some (c, root) → (W u p).env.ctx = c
  symbols : ∀ u c root d, T u = some (c, root) → Store.latest h u = some d →
    List.Forall₂ (HasTypes W u c root) (flat (symbolsOf c root)) (src d).symbols

/-! ### specification -/

/-- The full name that PHP gives a name by the imports and the namespace. -/
def Around.php (w : Around) (text : Bytes) : Bytes :=
  Imports.phpClassName natives w.env.table.getNamespace (Imports.names w.env.table.classes) text

/-- The name at the node stands for `X` by the rules of PHP, if the lookup in the imports follows these for it (`Resolvable`,
C26). -/
def Around.StandsFor (w : Around) (p : Node) (X : Bytes) : ClassUse → Prop
  | .classAccess => IsName p → Resolvable w.env.table (w.env.ctx.nodeText p) → Means w.env.table w.cls (w.env.ctx.nodeText p) X
  | .designator => p.isPhrase .classTypeDesignator = true →
      (∀ x, OnlyName p.kids x → NoPhrase Decl.relativeScopePhrase p.kids → Resolvable w.env.table (w.env.ctx.nodeText x) →
        w.php (w.env.ctx.nodeText x) = X) ∧
      ∀ x cls, OnlyPhrase Decl.relativeScopePhrase p.kids x → (∀ k ∈ p.kids, ¬ IsName k) → w.cls = some cls → cls.title = X
  | _ => Resolvable w.env.table (w.env.ctx.nodeText p) → w.php (w.env.ctx.nodeText p) = X

/-- The answer lists the places of the names of the class or interface `X` in the current texts `T` of the indexed files. -/
structure ListsClass (T : Bytes → Option (Ctx × Node)) (src : Doc → File) (h : List HOp) (W : Bytes → Node → Around) (X : Bytes)
    (res : List (Bytes × Range)) : Prop where
  /-- Every name before `::` and after `instanceof`, `catch` and `extends` that means `X` is listed, but not `self`, `static` and
  `$this`. -/
  accesses : ∀ u c root e n p, T u = some (c, root) → Store.haveReferences u = true → UsesSupported c root →
    InDocument c root e n → ClassIn n .classAccess p → IsName p → Resolvable (W u p).env.table (c.nodeText p) → c.nodeText p ∉ [b!"self", b!"static", b!"$this"] →
    Means (W u p).env.table (W u p).cls (c.nodeText p) X → (u, rangeOf u (c.range p)) ∈ res
  /-- Every `new A` where `A` means `X`. -/
  creations : ∀ u c root e ks p x, T u = some (c, root) → Store.haveReferences u = true → UsesSupported c root →
    InDocument c root e (.phr .objectCreationExpression ks) → p ∈ ks → p.isPhrase .classTypeDesignator = true →
    OnlyName p.kids x → NoPhrase Decl.relativeScopePhrase p.kids → Resolvable (W u p).env.table (c.nodeText x) →
    (W u p).php (c.nodeText x) = X → (u, rangeOf u (c.range p)) ∈ res
  /-- Every `new static` in the class `X`. -/
  creationsStatic : ∀ u c root e ks p x cls, T u = some (c, root) → Store.haveReferences u = true → UsesSupported c root →
    InDocument c root e (.phr .objectCreationExpression ks) → p ∈ ks → p.isPhrase .classTypeDesignator = true →
    OnlyPhrase Decl.relativeScopePhrase p.kids x → (∀ k ∈ p.kids, ¬ IsName k) → (W u p).cls = some cls → cls.title = X →
    (u, rangeOf u (c.range p)) ∈ res
  /-- Every type of a parameter that means `X`, and every name after `implements` and `use` that does. -/
  types : ∀ u c root e n p k, T u = some (c, root) → Store.haveReferences u = true → UsesSupported c root →
    InDocument c root e n → ClassIn n k p → k = .typeDeclaration ∨ k = .interfaceAccess ∨ k = .traitAccess →
    Resolvable (W u p).env.table (c.nodeText p) → (W u p).php (c.nodeText p) = X → (u, rangeOf u (c.range p)) ∈ res
  /-- Every declaration of a class or an interface of that name, at what the file has as the place of its name. -/
  declarations : ∀ u c root e ty header kind ks nm d, T u = some (c, root) → Store.latest h u = some d →
    Store.haveReferences u = true → Supported c root → InDocument c root e (.phr ty ks) →
    Analyser.headed ty = some (header, kind) → kind = .class_ ∨ kind = .interface_ → Analyser.headName c header ks = some nm →
    Analyser.fullName e.ns nm = X →
    ∃ s ∈ (src d).symbols, s.range = rangeOf u (c.range (.phr ty ks)) ∧ (u, s.nameRange) ∈ res
  /-- Nothing else is listed: there is a name in the text that stands for `X`, or it is the place that the file has for the name
  of a class or an interface that is declared in the text as `X`. -/
  nothingElse : ∀ u r, (u, r) ∈ res → ∃ c root, T u = some (c, root) ∧
    ((∃ k σ p, SitsIn c root σ p ∧ couldBe p k ∧ r = rangeOf u (c.range p) ∧ X ∈ ((W u p).types p k).map Ty.fqn ∧
      (W u p).StandsFor p X k) ∨
     ∃ d s ns node kind, Store.latest h u = some d ∧ s ∈ (src d).symbols ∧ r = s.nameRange ∧ s.range = rangeOf u (c.range node) ∧
       InNamespace c root ns node ∧ (kind = .class_ ∨ kind = .interface_) ∧ node.declares kind = true ∧
       ∀ raw, writtenName c node = some raw → Analyser.plain raw = true → X = Analyser.fullName ns raw)

/-! ### C148 -/

section
variable {env : Env} {root : Bytes} {h : List HOp} {st : Store} {src : Doc → File} {tree : Node} {a b offset : Nat} {t : Tok}
  {ps : List Node} {tables : List Table} {found : Option Symbol} {T : Bytes → Option (Ctx × Node)} {W : Bytes → Node → Around}
  {X : Bytes}

theorem ClassIn.writes {c : Ctx} {n p : Node} {k : ClassUse} (h : ClassIn n k p) :
    ∃ kind name, classUseOf kind = some k ∧ Writes c n kind (c.range p) name ∧ (k = .classAccess → name = c.nodeText p) := by
  cases h with
  | scope h1 h2 => exact ⟨_, _, rfl, .scope h1 h2, fun _ => rfl⟩
  | new h1 h2 => exact ⟨_, _, rfl, .new h1 h2, fun h => by cases h⟩
  | instanceOf h1 h2 => exact ⟨_, _, rfl, .instanceOf h1 h2, fun _ => rfl⟩
  | caught h1 h2 => exact ⟨_, _, rfl, .caught h1 h2, fun _ => rfl⟩
  | extends_ h1 h2 h3 h4 => exact ⟨_, _, rfl, .extends_ h1 h2 h3 h4, fun _ => rfl⟩
  | paramType h1 h2 => exact ⟨_, _, rfl, .paramType h1 h2, fun h => by cases h⟩
  | implements_ h1 h2 h3 h4 h5 => exact ⟨_, _, rfl, .implements_ h1 h2 h3 h4 h5, fun h => by cases h⟩
  | traitUse h1 h2 h3 => exact ⟨_, _, rfl, .traitUse h1 h2 h3, fun h => by cases h⟩

theorem isPhrase_of {ty : PType} {p : Node} (h : p.isPhrase ty = true) : Decl.IsPhrase ty p := by
  cases p with
  | tok t => cases h
  | err t => cases h
  | phr ty' ks =>
    have : ty' = ty := by simpa [Node.isPhrase] using h
    exact ⟨ks, by rw [this]⟩

theorem ClassIn.couldBe {n p : Node} {k : ClassUse} (h : ClassIn n k p) (hk : k ≠ .classAccess ∧ k ≠ .designator := by decide) :
    couldBe p k := by
  cases h with
  | paramType h1 h2 => exact h2
  | implements_ h1 h2 h3 h4 h5 => exact h5
  | traitUse h1 h2 h3 => exact h3
  | _ => simp at hk

theorem latest_of (hT : Texts T src h) {u : Bytes} {c : Ctx} {root : Node} (hu : T u = some (c, root)) :
    ∃ d, Store.latest h u = some d := by
  have := hT.files u
  rw [hu] at this
  exact Option.isSome_iff_exists.mp this.symm

theorem both (hT : Texts T src h) (hW : Typed T src h W) {u : Bytes} {c : Ctx} {root : Node} {d : Doc}
    (hu : T u = some (c, root)) (hl : Store.latest h u = some d) :
    List.Forall₂ (fun a s => IsSymbolOf u a s ∧ HasTypes W u c root a s) (flat (symbolsOf c root)) (src d).symbols := by
  have h1 := hT.symbols u c root d hu hl
  have h2 := hW.symbols u c root d hu hl
  revert h1 h2
  generalize flat (symbolsOf c root) = l1
  generalize (src d).symbols = l2
  intro h1
  induction h1 with
  | nil => intro _; exact .nil
  | cons ha _ ih => intro h2; cases h2 with | cons hb hbs => exact .cons ⟨ha, hb⟩ (ih hbs)

/-- A written name of a class is listed if it has the type. -/
theorem listed (hT : Texts T src h) (hW : Typed T src h W) {res : List (Bytes × Range)}
    (ha : ∀ u r, (u, r) ∈ res ↔ Somewhere src h (fun _ s r => NamesClass X s r) u r) {u : Bytes} {c : Ctx} {root n p : Node}
    {e : Analyser.Env} {k : ClassUse} (hu : T u = some (c, root)) (hh : Store.haveReferences u = true) (hs : UsesSupported c root)
    (hd : InDocument c root e n) (hc : ClassIn n k p) (hX : X ∈ ((W u p).types p k).map Ty.fqn)
    (hself : k = .classAccess → c.nodeText p ∉ [b!"self", b!"static", b!"$this"]) : (u, rangeOf u (c.range p)) ∈ res := by
  obtain ⟨d, hl⟩ := latest_of hT hu
  obtain ⟨kind, name, hk, hw, hname⟩ := hc.writes (c := c)
  have hsym := Analyser.C145_found_partial hs hd hw
  obtain ⟨s, hs1, hs2, hs3⟩ := Whole.forall₂_left (both hT hW hu hl) hsym
  unfold HasTypes at hs3
  dsimp only at hs3
  rw [hk] at hs3
  obtain ⟨nm, types, hm, hn, -, hall⟩ := hs3
  have ht := hall e n p hd hc rfl
  obtain ⟨ty, hty, rfl⟩ := List.mem_map.mp hX
  refine (ha _ _).mpr ⟨d, hl, hh, s, hs1, ?_⟩
  obtain ⟨mark, r1, r2⟩ := s
  dsimp only at hm
  subst hm
  have hr : r1 = rangeOf u (c.range p) := hs2.1
  rw [← hr]
  refine .used k nm types ty r1 r2 (ht ▸ hty) rfl ?_
  rintro ⟨rfl, hbad⟩
  have e1 : nm = c.nodeText p := (hn rfl).trans (hname rfl)
  apply hself rfl
  rw [← e1]
  simp only [List.mem_cons, List.not_mem_nil, or_false]
  tauto

theorem onlyPhrase_self {ty : PType} {p : Node} (h : p.isPhrase ty = true) : OnlyPhrase ty (Node.phr .objectCreationExpression [p]).kids p := by
  refine ⟨[], [], rfl, ?_, by simp⟩
  cases p with
  | tok t => cases h
  | err t => cases h
  | phr ty' ks =>
    have : ty' = ty := by simpa [Node.isPhrase] using h
    exact ⟨ks, by rw [this]⟩

theorem noPhrase_self {ty ty' : PType} {p : Node} (h : p.isPhrase ty = true) (hne : ty ≠ ty') :
    NoPhrase ty' (Node.phr .objectCreationExpression [p]).kids := by
  intro k hk
  have : k = p := by simpa [Node.kids] using hk
  subst this
  rintro ⟨ks, rfl⟩
  have : ty' = ty := by simpa [Node.isPhrase] using h
  exact hne this.symm

theorem standsFor {w : Around} {p : Node} {k : ClassUse} (hb : couldBe p k) (h : X ∈ (w.types p k).map Ty.fqn) :
    w.StandsFor p X k := by
  cases k with
  | classAccess => exact fun h1 h2 => (Decl.C142_access w.env w.cls p h1 h2 X).mp h
  | designator =>
    intro hp
    have := Decl.C142_new w.env w.cls w.anonymous (.phr .objectCreationExpression [p]) p (onlyPhrase_self hp)
      (noPhrase_self hp (by decide))
    refine ⟨fun x h1 h2 h3 => ?_, fun x cls h1 h2 h3 => ?_⟩
    · rw [Around.types, this.1 x h1 h2 h3] at h
      exact (List.mem_singleton.mp h).symm
    · rw [Around.types, this.2 x cls h1 h2 h3] at h
      exact (List.mem_singleton.mp h).symm
  | typeDeclaration =>
    intro hr
    have hp : Decl.IsPhrase .typeDeclaration p := isPhrase_of hb
    rw [Around.types, (Decl.C142_types w.env p hp hr).2] at h
    exact (List.mem_singleton.mp h).symm
  | interfaceAccess =>
    intro hr
    have := (Decl.C142_heads w.env p ((Decl.isName_iff p).mp hb) hr).1
    rw [Around.types, this] at h
    exact (List.mem_singleton.mp h).symm
  | traitAccess =>
    intro hr
    have := (Decl.C142_heads w.env p ((Decl.isName_iff p).mp hb) hr).2
    rw [Around.types, this] at h
    exact (List.mem_singleton.mp h).symm

theorem class_or_interface {u : Bytes} {x : Analyser.Sym} {s : Symbol} (hx : IsSymbolOf u x s)
    (hk : x.kind = .class_ ∨ x.kind = .interface_) : NamesClass x.name s s.nameRange := by
  obtain ⟨mark, r1, r2⟩ := s
  obtain ⟨kind, rng, name, sc⟩ := x
  obtain ⟨-, hx⟩ := hx
  dsimp only at hk
  rcases hk with rfl | rfl
  · simp only [markOf] at hx; subst hx; exact .class_ _ _
  · simp only [markOf] at hx; subst hx; exact .interface _ _

theorem listsClass_of (hT : Texts T src h) (hW : Typed T src h W) {ans : Option (List (Bytes × Range))}
    (ha : Answers src h (fun _ s r => NamesClass X s r) ans) : ∃ res, ans = some res ∧ ListsClass T src h W X res := by
  obtain ⟨res, rfl, ha⟩ := ha
  refine ⟨res, rfl, ⟨?_, ?_, ?_, ?_, ?_, ?_⟩⟩
  · intro u c root e n p hu hh hs hd hin hp hr hself hX
    have hc := hW.context u c root p hu
    refine listed hT hW ha hu hh hs hd hin ?_ fun _ => hself
    subst hc
    exact (Decl.C142_access _ _ p hp hr X).mpr hX
  · intro u c root e ks p x hu hh hs hd hm hp hx hno hr hX
    have hc := hW.context u c root p hu
    refine listed hT hW ha hu hh hs hd (.new hm hp) ?_ fun h => by cases h
    subst hc
    have := (Decl.C142_new (W u p).env (W u p).cls (W u p).anonymous (.phr .objectCreationExpression [p]) p (onlyPhrase_self hp)
      (noPhrase_self hp (by decide))).1 x hx hno hr
    simp only [Around.types, this, List.mem_singleton]
    exact hX.symm
  · intro u c root e ks p x cls hu hh hs hd hm hp hx hno hcls hX
    refine listed hT hW ha hu hh hs hd (.new hm hp) ?_ fun h => by cases h
    have := (Decl.C142_new (W u p).env (W u p).cls (W u p).anonymous (.phr .objectCreationExpression [p]) p (onlyPhrase_self hp)
      (noPhrase_self hp (by decide))).2 x cls hx hno hcls
    simp only [Around.types, this, List.mem_singleton]
    exact hX.symm
  · intro u c root e n p k hu hh hs hd hin hk hr hX
    have hc := hW.context u c root p hu
    refine listed hT hW ha hu hh hs hd hin ?_ fun h => by subst h; simp at hk
    subst hc
    have hb := hin.couldBe (by rcases hk with rfl | rfl | rfl <;> simp)
    rw [← hX]
    rcases hk with rfl | rfl | rfl
    · have hp : Decl.IsPhrase .typeDeclaration p := isPhrase_of hb
      rw [Around.types, (Decl.C142_types (W u p).env p hp hr).2]
      exact List.mem_singleton.mpr rfl
    · rw [Around.types, (Decl.C142_heads (W u p).env p ((Decl.isName_iff p).mp hb) hr).1]
      exact List.mem_singleton.mpr rfl
    · rw [Around.types, (Decl.C142_heads (W u p).env p ((Decl.isName_iff p).mp hb) hr).2]
      exact List.mem_singleton.mpr rfl
  · intro u c root e ty header kind ks nm d hu hl hh hs hd hty hk hn hX
    obtain ⟨s, hs1, hs2⟩ := Whole.forall₂_left (hT.symbols u c root d hu hl) (Analyser.C68_declaration_partial hs hd hty hn)
    refine ⟨s, hs1, hs2.1, (ha _ _).mpr ⟨d, hl, hh, s, hs1, ?_⟩⟩
    rw [← hX]
    exact class_or_interface hs2 hk
  · intro u r hr
    obtain ⟨d, hl, hh, s, hs, hn⟩ := (ha _ _).mp hr
    have := hT.files u
    rw [hl] at this
    obtain ⟨⟨c, root⟩, hu⟩ := Option.isSome_iff_exists.mp this
    refine ⟨c, root, hu, ?_⟩
    obtain ⟨x, hx, hxs, hxt⟩ := Whole.forall₂_right (both hT hW hu hl) hs
    have decl : x.kind = .class_ ∨ x.kind = .interface_ → x.name = X → r = s.nameRange →
        ∃ d s ns node kind, Store.latest h u = some d ∧ s ∈ (src d).symbols ∧ r = s.nameRange ∧ s.range = rangeOf u (c.range node) ∧
          InNamespace c root ns node ∧ (kind = .class_ ∨ kind = .interface_) ∧ node.declares kind = true ∧
          ∀ raw, writtenName c node = some raw → Analyser.plain raw = true → X = Analyser.fullName ns raw := by
      intro hk hX hr
      obtain ⟨ns, node, h4, h5, h6, h7⟩ := Analyser.C140_names (hT.orderly u c root hu) hx (by rcases hk with hk | hk <;> rw [hk] <;> rfl)
      refine ⟨d, s, ns, node, x.kind, hl, hs, hr, by rw [hxs.1, h6], h4, hk, h5, fun raw hw => ?_⟩
      have := h7 raw hw
      rw [hX] at this
      rwa [if_neg (by rcases hk with hk | hk <;> rw [hk] <;> decide)] at this
    obtain ⟨mark, r1, r2⟩ := s
    cases hn with
    | class_ =>
      obtain ⟨kind, rng, name, sc⟩ := x
      obtain ⟨-, hxs'⟩ := id hxs
      right
      refine decl ?_ ?_ rfl <;>
        (cases kind <;> simp only [markOf, Mark.isElse] at hxs' <;> first | (cases hxs'; done) | (cases hxs'; simp))
    | interface =>
      obtain ⟨kind, rng, name, sc⟩ := x
      obtain ⟨-, hxs'⟩ := id hxs
      right
      refine decl ?_ ?_ rfl <;>
        (cases kind <;> simp only [markOf, Mark.isElse] at hxs' <;> first | (cases hxs'; done) | (cases hxs'; simp))
    | used k name types ty _ _ ht hX hself =>
      left
      unfold HasTypes at hxt
      cases hk : classUseOf x.kind with
      | none => rw [hk] at hxt; exact absurd rfl (hxt k name types)
      | some k' =>
        rw [hk] at hxt
        obtain ⟨nm, types', hm, -, ⟨σ, p, h1, h2, h3, h4⟩, -⟩ := hxt
        cases hm
        have hin : X ∈ ((W u p).types p k).map Ty.fqn := List.mem_map.mpr ⟨ty, h4 ▸ ht, hX⟩
        exact ⟨k, σ, p, h1, h2, by rw [← h3]; exact hxs.1, hin, standsFor h2 hin⟩

/-- C148: with the cursor on the name of a class in code, find references lists the names of that class in the current texts of
the indexed files: those that PHP takes for it by the imports and the namespace at their place. -/
theorem C148_use (hT : Texts T src h) (hW : Typed T src h W) (hr : Ready env root h st src) (c : Ctx)
    (hc : Chain a b (toks tree)) (hcur : Cursor tree offset t ps) (hps : notDeclared ps = true) {w : Around} {p : Node}
    {k : ClassUse} {name : Bytes} {ty : Ty} {r r' : Range} (hty : w.types p k = [ty])
    (hf : found = some ⟨.classUse k name (w.types p k), r, r'⟩)
    (hs : ¬ (k = .classAccess ∧ (name = b!"static" ∨ name = b!"self" ∨ name = b!"$this"))) (hX : ClassName ty.fqn) :
    ∃ res, references env st c tables tree offset found = some res ∧ ListsClass T src h W ty.fqn res :=
  listsClass_of hT hW (C99_class_use hr c hc hcur hps (hty ▸ hf) hs hX)

/-- C148: the same with the cursor on the name in the declaration of a class or an interface, in a file with one namespace. -/
theorem C148_declaration (hT : Texts T src h) (hW : Typed T src h W) (hr : Ready env root h st src) (c : Ctx)
    (hc : Chain a b (toks tree)) (hcur : Cursor tree offset t ps)
    {ty : PType} {ks rest : List Node} (hps : ps = .phr ty ks :: rest) (hty : isClassHeader ty = true)
    {i : Table} (hb : Blocks tables i) (hn : Decl.Ordinary (c.tokText t)) (h1 : (40 : UInt8) ∉ i.getNamespace)
    (h2 : (40 : UInt8) ∉ c.tokText t) :
    ∃ res, references env st c tables tree offset found = some res ∧
      ListsClass T src h W (inNamespace i.getNamespace (c.tokText t)) res :=
  listsClass_of hT hW (C100_class_partial hr c hc hcur hps hty hb hn h1 h2)

end

/-! ### the hypotheses are met -/

namespace Demo

open Analyser.Src in
/-- `class A{function m(A $a){new A();return A::K;}}` -/
def textU : Analyser.Src :=
  doc [classDecl b!"A" [methodDecl b!"m" [.p .parameterDeclaration [.p .typeDeclaration [qn b!"A"], sp, .t .variableName b!"$a"]] [stmt (create b!"A" []), ret (Analyser.constOf b!"A" b!"K")]]]

/-- Its symbols. -/
def fileU : File where
  tables := [⟨⟨0, 0⟩, none, [], [], []⟩]
  symbols := [⟨.class_ b!"\\A", rg 1 0 47, rg 1 6 7⟩, ⟨.method b!"m", rg 1 8 46, rg 1 17 18⟩,
    ⟨.classUse .typeDeclaration b!"A" [⟨b!"\\A", b!"A", 0⟩], rg 1 19 20, rg 0 0 0⟩,
    ⟨.classUse .designator b!"A" [⟨b!"\\A", b!"A", 0⟩], rg 1 29 30, rg 0 0 0⟩, ⟨.other, rg 1 30 32, rg 0 0 0⟩,
    ⟨.classUse .classAccess b!"A" [⟨b!"\\A", b!"A", 0⟩], rg 1 40 41, rg 0 0 0⟩, ⟨.scopedConstantAccess b!"K", rg 1 43 44, rg 0 0 0⟩]

def docU : Doc := ⟨Store.Demo.uA, b!"1", [], [], (recorded fileU).getD []⟩
def srcU (_ : Doc) : File := fileU
def histU : List HOp := [.upgrade b!"v0.0.16", .index docU]
def stU : Store := (Store.run Store.Demo.env Store.Demo.root histU).getD (Store.Store.new Store.Demo.root)

/-- The text of the file. -/
def textsU (u : Bytes) : Option (Ctx × Node) := if u = Store.Demo.uA then some (textU.ctx, textU.root) else none

/-- In the class `A`, without imports. -/
def aroundU (_ : Bytes) (_ : Node) : Around where
  env := ⟨textU.ctx, Imports.newTable ⟨0, 0⟩, none, none, id⟩
  cls := some (.class_ ⟨b!"\\A", b!"A", 0⟩ ⟨[], [], 0⟩)
  anonymous := fun _ => ⟨[], [], 0⟩

theorem docU_ok : Store.DocOK Store.Demo.env docU where
  uri := Store.Demo.uA_ok
  len := by decide
  syms := by simp [docU]
  refsLen := by decide +kernel
  refs := by
    intro r hr
    exact Store.Demo.short ((by decide +kernel : ∀ r ∈ docU.refs, r.1.length < 1000) r hr)

theorem docs_histU : Store.docs histU = [docU] := rfl

theorem readyU : Ready Store.Demo.env Store.Demo.root histU stU srcU where
  environment := Store.Demo.env_ok
  filter := Store.Demo.filter_ok
  hist := by
    refine ⟨?_, ?_, by simp [Store.Keeps, histU]⟩
    · rw [docs_histU]
      simp [docU_ok]
    · intro d1 h1 d2 h2 c1 c2 m1 m2 _ _
      rw [docs_histU] at h1 h2
      simp only [List.mem_singleton] at h1 h2
      subst h1
      simp [docU] at m1
  inside := by
    intro o ho
    have hA : Store.InWorkspace Store.Demo.root Store.Demo.uA := by constructor <;> decide
    simp only [histU, List.mem_cons, List.not_mem_nil, or_false] at ho
    rcases ho with rfl | rfl
    · trivial
    · exact fun _ => hA
  result := by
    have : (Store.run Store.Demo.env Store.Demo.root histU).isSome = true := by decide +kernel
    rw [stU]
    revert this
    cases Store.run Store.Demo.env Store.Demo.root histU <;> simp
  recorded := by
    intro d hd
    rw [docs_histU] at hd
    rw [List.mem_singleton.mp hd]
    show recorded fileU = some ((recorded fileU).getD [])
    have : (recorded fileU).isSome = true := by decide +kernel
    revert this
    cases recorded fileU <;> simp

theorem latestU (u : Bytes) : Store.latest histU u = if u = Store.Demo.uA then some docU else none := by
  simp only [Store.latest, histU, List.foldl_cons, List.foldl_nil, Store.latestStep]
  rfl

theorem symbolsU : flat (symbolsOf textU.ctx textU.root) = [⟨.class_, ⟨⟨1, 0⟩, ⟨1, 47⟩⟩, b!"\\A", []⟩,
    ⟨.method, ⟨⟨1, 8⟩, ⟨1, 46⟩⟩, b!"m", b!"\\A"⟩, ⟨.typeDeclaration, ⟨⟨1, 19⟩, ⟨1, 20⟩⟩, b!"A", []⟩,
    ⟨.designator, ⟨⟨1, 29⟩, ⟨1, 30⟩⟩, [], []⟩,
    ⟨.argumentList, ⟨⟨1, 30⟩, ⟨1, 32⟩⟩, b!"()", []⟩, ⟨.classAccess, ⟨⟨1, 40⟩, ⟨1, 41⟩⟩, b!"A", []⟩,
    ⟨.scopedConstantAccess, ⟨⟨1, 43⟩, ⟨1, 44⟩⟩, b!"K", []⟩] := by decide +kernel

theorem textsU_ok : Texts textsU srcU histU where
  files u := by
    rw [latestU, textsU]
    split <;> rfl
  symbols u c root d hu hl := by
    rw [textsU] at hu
    split at hu
    · injection hu with hu
      injection hu with h1 h2
      subst h1 h2
      rw [symbolsU]
      refine .cons ⟨rfl, rfl⟩ (.cons ⟨rfl, rfl⟩ (.cons ⟨rfl, rfl⟩ (.cons ⟨rfl, rfl⟩ (.cons ⟨rfl, rfl⟩ (.cons ⟨rfl, rfl⟩ (.cons ⟨rfl, rfl⟩ .nil))))))
    · cases hu
  orderly u c root hu := by
    rw [textsU] at hu
    split at hu
    · injection hu with hu
      injection hu with h1 h2
      subst h1 h2
      have : (textU.root.kids.all Node.orderly) = true := by decide +kernel
      exact List.all_eq_true.mp this
    · cases hu

/-- The names of classes at a node. -/
def classesAt : Node → List (ClassUse × Node)
  | .phr ty ks =>
    (if ty = .scopedCallExpression ∨ ty = .scopedPropertyAccessExpression ∨ ty = .classConstantAccessExpression then
      (ks.take 1).map fun p => (.classAccess, p) else []) ++
    (if ty = .objectCreationExpression then (ks.filter (·.isPhrase .classTypeDesignator)).map fun p => (.designator, p) else []) ++
    (if ty = .instanceofTypeDesignator ∨ ty = .catchNameList then (ks.filter Node.isName).map fun p => (.classAccess, p) else []) ++
    (if ty = .parameterDeclaration then (ks.filter (·.isPhrase .typeDeclaration)).map fun p => (.typeDeclaration, p) else []) ++
    (if ty = .classDeclarationHeader ∨ ty = .anonymousClassDeclarationHeader then
      ks.flatMap fun k => (k.kids.filter Node.isName).map (fun p => (.classAccess, p)) ++
        k.kids.flatMap fun l => (l.kids.filter Node.isName).map fun p => (.interfaceAccess, p) else []) ++
    if ty = .traitUseClause then ks.flatMap fun l => (l.kids.filter Node.isName).map fun p => (.traitAccess, p) else []
  | _ => []

theorem mem_classesAt {n p : Node} {k : ClassUse} (h : ClassIn n k p) : (k, p) ∈ classesAt n := by
  cases h with
  | scope h1 h2 => simp [classesAt, h1]
  | new h1 h2 => simp [classesAt, h1, h2]
  | instanceOf h1 h2 => simp [classesAt, h2]
  | caught h1 h2 => simp [classesAt, h1, h2]
  | paramType h1 h2 => simp [classesAt, h1, h2]
  | traitUse h1 h2 h3 =>
    refine List.mem_append_right _ ?_
    rw [if_pos rfl]
    exact List.mem_flatMap.mpr ⟨_, h1, List.mem_map.mpr ⟨_, List.mem_filter.mpr ⟨h2, h3⟩, rfl⟩⟩
  | extends_ h1 h2 h3 h4 =>
    refine List.mem_append_left _ (List.mem_append_right _ ?_)
    rw [if_pos h1]
    exact List.mem_flatMap.mpr ⟨_, h2, List.mem_append_left _ (List.mem_map.mpr ⟨_, List.mem_filter.mpr ⟨by simp [Node.kids], h3⟩, rfl⟩)⟩
  | @implements_ ty ks pre post ms p h1 h2 h3 h4 h5 =>
    refine List.mem_append_left _ (List.mem_append_right _ ?_)
    rw [if_pos h1]
    exact List.mem_flatMap.mpr ⟨_, h2, List.mem_append_right _ (List.mem_flatMap.mpr ⟨.phr .qualifiedNameList ms, by simp [Node.kids],
      List.mem_map.mpr ⟨_, List.mem_filter.mpr ⟨h4, h5⟩, rfl⟩⟩)⟩

/-- The nodes of the text. -/
def nodesU : List Node := (Analyser.placesInAll (Analyser.places textU.ctx) ⟨textU.ctx.range textU.root, none⟩ textU.root.kids).map (·.2)

theorem mem_nodesU {σ : Analyser.Place} {n : Node} : SitsIn textU.ctx textU.root σ n → n ∈ nodesU := fun h =>
  List.mem_map.mpr ⟨_, Analyser.sitsIn_iff.mp h, rfl⟩

theorem sits_nodesU {n : Node} (h : n ∈ nodesU) : ∃ σ, SitsIn textU.ctx textU.root σ n := by
  obtain ⟨⟨σ, m⟩, hm, rfl⟩ := List.mem_map.mp h
  exact ⟨σ, Analyser.sitsIn_iff.mpr hm⟩

theorem typedU : Typed textsU srcU histU aroundU where
  context u c root p hu := by
    rw [textsU] at hu
    split at hu
    · injection hu with hu
      injection hu with h1 h2
    · cases hu
  symbols u c root d hu hl := by
    rw [textsU] at hu
    split at hu
    · injection hu with hu
      injection hu with h1 h2
      subst h1 h2
      rw [symbolsU]
      have all : ∀ n ∈ nodesU, ∀ x ∈ classesAt n, (aroundU u x.2).types x.2 x.1 = [⟨b!"\\A", b!"A", 0⟩] := by
        have : (nodesU.all fun n => (classesAt n).all fun x => decide ((aroundU [] x.2).types x.2 x.1 = [⟨b!"\\A", b!"A", 0⟩])) = true := by
          decide +kernel
        intro n hn x hx
        have := List.all_eq_true.mp (List.all_eq_true.mp this n hn) x hx
        exact of_decide_eq_true this
      have one : (nodesU.any fun p => p.isPhrase .classTypeDesignator && decide (textU.ctx.range p = ⟨⟨1, 29⟩, ⟨1, 30⟩⟩) &&
          decide ((aroundU [] p).types p .designator = [⟨b!"\\A", b!"A", 0⟩])) = true := by decide +kernel
      have two : (nodesU.any fun p => p.isPhrase .qualifiedName && decide (textU.ctx.range p = ⟨⟨1, 40⟩, ⟨1, 41⟩⟩) &&
          decide ((aroundU [] p).types p .classAccess = [⟨b!"\\A", b!"A", 0⟩])) = true := by decide +kernel
      have three : (nodesU.any fun p => p.isPhrase .typeDeclaration && decide (textU.ctx.range p = ⟨⟨1, 19⟩, ⟨1, 20⟩⟩) &&
          decide ((aroundU [] p).types p .typeDeclaration = [⟨b!"\\A", b!"A", 0⟩])) = true := by decide +kernel
      obtain ⟨p3, hp3, e3⟩ := List.any_eq_true.mp three
      obtain ⟨p1, hp1, e1⟩ := List.any_eq_true.mp one
      obtain ⟨p2, hp2, e2⟩ := List.any_eq_true.mp two
      simp only [Bool.and_eq_true, decide_eq_true_eq] at e1 e2 e3
      obtain ⟨σ1, s1⟩ := sits_nodesU hp1
      obtain ⟨σ2, s2⟩ := sits_nodesU hp2
      obtain ⟨σ3, s3⟩ := sits_nodesU hp3
      have w1 : couldBe p1 .designator := by
        obtain ⟨⟨h, -⟩, -⟩ := e1
        cases p1 with
        | tok t => cases h
        | err t => cases h
        | phr ty ks =>
          have : ty = .classTypeDesignator := by simpa [Node.isPhrase] using h
          subst this; rfl
      have w2 : couldBe p2 .classAccess := by
        obtain ⟨⟨h, -⟩, -⟩ := e2
        cases p2 with
        | tok t => cases h
        | err t => cases h
        | phr ty ks => rfl
      refine .cons ?_ (.cons ?_ (.cons ?_ (.cons ?_ (.cons ?_ (.cons ?_ (.cons ?_ .nil))))))
      · intro k name types h; cases h
      · intro k name types h; cases h
      · exact ⟨_, _, rfl, fun h => (by cases h), ⟨σ3, p3, s3, e3.1.1, e3.1.2.symm, e3.2.symm⟩,
          fun e n p h1 h2 _ => (all n (mem_nodesU h1.sits) _ (mem_classesAt h2)).symm⟩
      · exact ⟨_, _, rfl, fun h => (by cases h), ⟨σ1, p1, s1, w1, e1.1.2.symm, e1.2.symm⟩,
          fun e n p h1 h2 _ => (all n (mem_nodesU h1.sits) _ (mem_classesAt h2)).symm⟩
      · intro k name types h; cases h
      · exact ⟨_, _, rfl, fun _ => rfl, ⟨σ2, p2, s2, w2, e2.1.2.symm, e2.2.symm⟩,
          fun e n p h1 h2 _ => (all n (mem_nodesU h1.sits) _ (mem_classesAt h2)).symm⟩
      · intro k name types h; cases h
    · cases hu

end Demo

open Demo

/-- C148: find references on the declaration of `A` lists the declaration and the three uses in the file. -/
example : UsesSupported textU.ctx textU.root ∧ textU.text = b!"<?php\nclass A{function m(A $a){new A();return A::K;}}" ∧
    ∃ res, references Store.Demo.env stU (ctx b!"class A") fileU.tables (header .classDeclarationHeader 5 1) 7 none = some res ∧
      ListsClass textsU srcU histU aroundU b!"\\A" res :=
  ⟨by decide +kernel, by decide +kernel,
    C148_declaration textsU_ok typedU readyU (ctx b!"class A") (header_chain _ 5 1) (header_cursor _ 5 1 (by decide)) rfl rfl blocksA
      (by unfold Decl.Ordinary; decide +kernel) (by decide) (by decide)⟩

/-- C148: and so does find references on the `A` after `new`. -/
example : ∃ res, references Store.Demo.env stU (ctx b!"A") fileU.tables (use 1) 1
      (some ⟨.classUse .designator b!"A" ((aroundU [] (.phr .classTypeDesignator [])).types (.phr .classTypeDesignator
        [.phr .qualifiedName [.tok ⟨.name, 12, 1⟩]]) .designator), rg 1 29 30, rg 0 0 0⟩) = some res ∧
    ListsClass textsU srcU histU aroundU b!"\\A" res :=
  C148_use (ty := ⟨b!"\\A", b!"A", 0⟩) textsU_ok typedU readyU _ (use_chain 1) (use_cursor 1 (by decide)) rfl (by decide +kernel) rfl (by simp)
    (by unfold ClassName; decide)

example : (references Store.Demo.env stU (ctx b!"class A") fileU.tables (header .classDeclarationHeader 5 1) 7 none).map
    (fun l => l.map fun e => (e.1 == Store.Demo.uA, e.2.start.character.toNat)) = some [(true, 6), (true, 19), (true, 29), (true, 40)] := by
  decide +kernel

end Verif.References
