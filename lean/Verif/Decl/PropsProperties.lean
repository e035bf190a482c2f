import Verif.Decl.Properties
import Verif.Analyser.Closed
import Verif.Infer.Inv

/-! C144: the types of properties, from the text of the class. -/

namespace Verif.Decl
open Verif.Analyser (Node PType TokType Tok Ctx Src Item tyOf)
open Verif.Types (Ty Union merge natives)

/-! ### The name is the one that is recorded -/

theorem skipArrow_scan (c : Ctx) (ks : List Item) (r : Rng) :
    (Analyser.skipArrow c ks r).1.map Item.node = skipArrow (ks.map Item.node) ∧
      ∀ k ∈ (Analyser.skipArrow c ks r).1, k ∈ ks := by
  induction ks generalizing r with
  | nil => exact ⟨rfl, fun _ h => h⟩
  | cons k ks ih =>
    have hn : tokType? k.node = k.tok?.map (·.type) := by
      unfold Item.tok?
      cases k.node <;> rfl
    unfold Analyser.skipArrow
    rw [List.map_cons, skipArrow, hn]
    cases ht : k.tok? with
    | none => exact ⟨by simp, fun _ h => h⟩
    | some t =>
      simp only [Option.map_some, Option.some.injEq]
      by_cases h1 : t.type = .whitespace
      · rw [if_pos h1, if_pos (.inl h1)]
        exact ⟨(ih r).1, fun x hx => List.mem_cons_of_mem _ ((ih r).2 x hx)⟩
      · rw [if_neg h1]
        by_cases h2 : t.type = .arrow
        · rw [if_pos h2, if_pos (.inr h2)]
          exact ⟨(ih _).1, fun x hx => List.mem_cons_of_mem _ ((ih _).2 x hx)⟩
        · rw [if_neg h2, if_neg (by simp [h1, h2])]
          exact ⟨rfl, fun _ h => h⟩

theorem memberNameOf_scan (c : Ctx) (ks : List Item) (name : Bytes) :
    (Analyser.memberNameOf c ks name).1 = memberNameOf c (ks.map Item.node) name := by
  induction ks generalizing name with
  | nil => rfl
  | cons k ks ih =>
    have hn : tokType? k.node = k.tok?.map (·.type) := by
      unfold Item.tok?
      cases k.node <;> rfl
    have hp : typ? k.node = k.type? := by
      unfold Item.type?
      cases k.node <;> rfl
    unfold Analyser.memberNameOf
    rw [List.map_cons, memberNameOf, hp, hn]
    by_cases h1 : k.type? = some .simpleVariable
    · rw [if_pos h1, if_pos h1]
    · rw [if_neg h1, if_neg h1]
      have ht' : ∀ t, k.tok? = some t → c.nodeText k.node = c.tokText t := by
        intro t ht
        unfold Item.tok? at ht
        cases hk : k.node with
        | tok t' => rw [hk] at ht; cases ht; rfl
        | phr _ _ => rw [hk] at ht; cases ht
        | err _ => rw [hk] at ht; cases ht
      cases ht : k.tok? with
      | none => simp [ih]
      | some t => simp [ih, ht' t ht]

/-- The name of a member is the one that the model of the whole analysis (C64) records for the access. -/
theorem readMemberName_scan (c : Ctx) (ks : List Item) (hk : ∀ k ∈ ks, k.kids.map Item.node = k.node.kids) (st : Analyser.St) :
    (Analyser.readMemberName c ks st).2.2.1 = readMemberName c (ks.map Item.node) := by
  obtain ⟨h1, h2⟩ := skipArrow_scan c ks Analyser.zeroRng
  unfold Analyser.readMemberName readMemberName
  rw [← h1]
  cases hs : Analyser.skipArrow c ks Analyser.zeroRng with
  | mk l r =>
    rw [hs] at h2
    cases l with
    | nil => rfl
    | cons m rest =>
      have hp : typ? m.node = m.type? := by
        unfold Item.type?
        cases m.node <;> rfl
      have hn : tokType? m.node = m.tok?.map (·.type) := by
        unfold Item.tok?
        cases m.node <;> rfl
      simp only [List.map_cons]
      rw [hp, hn]
      by_cases h3 : m.type? = some .memberName
      · rw [if_pos h3, if_pos h3, ← hk m (h2 m List.mem_cons_self), ← memberNameOf_scan]
        cases Analyser.memberNameOf c m.kids [] with
        | mk name o => cases o <;> rfl
      · rw [if_neg h3, if_neg h3]
        cases ht : m.tok? with
        | none => simp
        | some t =>
          have : c.nodeText m.node = c.tokText t := by
            unfold Item.tok? at ht
            cases hk : m.node with
            | tok t' => rw [hk] at ht; cases ht; rfl
            | phr _ _ => rw [hk] at ht; cases ht
            | err _ => rw [hk] at ht; cases ht
          by_cases h4 : t.type = .name <;> simp [h4, this]

/-! ### The types of the declaration -/

/-- The first `@var` tag of the doc comment above names the type `q`. -/
def VarDocumented (env : Env) (n : Node) (q : Bytes) : Prop :=
  ∃ d pre k post, DocApplies env n (some d) ∧ d.kids = pre ++ k :: post ∧ IsTag env.ctx b!"@var" k ∧
    (∀ x ∈ pre, ¬ IsTag env.ctx b!"@var" x) ∧ TagNames env k q

theorem first_tag {c : Ctx} {name : Bytes} {ks : List Node} (h : ∃ k ∈ ks, IsTag c name k) :
    ∃ pre k post, ks = pre ++ k :: post ∧ IsTag c name k ∧ ∀ x ∈ pre, ¬ IsTag c name x := by
  induction ks with
  | nil => obtain ⟨k, hk, -⟩ := h; cases hk
  | cons a ks ih =>
    by_cases ha : IsTag c name a
    · exact ⟨[], a, ks, rfl, ha, by simp⟩
    · obtain ⟨k, hk, h'⟩ := h
      rcases List.mem_cons.1 hk with rfl | hk
      · exact absurd h' ha
      · obtain ⟨pre, k, post, rfl, h1, h2⟩ := ih ⟨k, hk, h'⟩
        refine ⟨a :: pre, k, post, rfl, h1, fun x hx => ?_⟩
        rcases List.mem_cons.1 hx with rfl | hx
        · exact ha
        · exact h2 x hx

/-- The types of a property that is declared are those of its doc comment. -/
theorem newProperty_types (env : Env) (m : Modifiers) (es : List Node)
    (hd : DocApplies env (.phr .propertyElement es) none ∨ ∃ d, DocApplies env (.phr .propertyElement es) (some d)) (q : Bytes) :
    q ∈ (newProperty env m (.phr .propertyElement es)).types.map Ty.fqn ↔ VarDocumented env (.phr .propertyElement es) q := by
  rcases hd with hd | ⟨d, hd⟩
  · have : (newProperty env m (.phr .propertyElement es)).types = [] := by
      unfold newProperty
      rw [validDoc_none env _ hd]
    rw [this]
    simp only [List.map_nil, List.not_mem_nil, false_iff]
    rintro ⟨d, -, -, -, h, -⟩
    have h1 := validDoc_none env _ hd
    rw [validDoc_of env _ d h] at h1
    cases h1
  · by_cases ht : ∃ k ∈ d.kids, IsTag env.ctx b!"@var" k
    · obtain ⟨pre, k, post, h1, h2, h3⟩ := first_tag ht
      rw [C81_property env m es d q hd pre post k h1 h2 h3]
      constructor
      · intro h
        exact ⟨d, pre, k, post, hd, h1, h2, h3, h⟩
      · rintro ⟨d', pre', k', post', g0, g1, g2, g3, g4⟩
        have e1 := C81_property env m es d' q g0 pre' post' k' g1 g2 g3
        rw [C81_property env m es d q hd pre post k h1 h2 h3] at e1
        exact e1.2 g4
    · have hnone : ∀ d, DocApplies env (.phr .propertyElement es) (some d) → (∃ k ∈ d.kids, IsTag env.ctx b!"@var" k) →
          ∃ t rest, (newPhpDoc env d).byName b!"@var" = t :: rest := by
        intro d _ h
        obtain ⟨k, hk, h1, h2⟩ := h
        have hname := (getTagName_eq env _ _ (by decide)).2 h2
        obtain ⟨t, hp, -⟩ := var_read env k hname
        have : t ∈ (newPhpDoc env d).byName b!"@var" := by
          refine List.mem_filter.2 ⟨List.mem_filterMap.2 ⟨k, List.mem_filter.2 ⟨hk, (isDocTag_iff k).2 h1⟩, hp⟩, ?_⟩
          rw [(parseTag_types hp).1, hname]; rfl
        cases hb : (newPhpDoc env d).byName b!"@var" with
        | nil => rw [hb] at this; cases this
        | cons t rest => exact ⟨t, rest, rfl⟩
      have hnil : (newPhpDoc env d).byName b!"@var" = [] := by
        refine List.filter_eq_nil_iff.2 fun t h hh => ?_
        obtain ⟨k, hk, hp⟩ := List.mem_filterMap.1 h
        obtain ⟨hk, hkd⟩ := List.mem_filter.1 hk
        refine ht ⟨k, hk, (isDocTag_iff k).1 hkd, (getTagName_eq env _ _ (by decide)).1 ?_⟩
        rw [← (parseTag_types hp).1]
        simpa using hh
      have : (newProperty env m (.phr .propertyElement es)).types = [] := by
        unfold newProperty
        rw [validDoc_of env _ d hd]
        unfold PropertyRec.applyDoc
        simp only [hnil]
      rw [this]
      simp only [List.map_nil, List.not_mem_nil, false_iff]
      rintro ⟨d', pre', k', post', g0, g1, g2, g3, g4⟩
      obtain ⟨t, rest, h⟩ := hnone d' g0 ⟨k', by rw [g1]; simp, g2⟩
      have h1 := validDoc_of env _ d hd
      rw [validDoc_of env _ d' g0] at h1
      rw [Option.some.inj h1, hnil] at h
      cases h

/-- C144: a property has exactly the types that the first `@var` tag of its doc comment names and those of what the
constructor assigns to it: of `$this->name = …` in a method `__construct` behind the property, if no property or `@property` tag
before it has the same name. `pre` and `post` are what is before and behind the class, `b1` and `b2` what is in it before and
behind the property. -/
theorem C144_property (pre b1 b2 post : List PropEvent) (env : Env) (m : Modifiers) (es : List Node) (name : Tok)
    (hname : OnlyToken .variableName es name)
    (hdoc : DocApplies env (.phr .propertyElement es) none ∨ ∃ d, DocApplies env (.phr .propertyElement es) (some d))
    (hin : ∀ e ∈ b1 ++ b2, e.isInside) (hw : NamesWritten b2) (hpost : NoMoreAssigned post)
    (hfirst : ∀ x ∈ declaredIn b1, x.name ≠ env.ctx.tokText name) :
    ∃ ps p, (propertiesOf (pre ++ .enter :: (b1 ++ .declare env m (.phr .propertyElement es) :: b2 ++ .leave :: post)))[entered pre]? =
        some ps ∧
      ps[(declaredIn b1).length]? = some p ∧ p.name = env.ctx.tokText name ∧
      p.range = env.ctx.range (.phr .propertyElement es) ∧
      ∀ q, q ∈ p.types.map Ty.fqn ↔
        VarDocumented env (.phr .propertyElement es) q ∨ AssignedType b2 (env.ctx.tokText name) q := by
  obtain ⟨ps, p, h1, h2, h3, h4, h5⟩ := C144_types pre b1 b2 post env m (.phr .propertyElement es) hin hw hpost
  have hn : p.name = env.ctx.tokText name := by
    rw [h3]
    unfold newProperty
    have : (lastOf (tokText? env.ctx .variableName) es []) = env.ctx.tokText name := hname.text _
    simp only
    split
    · unfold PropertyRec.applyDoc
      simp only
      split <;> exact this
    · exact this
  refine ⟨ps, p, h1, h2, hn, h4, fun q => ?_⟩
  rw [h5, newProperty_types env m es hdoc q, hn]
  exact or_congr Iff.rfl ⟨fun h => h.2, fun h => ⟨hfirst, h⟩⟩

/-! ### What is assigned -/

/-- C144: `$this->name = new Foo` in the constructor gives the property the class that the imports and the namespace give. -/
theorem C144_new (es : List PropEvent) (c : Ctx) (block : Option Bytes) (n : Node) (name : Bytes) (cls : Union) (st : Infer.St)
    (range : Rng) (callee args : Infer.Src) (env : Env) (here : Option Enclosing) (anonymous : Node → Ty) (p d x : Node)
    (hev : .assign c block n (Infer.scan cls (.create range (creation env here anonymous p).2 callee args) st).2 ∈ es)
    (ha : AssignsProperty c block n name)
    (hd : OnlyPhrase .classTypeDesignator p.kids d) (hno : NoPhrase .anonymousClassDeclaration p.kids)
    (hx : OnlyName d.kids x) (hrel : NoPhrase relativeScopePhrase d.kids) (hr : Resolvable env.table (env.ctx.nodeText x)) :
    AssignedType es name
      (Imports.phpClassName natives env.table.getNamespace (Imports.names env.table.classes) (env.ctx.nodeText x)) := by
  refine ⟨c, block, n, _, hev, ha, ?_⟩
  have h := (C142_new env here anonymous p d hd hno).1 x hx hrel hr
  show _ ∈ (merge [] (creation env here anonymous p).2).map Ty.fqn
  rw [mem_merge_fqn, h]
  exact .inr (List.mem_singleton.mpr rfl)

/-- The parameters are the variables that are known at the end of the header. -/
theorem params_table (header : Pos) (ps : List (Bytes × Rng × Union)) {st : Infer.St} {m : Bytes → Option Infer.Expr}
    (ht : Infer.Table st m header) :
    Infer.Table (ps.foldl (Infer.addParam header) st)
      (ps.foldl (fun m p => Infer.upd m p.1 (Infer.mkVar p.1 p.2.2 false .nothing)) m) header := by
  induction ps generalizing st m with
  | nil => exact ht
  | cons p ps ih => exact ih (ht.push p.1 p.2.1 _ header true (Infer.upto_refl _) rfl rfl)

theorem params_last (ps : List (Bytes × Rng × Union)) (m : Bytes → Option Infer.Expr) (name : Bytes)
    (h : ∀ p ∈ ps, p.1 ≠ name) :
    (ps.foldl (fun m p => Infer.upd m p.1 (Infer.mkVar p.1 p.2.2 false .nothing)) m) name = m name := by
  induction ps generalizing m with
  | nil => rfl
  | cons p ps ih =>
    rw [List.foldl_cons, ih _ fun p hp => h p (List.mem_cons_of_mem _ hp)]
    exact if_neg fun e => h p List.mem_cons_self e.symm

/-- The types of a variable of a function in which it is a parameter and nothing was assigned to it. -/
theorem parameter_types (cls : Union) (objects : List Infer.Expr) (seen : List (Rng × Infer.Expr)) (header : Pos)
    (ps ps' : List (Bytes × Rng × Union)) (name : Bytes) (r range : Rng) (ts : Union) (hn : name ≠ b!"$this")
    (hlast : ∀ p ∈ ps', p.1 ≠ name) (hpos : Infer.Upto header range.stop) (q : Bytes) :
    q ∈ (Infer.scan cls (.var name range []) ((ps ++ (name, r, ts) :: ps').foldl (Infer.addParam header)
        { objects := objects, top := false, seen := seen })).2.getTypes.map Ty.fqn ↔ q ∈ ts.map Ty.fqn := by
  have ht : Infer.Table (st := { objects := objects, top := false, seen := seen }) (fun _ => none) header :=
    ⟨[], rfl, by simp, List.Pairwise.nil, by simp, fun n => by simp⟩
  have hT := params_table header (ps ++ (name, r, ts) :: ps') ht
  have hf := hT.find name range.stop hpos
  have hm : ((ps ++ (name, r, ts) :: ps').foldl (fun m p => Infer.upd m p.1 (Infer.mkVar p.1 p.2.2 false .nothing))
      (fun _ => none)) name = some (Infer.mkVar name ts false .nothing) := by
    rw [List.foldl_append, List.foldl_cons, params_last _ _ _ hlast]
    simp [Infer.upd]
  rw [hm] at hf
  generalize (ps ++ (name, r, ts) :: ps').foldl (Infer.addParam header) { objects := objects, top := false, seen := seen } = st at hf
  have e : ∃ cg, (Infer.scan cls (.var name range []) st).2 = .variable name (merge (merge [] []) ts) cg false .nothing := by
    simp only [Infer.scan, Infer.St.merged, hf, Infer.mergeWith?, Infer.newVariable, if_neg hn, Infer.mkVar, Infer.mergeWith]
    split
    · exact ⟨true, rfl⟩
    · exact ⟨false, rfl⟩
  obtain ⟨cg, e⟩ := e
  rw [e]
  show q ∈ (merge (merge [] []) ts).map Ty.fqn ↔ _
  rw [mem_merge_fqn, mem_merge_fqn]
  simp

/-- C144: `$this->name = $x` in the constructor, where `$x` is a parameter that nothing was assigned to, gives the property the
types of the parameter. -/
theorem C144_parameter (es : List PropEvent) (c : Ctx) (block : Option Bytes) (n : Node) (name : Bytes) (cls : Union)
    (objects : List Infer.Expr) (seen : List (Rng × Infer.Expr)) (header : Pos) (ps ps' : List (Bytes × Rng × Union)) (x : Bytes)
    (r range : Rng) (ts : Union)
    (hev : .assign c block n (Infer.scan cls (.var x range []) ((ps ++ (x, r, ts) :: ps').foldl (Infer.addParam header)
      { objects := objects, top := false, seen := seen })).2 ∈ es)
    (ha : AssignsProperty c block n name) (hx : x ≠ b!"$this") (hlast : ∀ p ∈ ps', p.1 ≠ x)
    (hpos : Infer.Upto header range.stop) (q : Bytes) (hq : q ∈ ts.map Ty.fqn) : AssignedType es name q :=
  ⟨c, block, n, _, hev, ha, (parameter_types cls objects seen header ps ps' x r range ts hx hlast hpos q).mpr hq⟩

/-! ### Examples and findings -/

/-- `$a` and `$b` as declared, and `$this->a = new Foo`, `$this->b = $x`, `$this->$a = $x` of a constructor. -/
def srcInit : Src := .p .statementList [
  .p .propertyElement [.t .variableName b!"$a"],
  .p .propertyElement [.t .variableName b!"$b"],
  .p .simpleAssignmentExpression [.p .propertyAccessExpression [.p .simpleVariable [.t .variableName b!"$this"],
    .t .arrow b!"->", .p .memberName [nm b!"a"]], ws b!" ", .t .equals b!"=", ws b!" ",
    .p .objectCreationExpression [tk b!"new", ws b!" ", .p .classTypeDesignator [.p .qualifiedName [nm b!"Foo"]]]],
  .p .simpleAssignmentExpression [.p .propertyAccessExpression [.p .simpleVariable [.t .variableName b!"$this"],
    .t .arrow b!"->", .p .memberName [nm b!"b"]], ws b!" ", .t .equals b!"=", ws b!" ",
    .p .simpleVariable [.t .variableName b!"$x"]],
  .p .simpleAssignmentExpression [.p .propertyAccessExpression [.p .simpleVariable [.t .variableName b!"$this"],
    .t .arrow b!"->", .p .memberName [.p .simpleVariable [.t .variableName b!"$a"]]], ws b!" ", .t .equals b!"=", ws b!" ",
    .p .simpleVariable [.t .variableName b!"$x"]]]

/-- `namespace App; use Lib\Foo;` -/
def ienv : Env := { senv0 with ctx := srcInit.ctx }

/-- A node of the example. -/
def initAt (i : Nat) : Node := srcInit.root.kids.getD i srcInit.root

/-- The expression `new Foo`. -/
def newFoo : Infer.Expr :=
  (Infer.scan [] (.create Analyser.zeroRng (creation ienv none (fun _ => ⟨[], [], 0⟩) (sub (initAt 2) 4)).2 .skip .skip) {}).2

/-- `$x`, a parameter of the type `\App\Bar`. -/
def theX : Infer.Expr :=
  (Infer.scan [] (.var b!"$x" ⟨⟨2, 0⟩, ⟨2, 2⟩⟩ []) ([(b!"$x", ⟨⟨1, 0⟩, ⟨1, 2⟩⟩, [⟨b!"\\App\\Bar", b!"Bar", 0⟩])].foldl
    (Infer.addParam ⟨1, 9⟩) { top := false })).2

/-- `private $a;` -/
def declA : PropEvent := .declare ienv { noModifiers with vis := .private_ } (initAt 0)
/-- `private $b;` -/
def declB : PropEvent := .declare ienv { noModifiers with vis := .private_ } (initAt 1)
/-- `$this->a = new Foo;` in the constructor -/
def setA : PropEvent := .assign ienv.ctx (some b!"__construct") (initAt 2) newFoo
/-- `$this->b = $x;` in the constructor -/
def setB : PropEvent := .assign ienv.ctx (some b!"__construct") (initAt 3) theX

/-- The names and types of properties. -/
def namesAndTypes (es : List PropEvent) : List (List (Bytes × List Bytes)) :=
  (propertiesOf es).map fun ps => ps.map fun p => (p.name, p.types.map Ty.fqn)

theorem writes_member (n : Node) (t : Tok) (w : Bytes) (_ : sub n 0 = .phr .propertyAccessExpression
      [sub (sub n 0) 0, sub (sub n 0) 1, .phr .memberName [.tok t]])
    (ha : tokType? (sub (sub n 0) 1) = some .arrow) (ht : t.type = .name) (hw : ienv.ctx.tokText t = w) (hw0 : w ≠ [])
    (hw1 : w.head? ≠ some 36) : WritesMember ienv.ctx [sub (sub n 0) 1, .phr .memberName [.tok t]] w := by
  refine ⟨[sub (sub n 0) 1], _, [], rfl, fun k hk => ?_, .inl ⟨⟨_, rfl⟩, .of_filter rfl, t, ?_, hw⟩, hw0, hw1⟩
  · rw [List.mem_singleton.1 hk]
    exact .inr ((tokType_iff _ _).1 ha)
  · exact ⟨[], [], rfl, ht, by simp⟩

/-- Non-vacuity of C144: `class A { private $a; private $b; function __construct(Bar $x) { $this->a = new Foo; $this->b = $x; } }`
makes `$a` a `\Lib\Foo` and `$b` a `\App\Bar`. -/
example : OnlyToken .variableName [.tok ⟨.variableName, 0, 2⟩] ⟨.variableName, 0, 2⟩ ∧
    initAt 0 = .phr .propertyElement [.tok ⟨.variableName, 0, 2⟩] ∧ ienv.ctx.tokText ⟨.variableName, 0, 2⟩ = b!"$a" ∧
    DocApplies ienv (initAt 0) none ∧ (∀ e ∈ [] ++ [declB, setA, setB], e.isInside) ∧ NamesWritten [declB, setA, setB] ∧
    NoMoreAssigned [.enter, .leave] ∧ AssignsProperty ienv.ctx (some b!"__construct") (initAt 2) b!"$a" ∧
    AssignsProperty ienv.ctx (some b!"__construct") (initAt 3) b!"$b" ∧
    OnlyPhrase .classTypeDesignator (sub (initAt 2) 4).kids (sub (sub (initAt 2) 4) 2) ∧
    OnlyName (sub (sub (initAt 2) 4) 2).kids (sub (sub (sub (initAt 2) 4) 2) 0) ∧
    Resolvable ienv.table (ienv.ctx.nodeText (sub (sub (sub (initAt 2) 4) 2) 0)) ∧ Infer.Upto ⟨1, 9⟩ ⟨2, 2⟩ ∧
    namesAndTypes ([.enter, declA, declB, setA, setB, .leave] ++ [.enter, .leave]) =
      [[(b!"$a", [b!"\\Lib\\Foo"]), (b!"$b", [b!"\\App\\Bar"])], []] := by
  have hA : WritesMember ienv.ctx [sub (sub (initAt 2) 0) 1, sub (sub (initAt 2) 0) 2] b!"a" :=
    writes_member (initAt 2) _ _ rfl (by decide +kernel) rfl (by decide +kernel) (by decide) (by decide)
  have hB : WritesMember ienv.ctx [sub (sub (initAt 3) 0) 1, sub (sub (initAt 3) 0) 2] b!"b" :=
    writes_member (initAt 3) _ _ rfl (by decide +kernel) rfl (by decide +kernel) (by decide) (by decide)
  have tA : OfThis ienv.ctx (initAt 2) [sub (sub (initAt 2) 0) 1, sub (sub (initAt 2) 0) 2] :=
    ⟨sub (initAt 2) 0, _, sub (sub (initAt 2) 0) 0, rfl, ⟨_, rfl⟩, rfl, ⟨_, rfl⟩, by decide +kernel⟩
  have tB : OfThis ienv.ctx (initAt 3) [sub (sub (initAt 3) 0) 1, sub (sub (initAt 3) 0) 2] :=
    ⟨sub (initAt 3) 0, _, sub (sub (initAt 3) 0) 0, rfl, ⟨_, rfl⟩, rfl, ⟨_, rfl⟩, by decide +kernel⟩
  have uniq : ∀ {n : Node} {ks ks' : List Node}, OfThis ienv.ctx n ks → OfThis ienv.ctx n ks' → ks = ks' := by
    rintro n ks ks' ⟨p, r, v, h1, -, h2, -⟩ ⟨p', r', v', h1', -, h2', -⟩
    rw [h1] at h1'
    cases h1'
    rw [h2] at h2'
    cases h2'
    rfl
  refine ⟨⟨[], [], rfl, rfl, by simp⟩, rfl, by decide +kernel, fun d h => (by cases h), ?_, ?_, trivial,
    ⟨⟨_, rfl, by decide +kernel⟩, _, tA, _, hA, rfl⟩, ⟨⟨_, rfl, by decide +kernel⟩, _, tB, _, hB, rfl⟩, .of_filter rfl,
    .of_filter 0 _ rfl rfl rfl, .of _ _ (by decide +kernel), by unfold Infer.Upto Position.Before; decide, by decide +kernel⟩
  · intro e he
    simp only [List.nil_append, List.mem_cons, List.not_mem_nil, or_false] at he
    rcases he with rfl | rfl | rfl <;> trivial
  · intro c block n e he _ ks hks
    simp only [List.mem_cons, List.not_mem_nil, or_false] at he
    rcases he with h | h | h
    · cases h
    · cases h
      rw [uniq hks tA]
      exact ⟨_, hA⟩
    · cases h
      rw [uniq hks tB]
      exact ⟨_, hB⟩

/-- C144 does not extend to properties that are declared behind the constructor: they get nothing from it. -/
theorem C144_needs_above : namesAndTypes [.enter, setA, declA, .leave] = [[(b!"$a", [])]] := by decide +kernel

/-- C144 does not extend to constructors with an anonymous class in them: what they assign behind it goes to the properties of
that class. Here it is `$b` of the anonymous class that gets the type, not `$b` of the class of the constructor. -/
theorem C144_needs_no_class_inside :
    namesAndTypes [.enter, declA, declB, setA, .enter, declB, .leave, setB, .leave] =
      [[(b!"$a", [b!"\\Lib\\Foo"]), (b!"$b", [])], [(b!"$b", [b!"\\App\\Bar"])]] := by decide +kernel

/-- C144 does not extend to names that are not written out: `$this->$a = $x` assigns the property whose name is the value of `$a`,
but it is `$a` that gets the type. -/
theorem C144_needs_written :
    namesAndTypes [.enter, declA, .assign ienv.ctx (some b!"__construct") (initAt 4) theX, .leave] =
      [[(b!"$a", [b!"\\App\\Bar"])]] := by decide +kernel

end Verif.Decl
