import Verif.Whole.PropsTypes
import Verif.Decl.PropsDocs
import Verif.Decl.PropsProperties

/-! C149: the types of calls and of accesses of members, from the text of the declarations to the questions about the index:
C81 and C144 (what the analysis records) composed with C133 (what the index answers after any history). -/

namespace Verif.Whole

open Verif.Encoding Verif.Storage Verif.Store Verif.Query
open Verif.Analyser (Node PType TokType Tok)
open Verif.Decl (OnlyPhrase OnlyToken DocApplies IsTag TagNames VarDocumented AssignedType PropEvent)

variable {env : Env} {root : Bytes} {h : List HOp} {s : Store}

/-! ### Specification -/

/-- The types that are found have this name among them. -/
def NameFound (found : List Types.Union) (q : Bytes) : Prop := ∃ u ∈ found, q ∈ u.map Types.Ty.fqn

/-- The doc comment that applies to a declaration (if any) has a `@return` tag that names `q`. -/
def ReturnDocumented (denv : Decl.Env) (doc : Option Node) (q : Bytes) : Prop :=
  ∃ d, doc = some d ∧ ∃ k ∈ d.kids, IsTag denv.ctx b!"@return" k ∧ TagNames denv k q

/-- The types in the index are the ones that the analysis recorded. -/
def SameTypes (ts : TypeComposite) (u : Types.Union) : Prop := ts.map Show.ofType = u

/-- The member may be used there: the object is first of all one of the class around the access, or it may be written behind
the arrow (`ByArrow`). -/
def MayUse (a : Infer.Access) (scope : Bytes) (x : Sym) : Prop :=
  (∃ o os, a.scopeTypes = o :: os ∧ o.fqn = a.here) ∨ ByArrow a.here a.scopeName scope x

/-- `p` is the property `n` of the class `c`: the class declares it, and neither the classes it extends nor its traits have
another one. -/
structure TheProperty (env : Env) (L : Bytes → Option Doc) (c n : Bytes) (p : Property) : Prop where
  own : OwnProperty env L c n p
  only : ∀ q, Live env L (.pro q) → FromClass env L c q.scope.fqn → q.name = n → q = p

/-- `m` is the method `n` of the class `c`, in the same way; nor do its interfaces have another one. -/
structure TheMethod (env : Env) (L : Bytes → Option Doc) (c n : Bytes) (m : Method) : Prop where
  own : OwnMethod env L c n m
  only : ∀ q, Live env L (.met q) → (FromClass env L c q.scope.fqn ∨ FromInterface env L c q.scope.fqn) →
    env.lower q.name = env.lower n → q = m

/-- `f` is the function that a call of `n` means. -/
structure TheFunction (env : Env) (L : Bytes → Option Doc) (last : Imports.Table) (n : Bytes) (f : Function) : Prop where
  live : Live env L (.fn f)
  calls : Calls env L last n f.name.fqn
  only : ∀ g, Live env L (.fn g) → Calls env L last n g.name.fqn → g = f

/-! ### What the index answers -/

/-- Nothing outside. -/
def noOutside : Infer.Outside where
  globals _ := []
  functions _ := []
  props _ _ _ _ := []
  methods _ _ _ _ := []
  staticProps _ _ _ _ := []
  staticMethods _ _ _ _ := []

open Classical in
/-- Only this property and this method. -/
noncomputable def only (env : Env) (L : Bytes → Option Doc) (p : Option Property) (m : Option Method) : Infer.Outside :=
  { noOutside with
    props := fun here before c n => match p with
      | some p => if OwnProperty env L c n p ∧ ByArrow here before p.scope.fqn (.pro p) then p.types.map Show.ofType else []
      | none => []
    methods := fun here before c n => match m with
      | some m => if OwnMethod env L c n m ∧ ByArrow here before m.scope.fqn (.met m) then m.returnTypes.map Show.ofType else []
      | none => [] }

theorem only_stated (L : Bytes → Option Doc) (last : Imports.Table) (p m) : Stated env L last (only env L p m) where
  globals n t ht := by cases ht
  functions n t ht := by cases ht
  staticProps _ _ _ _ t ht := by cases ht
  staticMethods _ _ _ _ t ht := by cases ht
  props here before c n t ht := by
    cases p with
    | none => cases ht
    | some p =>
      simp only [only] at ht
      split at ht
      · next e => exact ⟨p, e.1, e.2, ht⟩
      · cases ht
  methods here before c n t ht := by
    cases m with
    | none => cases ht
    | some m =>
      simp only [only] at ht
      split at ht
      · next e => exact ⟨m, e.1, e.2, ht⟩
      · cases ht

/-- The types of the property are exactly those that are stored for it. -/
theorem property_types (he : EnvOK env) (hsl : env.LowerSlash) (hok : HistOK env h) (hs : run env root h = some s)
    (ho : OneEach env (latest h)) (hac : Acyclic env (latest h)) (last : Imports.Table) (st)
    (hst : ∀ u a c name, Resolving (worldOf env s) (st u a c name)) (p : Property) :
    ∃ N, ∀ n ni, N ≤ n → N ≤ ni → ∀ (a : Infer.Access) (c name q : Bytes), TheProperty env (latest h) c name p →
      MayUse a p.scope.fqn (.pro p) →
      (NameFound ((resolvedIn env s last n ni st).props a c name) q ↔ q ∈ (p.types.map Show.ofType).map Types.Ty.fqn) := by
  obtain ⟨o, hd⟩ := declared_exists he hok hs last
  obtain ⟨N1, hN1⟩ := C133_object he hsl hok hs hac last st hst
  obtain ⟨N2, hN2⟩ := gives_of he hsl hok hs hac last st hst _ (only_stated (latest h) last (some p) none)
  refine ⟨max N1 N2, fun n ni hn hni a c name q hp hu => ⟨?_, fun hq => ?_⟩⟩
  · rintro ⟨u, hu, hq⟩
    obtain ⟨t, ht, rfl⟩ := List.mem_map.mp hq
    obtain ⟨p', k1, k2, k3, k4⟩ := (hd.props _ _ _ _ _).mp
      ((covers_of he hsl hok hs ho last n ni st (fun _ _ _ _ => (hst _ _ _ _).reachable) o hd).props a c name u hu t ht)
    rw [hp.only p' k1 k2 (k3 hp.own.1)] at k4
    exact List.mem_map_of_mem k4
  · obtain ⟨t, ht, rfl⟩ := List.mem_map.mp hq
    rcases hu with ⟨x, xs, e1, e2⟩ | hu
    · obtain ⟨v, hv, hvt⟩ := (hN1 n ni (by omega) (by omega) a x xs e1 e2).1 c name p t hp.own ht
      exact ⟨v, hv, List.mem_map_of_mem hvt⟩
    · obtain ⟨v, hv, hvt⟩ := (hN2 n ni (by omega) (by omega)).props a c name t (by
        simp only [only]
        rw [if_pos ⟨hp.own, hu⟩]
        exact ht)
      exact ⟨v, hv, List.mem_map_of_mem hvt⟩

/-- The types of a call of the method are exactly those that are stored for it. -/
theorem method_types (he : EnvOK env) (hsl : env.LowerSlash) (hok : HistOK env h) (hs : run env root h = some s)
    (ho : OneEach env (latest h)) (hac : Acyclic env (latest h)) (last : Imports.Table) (st)
    (hst : ∀ u a c name, Resolving (worldOf env s) (st u a c name)) (m : Method) :
    ∃ N, ∀ n ni, N ≤ n → N ≤ ni → ∀ (a : Infer.Access) (c name q : Bytes), TheMethod env (latest h) c name m →
      MayUse a m.scope.fqn (.met m) →
      (NameFound ((resolvedIn env s last n ni st).methods a c name) q ↔
        q ∈ (m.returnTypes.map Show.ofType).map Types.Ty.fqn) := by
  obtain ⟨o, hd⟩ := declared_exists he hok hs last
  obtain ⟨N1, hN1⟩ := C133_object he hsl hok hs hac last st hst
  obtain ⟨N2, hN2⟩ := gives_of he hsl hok hs hac last st hst _ (only_stated (latest h) last none (some m))
  refine ⟨max N1 N2, fun n ni hn hni a c name q hp hu => ⟨?_, fun hq => ?_⟩⟩
  · rintro ⟨u, hu, hq⟩
    obtain ⟨t, ht, rfl⟩ := List.mem_map.mp hq
    obtain ⟨p', k1, k2, k3, k4⟩ := (hd.methods _ _ _ _ _).mp
      ((covers_of he hsl hok hs ho last n ni st (fun _ _ _ _ => (hst _ _ _ _).reachable) o hd).methods a c name u hu t ht)
    rw [hp.only p' k1 k2 (k3 hp.own.1)] at k4
    exact List.mem_map_of_mem k4
  · obtain ⟨t, ht, rfl⟩ := List.mem_map.mp hq
    rcases hu with ⟨x, xs, e1, e2⟩ | hu
    · obtain ⟨v, hv, hvt⟩ := (hN1 n ni (by omega) (by omega) a x xs e1 e2).2 c name m t hp.own ht
      exact ⟨v, hv, List.mem_map_of_mem hvt⟩
    · obtain ⟨v, hv, hvt⟩ := (hN2 n ni (by omega) (by omega)).methods a c name t (by
        simp only [only]
        rw [if_pos ⟨hp.own, hu⟩]
        exact ht)
      exact ⟨v, hv, List.mem_map_of_mem hvt⟩

/-! ### From the text -/

/-- C149: after any history, an access of a property has exactly the types that the text of its class gives it: those that the
first `@var` tag of its doc comment names and those of what the constructor behind it assigns to `$this->name`. -/
theorem C149_property (he : EnvOK env) (hsl : env.LowerSlash) (hok : HistOK env h) (hs : run env root h = some s)
    (ho : OneEach env (latest h)) (hac : Acyclic env (latest h)) (last : Imports.Table) (st)
    (hst : ∀ u a c name, Resolving (worldOf env s) (st u a c name)) (p : Property)
    (pre b1 b2 post : List PropEvent) (denv : Decl.Env) (m : Decl.Modifiers) (es : List Node) (var : Tok)
    (hname : OnlyToken .variableName es var)
    (hdoc : DocApplies denv (.phr .propertyElement es) none ∨ ∃ d, DocApplies denv (.phr .propertyElement es) (some d))
    (hin : ∀ e ∈ b1 ++ b2, e.isInside) (hw : Decl.NamesWritten b2) (hpost : Decl.NoMoreAssigned post)
    (hfirst : ∀ x ∈ Decl.declaredIn b1, x.name ≠ denv.ctx.tokText var)
    (hrec : ∀ ps r, (Decl.propertiesOf (pre ++ .enter :: (b1 ++ .declare denv m (.phr .propertyElement es) :: b2 ++
      .leave :: post)))[Decl.entered pre]? = some ps → ps[(Decl.declaredIn b1).length]? = some r → SameTypes p.types r.types) :
    ∃ N, ∀ n ni, N ≤ n → N ≤ ni → ∀ (a : Infer.Access) (c q : Bytes), TheProperty env (latest h) c (denv.ctx.tokText var) p →
      MayUse a p.scope.fqn (.pro p) →
      (NameFound ((resolvedIn env s last n ni st).props a c (denv.ctx.tokText var)) q ↔
        VarDocumented denv (.phr .propertyElement es) q ∨ AssignedType b2 (denv.ctx.tokText var) q) := by
  obtain ⟨N, hN⟩ := property_types he hsl hok hs ho hac last st hst p
  obtain ⟨ps, r, h1, h2, -, -, h3⟩ := Decl.C144_property pre b1 b2 post denv m es var hname hdoc hin hw hpost hfirst
  refine ⟨N, fun n ni hn hni a c q hp hu => ?_⟩
  rw [hN n ni hn hni a c _ q hp hu, hrec ps r h1 h2]
  exact h3 q

/-- The return types of a declared method, from its doc comment. -/
theorem method_returns (denv : Decl.Env) (ks hs : List Node) (doc : Option Node)
    (hh : OnlyPhrase .methodDeclarationHeader ks (.phr .methodDeclarationHeader hs))
    (hdoc : DocApplies denv (.phr .methodDeclaration ks) doc) (q : Bytes) :
    q ∈ (Decl.newMethod denv (.phr .methodDeclaration ks)).returns.map Types.Ty.fqn ↔ ReturnDocumented denv doc q := by
  cases doc with
  | none =>
    rw [(Decl.C81_undocumented denv ks hs).2 hh hdoc]
    simp [ReturnDocumented]
  | some d =>
    rw [(Decl.C81_documented denv ks hs d q).2 hh hdoc]
    simp [ReturnDocumented]

theorem function_returns (denv : Decl.Env) (ks hs : List Node) (doc : Option Node)
    (hh : OnlyPhrase .functionDeclarationHeader ks (.phr .functionDeclarationHeader hs))
    (hdoc : DocApplies denv (.phr .functionDeclaration ks) doc) (q : Bytes) :
    q ∈ (Decl.newFunction denv (.phr .functionDeclaration ks)).returns.map Types.Ty.fqn ↔ ReturnDocumented denv doc q := by
  cases doc with
  | none =>
    rw [(Decl.C81_undocumented denv ks hs).1 hh hdoc]
    simp [ReturnDocumented]
  | some d =>
    rw [(Decl.C81_documented denv ks hs d q).1 hh hdoc]
    simp [ReturnDocumented]

/-- C149: after any history, a call of a method has exactly the types that the `@return` tags of the doc comment of its
declaration name. -/
theorem C149_method (he : EnvOK env) (hsl : env.LowerSlash) (hok : HistOK env h) (hs : run env root h = some s)
    (ho : OneEach env (latest h)) (hac : Acyclic env (latest h)) (last : Imports.Table) (st)
    (hst : ∀ u a c name, Resolving (worldOf env s) (st u a c name)) (m : Method)
    (denv : Decl.Env) (ks head : List Node) (doc : Option Node)
    (hh : OnlyPhrase .methodDeclarationHeader ks (.phr .methodDeclarationHeader head))
    (hdoc : DocApplies denv (.phr .methodDeclaration ks) doc)
    (hrec : SameTypes m.returnTypes (Decl.newMethod denv (.phr .methodDeclaration ks)).returns) :
    ∃ N, ∀ n ni, N ≤ n → N ≤ ni → ∀ (a : Infer.Access) (c name q : Bytes), TheMethod env (latest h) c name m →
      MayUse a m.scope.fqn (.met m) →
      (NameFound ((resolvedIn env s last n ni st).methods a c name) q ↔ ReturnDocumented denv doc q) := by
  obtain ⟨N, hN⟩ := method_types he hsl hok hs ho hac last st hst m
  refine ⟨N, fun n ni hn hni a c name q hp hu => ?_⟩
  rw [hN n ni hn hni a c _ q hp hu, hrec]
  exact method_returns denv ks head doc hh hdoc q

/-- C149: after any history, a call of a function has exactly the types that the `@return` tags of the doc comment of its
declaration name. -/
theorem C149_function (he : EnvOK env) (hok : HistOK env h) (hs : run env root h = some s) (last : Imports.Table) (n ni : Nat)
    (st) (f : Function) (denv : Decl.Env) (ks head : List Node) (doc : Option Node)
    (hh : OnlyPhrase .functionDeclarationHeader ks (.phr .functionDeclarationHeader head))
    (hdoc : DocApplies denv (.phr .functionDeclaration ks) doc)
    (hrec : SameTypes f.returnTypes (Decl.newFunction denv (.phr .functionDeclaration ks)).returns)
    (name q : Bytes) (hf : TheFunction env (latest h) last name f) :
    NameFound ((resolvedIn env s last n ni st).functions name) q ↔ ReturnDocumented denv doc q := by
  rw [← function_returns denv ks head doc hh hdoc q, ← hrec]
  constructor
  · rintro ⟨u, hu, hq⟩
    obtain ⟨t, ht, rfl⟩ := List.mem_map.mp hq
    obtain ⟨g, k1, k2, k3⟩ := (functions_in he hok hs last n ni st name t).mp ⟨u, hu, ht⟩
    rw [hf.only g k1 k2] at k3
    exact List.mem_map_of_mem k3
  · intro hq
    obtain ⟨t, ht, rfl⟩ := List.mem_map.mp hq
    obtain ⟨u, hu, hut⟩ := (functions_in he hok hs last n ni st name t).mpr ⟨f, hf.live, hf.calls, ht⟩
    exact ⟨u, hu, List.mem_map_of_mem hut⟩

/-! ### An example -/

namespace Demo

open Store.Demo (uA uB)

/-- `class A` in the namespace `App` -/
def saidA : Class := ⟨Store.Demo.loc uB 1, Store.Demo.loc uB 1, 0, [], Store.Demo.ty b!"App\\A", ⟨[], [], 0⟩, [], [], none⟩
/-- `private $a`, which the constructor makes a `Lib\Foo` -/
def saidProp : Property := ⟨Store.Demo.loc uB 2, Store.Demo.loc uB 2, [], none, b!"$a", Store.Demo.ty b!"App\\A", 2, false,
  [⟨b!"\\Lib\\Foo", b!"Foo", 0⟩]⟩
/-- `function m()` with `@return Baz` -/
def saidMeth : Method := ⟨Store.Demo.loc uB 3, Store.Demo.loc uB 3, b!"m", [], [⟨b!"\\App\\Baz", b!"Baz", 0⟩], [],
  Store.Demo.ty b!"App\\A", 0, false, 0, none⟩
/-- `function count()` with `@return Baz` -/
def saidFn : Function := ⟨Store.Demo.loc uB 7, Store.Demo.loc uB 7, Store.Demo.ty b!"App\\count", [],
  [⟨b!"\\App\\Baz", b!"Baz", 0⟩], [], none⟩

def saidB : Doc where
  uri := uB
  hash := b!"9"
  symbols := [.cla saidA, .pro saidProp, .met saidMeth, .fn saidFn]
  namespaces := []
  refs := []

def saidHist : List HOp := [.upgrade b!"v0.0.16", .index Store.Demo.a1, .restart, .index saidB, .delete uA]

theorem saidB_ok : DocOK Store.Demo.env saidB where
  uri := Store.Demo.uB_ok
  len := by decide
  syms := by
    have : ∀ x ∈ saidB.symbols, x.WF := by
      simp [saidB, saidA, saidProp, saidMeth, saidFn, Sym.WF, Class.WF, Method.WF, Function.WF, Property.WF, Location.WF,
        Store.Demo.loc, uB, Str, Store.Demo.ty, TypeString.WF, Types.WF, ListWF, DeprecatedWF]
    intro x hx
    exact Store.Demo.sym_ok (this x hx) ((by decide +kernel : ∀ x ∈ saidB.symbols, ∀ n ∈ x.names, sep ∉ n) x hx)
      ((by decide +kernel : ∀ x ∈ saidB.symbols, x.location.uri = uB) x hx)
      ((by decide +kernel : ∀ x ∈ saidB.symbols, (x.key Store.Demo.env).length < 1000) x hx)
  refsLen := by decide
  refs := by simp [saidB]

theorem saidHist_ok : HistOK Store.Demo.env saidHist where
  docs := by
    rw [show docs saidHist = [Store.Demo.a1, saidB] from rfl]
    simp [Store.Demo.a1_ok, saidB_ok]
  consts := by
    intro d1 h1 d2 h2 c1 c2 m1 m2 _ _
    rw [show docs saidHist = [Store.Demo.a1, saidB] from rfl] at h1 h2
    simp only [List.mem_cons, List.not_mem_nil, or_false] at h1 h2
    rcases h1 with rfl | rfl <;> rcases h2 with rfl | rfl <;>
      first
        | rfl
        | (simp [Store.Demo.a1, saidB, Store.Demo.cla, Store.Demo.met, Store.Demo.pro, Store.Demo.fn, Store.Demo.glo,
            Store.Demo.claCon] at m1 m2; done)
        | (simp [Store.Demo.a1, saidB, Store.Demo.cla, Store.Demo.met, Store.Demo.pro, Store.Demo.fn, Store.Demo.glo,
            Store.Demo.claCon] at m1 m2; subst m1; subst m2; simp_all)
  crashes := by simp [Store.Keeps, saidHist]

theorem said_mem {x : Sym} (hx : Live Store.Demo.env (latest saidHist) x) : x ∈ saidB.symbols := by
  obtain ⟨u, d, pre, post, hu, hd, -⟩ := hx
  have : d = saidB := by
    simp only [latest, saidHist, List.foldl_cons, List.foldl_nil, latestStep] at hu
    split at hu
    · cases hu
    · split at hu
      · exact (Option.some.inj hu).symm
      · rename_i h1 h2
        rw [if_neg (show ¬ u = Store.Demo.a1.uri from h1)] at hu
        cases hu
  subst this
  rw [hd]; simp

theorem said_live {x : Sym} (hx : x ∈ saidB.symbols) : Live Store.Demo.env (latest saidHist) x := by
  have e : latest saidHist uB = some saidB := by decide +kernel
  have no : ∀ y ∈ saidB.symbols, y.Indexed := by
    simp [saidB, Sym.Indexed]
  simp only [saidB, List.mem_cons, List.not_mem_nil, or_false] at hx
  rcases hx with rfl | rfl | rfl | rfl
  · exact ⟨uB, saidB, [], _, e, rfl, no _ (by simp [saidB]), by simp [SameDecl, Sym.kind]⟩
  · exact ⟨uB, saidB, [_], _, e, rfl, no _ (by simp [saidB]), by simp [SameDecl, Sym.kind]⟩
  · exact ⟨uB, saidB, [_, _], _, e, rfl, no _ (by simp [saidB]), by simp [SameDecl, Sym.kind]⟩
  · exact ⟨uB, saidB, [_, _, _], _, e, rfl, no _ (by simp [saidB]), by simp⟩

theorem said_cla {c : Class} (hc : Live Store.Demo.env (latest saidHist) (.cla c)) : c = saidA := by
  simpa [saidB] using said_mem hc

theorem said_pro {p : Property} (hp : Live Store.Demo.env (latest saidHist) (.pro p)) : p = saidProp := by
  simpa [saidB] using said_mem hp

theorem said_met {p : Method} (hp : Live Store.Demo.env (latest saidHist) (.met p)) : p = saidMeth := by
  simpa [saidB] using said_mem hp

theorem said_fn {p : Function} (hp : Live Store.Demo.env (latest saidHist) (.fn p)) : p = saidFn := by
  simpa [saidB] using said_mem hp

theorem said_each : OneEach Store.Demo.env (latest saidHist) where
  classes c d hc hd _ := by rw [said_cla hc, said_cla hd]
  interfaces c _ hc := by
    have := said_mem hc
    simp [saidB] at this

theorem said_acyclic : Acyclic Store.Demo.env (latest saidHist) := by
  intro c hc h
  cases said_cla hc
  rcases Relation.TransGen.head'_iff.mp h with ⟨d, hd, -⟩
  exact absurd rfl hd.1

/-- The doc comment with `@return Baz` and `function m() {}`. -/
def srcMeth : Analyser.Src := .p (.opaque 0) [Decl.tk b!"<?php\n", Decl.srcDoc, Decl.ws b!"\n",
  .p .methodDeclaration [.p .methodDeclarationHeader [.t Decl.tFunction b!"function", Decl.ws b!" ", .p .identifier [Decl.nm b!"m"],
    Decl.tk b!"(", Decl.tk b!")"], Decl.tk b!"{}"]]

/-- What surrounds the method. -/
def methEnv : Decl.Env :=
  let e : Decl.Env := { Decl.senv0 with ctx := srcMeth.ctx }
  { e with doc := some (Decl.newPhpDoc e (Decl.sub srcMeth.root 1)) }

end Demo

/-- Non-vacuity of C149_property: `class A { private $a; private $b; function __construct(Bar $x) { $this->a = new Foo; … } }`,
where `$this->a` is a `\Lib\Foo` (the conditions about the text are those of the example of C144). -/
example : HistOK Store.Demo.env Demo.saidHist ∧ OneEach Store.Demo.env (latest Demo.saidHist) ∧
    Acyclic Store.Demo.env (latest Demo.saidHist) ∧
    TheProperty Store.Demo.env (latest Demo.saidHist) b!"\\App\\A" b!"$a" Demo.saidProp ∧
    MayUse ⟨b!"\\App\\A", b!"$this", []⟩ Demo.saidProp.scope.fqn (.pro Demo.saidProp) ∧
    (∀ ps r, (Decl.propertiesOf ([] ++ .enter :: ([] ++ Decl.declA :: [Decl.declB, Decl.setA, Decl.setB] ++ .leave :: [])))[Decl.entered []]? = some ps → ps[(Decl.declaredIn []).length]? = some r → SameTypes Demo.saidProp.types r.types) ∧
    ∃ s, run Store.Demo.env Store.Demo.root Demo.saidHist = some s ∧
      ((resolvedIn Store.Demo.env s (Imports.newTable ⟨0, 0⟩) 9 9 fun _ _ _ _ => St.new).props
        ⟨b!"\\App\\A", b!"$this", []⟩ b!"\\App\\A" b!"$a").map (·.map Types.Ty.fqn) = [[b!"\\Lib\\Foo"]] := by
  refine ⟨Demo.saidHist_ok, Demo.said_each, Demo.said_acyclic, ⟨⟨by decide, Demo.said_live (by simp [Demo.saidB]), rfl,
    ⟨Demo.saidA, Demo.said_live (by simp [Demo.saidB]), (classFQNLower_eq_iff Store.Demo.lower_slash _ _).mp rfl, rfl⟩, ?_⟩, ?_⟩,
    .inr (.inr ⟨rfl, .inl rfl⟩), ?_, Store.Demo.observe _ _ (by decide +kernel)⟩
  · exact fun q hq _ _ => Demo.said_pro hq
  · exact fun q hq _ _ => Demo.said_pro hq
  · intro ps r h1 h2
    have e : ((Decl.propertiesOf ([] ++ .enter :: ([] ++ Decl.declA :: [Decl.declB, Decl.setA, Decl.setB] ++ .leave :: [])))[Decl.entered []]?.bind
        fun ps => ps[(Decl.declaredIn []).length]?).map (·.types) = some [⟨b!"\\Lib\\Foo", b!"Foo", 0⟩] := by decide +kernel
    rw [h1] at e
    simp only [Option.bind_some, h2, Option.map_some, Option.some.injEq] at e
    rw [SameTypes, e]
    rfl

/-- Non-vacuity of C149_method and C149_function: both return what their doc comments say. -/
example : TheMethod Store.Demo.env (latest Demo.saidHist) b!"\\App\\A" b!"M" Demo.saidMeth ∧
    MayUse ⟨[], b!"$x", []⟩ Demo.saidMeth.scope.fqn (.met Demo.saidMeth) ∧
    DocApplies Demo.methEnv (Decl.sub Demo.srcMeth.root 3) (some (Decl.sub Demo.srcMeth.root 1)) ∧
    OnlyPhrase .methodDeclarationHeader (Decl.sub Demo.srcMeth.root 3).kids (Decl.sub (Decl.sub Demo.srcMeth.root 3) 0) ∧
    SameTypes Demo.saidMeth.returnTypes (Decl.newMethod Demo.methEnv (Decl.sub Demo.srcMeth.root 3)).returns ∧
    TheFunction Store.Demo.env (latest Demo.saidHist) Decl.senv0.table b!"count" Demo.saidFn ∧
    DocApplies Decl.senv (Decl.part 3) (some (Decl.part 1)) ∧
    SameTypes Demo.saidFn.returnTypes (Decl.newFunction Decl.senv (Decl.part 3)).returns ∧
    ∃ s, run Store.Demo.env Store.Demo.root Demo.saidHist = some s ∧
      ((resolvedIn Store.Demo.env s Decl.senv0.table 9 9 fun _ _ _ _ => St.new).methods ⟨[], b!"$x", []⟩ b!"\\App\\A" b!"M",
        (resolvedIn Store.Demo.env s Decl.senv0.table 9 9 fun _ _ _ _ => St.new).functions b!"count") =
        ([[⟨b!"\\App\\Baz", b!"Baz", 0⟩]], [[⟨b!"\\App\\Baz", b!"Baz", 0⟩]]) := by
  refine ⟨⟨⟨by decide, Demo.said_live (by simp [Demo.saidB]), by decide +kernel, ⟨Demo.saidA, Demo.said_live (by simp [Demo.saidB]),
    (classFQNLower_eq_iff Store.Demo.lower_slash _ _).mp rfl, rfl⟩, fun q hq _ _ => Demo.said_met hq⟩, fun q hq _ _ => Demo.said_met hq⟩,
    .inr (.inl (by simp [Public, Protected, Private, Demo.saidMeth])), ⟨rfl, by decide +kernel⟩, .of_filter rfl,
    by unfold SameTypes; decide +kernel, ⟨Demo.said_live (by simp [Demo.saidB]), ⟨⟨b!"count", b!"count", 0⟩, by decide +kernel, ?_⟩,
      fun g hg _ => Demo.said_fn hg⟩, ⟨rfl, by decide +kernel⟩, by unfold SameTypes; decide +kernel,
    Store.Demo.observe _ _ (by decide +kernel)⟩
  have no : ¬ FunctionExists Store.Demo.env (latest Demo.saidHist) b!"\\count" := by
    rintro ⟨f, hf, e⟩
    rw [Demo.said_fn hf] at e
    exact absurd e (by decide)
  have hg : Imports.globalFQN ⟨b!"count", b!"count", 0⟩ = b!"\\count" := by decide +kernel
  have hi : Decl.senv0.table.importedFQN Decl.senv0.table.functions ⟨b!"count", b!"count", 0⟩ = none := by decide +kernel
  unfold Imports.Table.getFunctionReferenceFQN
  rw [hi, hg]
  simp only [no, decide_false, Bool.false_eq_true, if_false]
  decide +kernel

end Verif.Whole
