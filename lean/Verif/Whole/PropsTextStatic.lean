import Verif.Whole.PropsTextTypes

/-! C149 for members behind `::`. -/

namespace Verif.Whole

open Verif.Encoding Verif.Storage Verif.Store Verif.Query
open Verif.Analyser (Node PType TokType Tok)
open Verif.Decl (OnlyPhrase OnlyToken DocApplies VarDocumented AssignedType PropEvent)

variable {env : Env} {root : Bytes} {h : List HOp} {s : Store}

open Classical in
/-- Only this property and this method, behind `::`. -/
noncomputable def onlyStatic (env : Env) (L : Bytes → Option Doc) (p : Option Property) (m : Option Method) : Infer.Outside :=
  { noOutside with
    staticProps := fun here before c n => match p with
      | some p => if OwnProperty env L c n p ∧ ByScope here before p.scope.fqn (.pro p) then p.types.map Show.ofType else []
      | none => []
    staticMethods := fun here before c n => match m with
      | some m => if OwnMethod env L c n m ∧ ByScope here before m.scope.fqn (.met m) then m.returnTypes.map Show.ofType else []
      | none => [] }

theorem onlyStatic_stated (L : Bytes → Option Doc) (last : Imports.Table) (p m) : Stated env L last (onlyStatic env L p m) where
  globals n t ht := by cases ht
  functions n t ht := by cases ht
  props _ _ _ _ t ht := by cases ht
  methods _ _ _ _ t ht := by cases ht
  staticProps here before c n t ht := by
    cases p with
    | none => cases ht
    | some p =>
      simp only [onlyStatic] at ht
      split at ht
      · next e => exact ⟨p, e.1, e.2, ht⟩
      · cases ht
  staticMethods here before c n t ht := by
    cases m with
    | none => cases ht
    | some m =>
      simp only [onlyStatic] at ht
      split at ht
      · next e => exact ⟨m, e.1, e.2, ht⟩
      · cases ht

/-- The types of the property behind `::` are exactly those that are stored for it. -/
theorem static_property_types (he : EnvOK env) (hsl : env.LowerSlash) (hok : HistOK env h) (hs : run env root h = some s)
    (ho : OneEach env (latest h)) (hac : Acyclic env (latest h)) (last : Imports.Table) (st)
    (hst : ∀ u a c name, Resolving (worldOf env s) (st u a c name)) (p : Property) :
    ∃ N, ∀ n ni, N ≤ n → N ≤ ni → ∀ (a : Infer.Access) (c name q : Bytes), TheProperty env (latest h) c name p →
      ByScope a.here a.scopeName p.scope.fqn (.pro p) →
      (NameFound ((resolvedIn env s last n ni st).staticProps a c name) q ↔
        q ∈ (p.types.map Show.ofType).map Types.Ty.fqn) := by
  obtain ⟨o, hd⟩ := declared_exists he hok hs last
  obtain ⟨N, hN⟩ := gives_of he hsl hok hs hac last st hst _ (onlyStatic_stated (latest h) last (some p) none)
  refine ⟨N, fun n ni hn hni a c name q hp hu => ⟨?_, fun hq => ?_⟩⟩
  · rintro ⟨u, hu, hq⟩
    obtain ⟨t, ht, rfl⟩ := List.mem_map.mp hq
    obtain ⟨p', k1, k2, k3, -, k4⟩ := (hd.staticProps _ _ _ _ _).mp
      ((covers_of he hsl hok hs ho last n ni st (fun _ _ _ _ => (hst _ _ _ _).reachable) o hd).staticProps a c name u hu t ht)
    rw [hp.only p' k1 k2 (k3 hp.own.1)] at k4
    exact List.mem_map_of_mem k4
  · obtain ⟨t, ht, rfl⟩ := List.mem_map.mp hq
    obtain ⟨v, hv, hvt⟩ := (hN n ni hn hni).staticProps a c name t (by
      simp only [onlyStatic]
      rw [if_pos ⟨hp.own, hu⟩]
      exact ht)
    exact ⟨v, hv, List.mem_map_of_mem hvt⟩

/-- The types of a call of the method behind `::` are exactly those that are stored for it. -/
theorem static_method_types (he : EnvOK env) (hsl : env.LowerSlash) (hok : HistOK env h) (hs : run env root h = some s)
    (ho : OneEach env (latest h)) (hac : Acyclic env (latest h)) (last : Imports.Table) (st)
    (hst : ∀ u a c name, Resolving (worldOf env s) (st u a c name)) (m : Method) :
    ∃ N, ∀ n ni, N ≤ n → N ≤ ni → ∀ (a : Infer.Access) (c name q : Bytes), TheMethod env (latest h) c name m →
      ByScope a.here a.scopeName m.scope.fqn (.met m) →
      (NameFound ((resolvedIn env s last n ni st).staticMethods a c name) q ↔
        q ∈ (m.returnTypes.map Show.ofType).map Types.Ty.fqn) := by
  obtain ⟨o, hd⟩ := declared_exists he hok hs last
  obtain ⟨N, hN⟩ := gives_of he hsl hok hs hac last st hst _ (onlyStatic_stated (latest h) last none (some m))
  refine ⟨N, fun n ni hn hni a c name q hp hu => ⟨?_, fun hq => ?_⟩⟩
  · rintro ⟨u, hu, hq⟩
    obtain ⟨t, ht, rfl⟩ := List.mem_map.mp hq
    obtain ⟨p', k1, k2, k3, -, k4⟩ := (hd.staticMethods _ _ _ _ _).mp
      ((covers_of he hsl hok hs ho last n ni st (fun _ _ _ _ => (hst _ _ _ _).reachable) o hd).staticMethods a c name u hu t ht)
    rw [hp.only p' k1 k2 (k3 hp.own.1)] at k4
    exact List.mem_map_of_mem k4
  · obtain ⟨t, ht, rfl⟩ := List.mem_map.mp hq
    obtain ⟨v, hv, hvt⟩ := (hN n ni hn hni).staticMethods a c name t (by
      simp only [onlyStatic]
      rw [if_pos ⟨hp.own, hu⟩]
      exact ht)
    exact ⟨v, hv, List.mem_map_of_mem hvt⟩

/-- C149 for `Foo::$a`, `self::$a` and `static::$a`: after any history, exactly the types that the text of the class gives the
property. -/
theorem C149_static_property (he : EnvOK env) (hsl : env.LowerSlash) (hok : HistOK env h) (hs : run env root h = some s)
    (ho : OneEach env (latest h)) (hac : Acyclic env (latest h)) (last : Imports.Table) (st)
    (hst : ∀ u a c name, Resolving (worldOf env s) (st u a c name)) (p : Property)
    (pre b1 b2 post : List PropEvent) (denv : Decl.Env) (m : Decl.Modifiers) (es : List Node) (var : Tok)
    (hname : OnlyToken .variableName es var)
    (hdoc : DocApplies denv (.phr .propertyElement es) none ∨ ∃ d, DocApplies denv (.phr .propertyElement es) (some d))
    (hin : ∀ e ∈ b1 ++ b2, e.isInside) (hw : Decl.NamesWritten b2) (hpost : Decl.NoMoreAssigned post)
    (hfirst : ∀ x ∈ Decl.declaredIn b1, x.name ≠ denv.ctx.tokText var)
    (hrec : ∀ ps r, (Decl.propertiesOf (pre ++ .enter :: (b1 ++ .declare denv m (.phr .propertyElement es) :: b2 ++
      .leave :: post)))[Decl.entered pre]? = some ps → ps[(Decl.declaredIn b1).length]? = some r → SameTypes p.types r.types) :
    ∃ N, ∀ n ni, N ≤ n → N ≤ ni → ∀ (a : Infer.Access) (c q : Bytes), TheProperty env (latest h) c (denv.ctx.tokText var) p →
      ByScope a.here a.scopeName p.scope.fqn (.pro p) →
      (NameFound ((resolvedIn env s last n ni st).staticProps a c (denv.ctx.tokText var)) q ↔
        VarDocumented denv (.phr .propertyElement es) q ∨ AssignedType b2 (denv.ctx.tokText var) q) := by
  obtain ⟨N, hN⟩ := static_property_types he hsl hok hs ho hac last st hst p
  obtain ⟨ps, r, h1, h2, -, -, h3⟩ := Decl.C144_property pre b1 b2 post denv m es var hname hdoc hin hw hpost hfirst
  refine ⟨N, fun n ni hn hni a c q hp hu => ?_⟩
  rw [hN n ni hn hni a c _ q hp hu, hrec ps r h1 h2]
  exact h3 q

/-- C149 for `Foo::m()`, `self::m()` and `static::m()`: after any history, exactly the types that the `@return` tags of the
doc comment of the method name. -/
theorem C149_static_method (he : EnvOK env) (hsl : env.LowerSlash) (hok : HistOK env h) (hs : run env root h = some s)
    (ho : OneEach env (latest h)) (hac : Acyclic env (latest h)) (last : Imports.Table) (st)
    (hst : ∀ u a c name, Resolving (worldOf env s) (st u a c name)) (m : Method)
    (denv : Decl.Env) (ks head : List Node) (doc : Option Node)
    (hh : OnlyPhrase .methodDeclarationHeader ks (.phr .methodDeclarationHeader head))
    (hdoc : DocApplies denv (.phr .methodDeclaration ks) doc)
    (hrec : SameTypes m.returnTypes (Decl.newMethod denv (.phr .methodDeclaration ks)).returns) :
    ∃ N, ∀ n ni, N ≤ n → N ≤ ni → ∀ (a : Infer.Access) (c name q : Bytes), TheMethod env (latest h) c name m →
      ByScope a.here a.scopeName m.scope.fqn (.met m) →
      (NameFound ((resolvedIn env s last n ni st).staticMethods a c name) q ↔ ReturnDocumented denv doc q) := by
  obtain ⟨N, hN⟩ := static_method_types he hsl hok hs ho hac last st hst m
  refine ⟨N, fun n ni hn hni a c name q hp hu => ?_⟩
  rw [hN n ni hn hni a c _ q hp hu, hrec]
  exact method_returns denv ks head doc hh hdoc q

/-- C149 for the members behind `::` needs `ByScope`: `A::m()` with a method that is not static has no type, although
`$x->m()` has one. -/
theorem C149_needs_static : TheMethod Store.Demo.env (latest Demo.saidHist) b!"\\App\\A" b!"m" Demo.saidMeth ∧
    ∃ s, run Store.Demo.env Store.Demo.root Demo.saidHist = some s ∧
      ((resolvedIn Store.Demo.env s Decl.senv0.table 9 9 fun _ _ _ _ => St.new).methods ⟨[], b!"$x", []⟩ b!"\\App\\A" b!"m",
        (resolvedIn Store.Demo.env s Decl.senv0.table 9 9 fun _ _ _ _ => St.new).staticMethods ⟨[], b!"A", []⟩ b!"\\App\\A" b!"m") =
        ([[⟨b!"\\App\\Baz", b!"Baz", 0⟩]], []) := by
  refine ⟨⟨⟨by decide, Demo.said_live (by simp [Demo.saidB]), by decide +kernel, ⟨Demo.saidA, Demo.said_live (by simp [Demo.saidB]),
    (classFQNLower_eq_iff Store.Demo.lower_slash _ _).mp rfl, rfl⟩, fun q hq _ _ => Demo.said_met hq⟩, fun q hq _ _ => Demo.said_met hq⟩,
    Store.Demo.observe _ _ (by decide +kernel)⟩

/-- Non-vacuity of C149_static_property and C149_static_method: `self::$a` and `self::m()` in the class of the examples of
C149_property and C149_method. -/
example : TheProperty Store.Demo.env (latest Demo.saidHist) b!"\\App\\A" b!"$a" Demo.saidProp ∧
    TheMethod Store.Demo.env (latest Demo.saidHist) b!"\\App\\A" b!"m" Demo.saidMeth ∧
    ByScope b!"\\App\\A" b!"self" Demo.saidProp.scope.fqn (.pro Demo.saidProp) ∧
    ByScope b!"\\App\\A" b!"self" Demo.saidMeth.scope.fqn (.met Demo.saidMeth) ∧
    ∃ s, run Store.Demo.env Store.Demo.root Demo.saidHist = some s ∧
      ((resolvedIn Store.Demo.env s Decl.senv0.table 9 9 fun _ _ _ _ => St.new).staticProps
          ⟨b!"\\App\\A", b!"self", []⟩ b!"\\App\\A" b!"$a",
        (resolvedIn Store.Demo.env s Decl.senv0.table 9 9 fun _ _ _ _ => St.new).staticMethods
          ⟨b!"\\App\\A", b!"self", []⟩ b!"\\App\\A" b!"m") =
        ([[⟨b!"\\Lib\\Foo", b!"Foo", 0⟩]], [[⟨b!"\\App\\Baz", b!"Baz", 0⟩]]) := by
  refine ⟨⟨⟨by decide, Demo.said_live (by simp [Demo.saidB]), rfl, ⟨Demo.saidA, Demo.said_live (by simp [Demo.saidB]),
      (classFQNLower_eq_iff Store.Demo.lower_slash _ _).mp rfl, rfl⟩, fun q hq _ _ => Demo.said_pro hq⟩, fun q hq _ _ => Demo.said_pro hq⟩,
    C149_needs_static.1, ⟨fun e => absurd e (by decide), fun _ => .inl rfl, fun e => absurd (by decide) e⟩,
    ⟨fun e => absurd e (by decide), fun _ => .inl rfl, fun e => absurd (by decide) e⟩, Store.Demo.observe _ _ (by decide +kernel)⟩

/-- The tables of `namespace App; … namespace;` with the second one at line 50. -/
def Demo.twoTables : List Imports.Table := [Decl.senv0.table, Imports.newTable ⟨50, 0⟩]

/-- C149 needs the table: it is the last one of the file that decides, not the one at the call. In a file with two namespaces,
`count()` at line 40 in the first one, `App`, means the function `App\count` by the imports at the call, but it has no type,
because in the second namespace `count` means nothing. -/
theorem C149_needs_last_table :
    Imports.importTableAtPos Demo.twoTables ⟨40, 0⟩ = some Decl.senv0.table ∧
    TheFunction Store.Demo.env (latest Demo.saidHist) Decl.senv0.table b!"count" Demo.saidFn ∧
    ∃ s, run Store.Demo.env Store.Demo.root Demo.saidHist = some s ∧
      ((Imports.functionCallTable Demo.twoTables ⟨40, 0⟩).map fun last =>
        (resolvedIn Store.Demo.env s last 9 9 fun _ _ _ _ => St.new).functions b!"count") = some [] := by
  refine ⟨by decide +kernel, ⟨Demo.said_live (by simp [Demo.saidB]), ⟨⟨b!"count", b!"count", 0⟩, by decide +kernel, ?_⟩,
      fun g hg _ => Demo.said_fn hg⟩, Store.Demo.observe _ _ (by decide +kernel)⟩
  have no : ¬ FunctionExists Store.Demo.env (latest Demo.saidHist) b!"\\count" := by
    rintro ⟨f, hf, e⟩
    rw [Demo.said_fn hf] at e
    exact absurd e (by decide)
  have hg : Imports.globalFQN ⟨b!"count", b!"count", 0⟩ = b!"\\count" := by decide +kernel
  have hi : Decl.senv0.table.importedFQN Decl.senv0.table.functions ⟨b!"count", b!"count", 0⟩ = none := by decide +kernel
  unfold Imports.Table.getFunctionReferenceFQN
  rw [hi, hg]
  simp only [no, decide_false, Bool.false_eq_true, if_false]
  decide +kernel

end Verif.Whole
