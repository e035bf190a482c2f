import Verif.Whole.PropsTextDefinition

/-! C153: the text that is shown when hovering over a member at the end of a chain of accesses. -/

namespace Verif.Whole

open Verif.Encoding Verif.Storage Verif.Store Verif.Query

variable {env : Env} {root : Bytes} {h : List HOp} {s : Store}

/-! ### Model -/

/-- The text that is shown for a member (`internal/lsp/hover.go:107-148`, `152-183`) if the query has been used before for the
types of the object or class before the operator: `hover` gives one query (`hover.go:21-22`) to `ResolveAndGetScope`
(`expression.go:32-38`) and to the lookups. `st` is the state in which the first leaves it, `a.types` are the types it finds. -/
def hoverAfter (env : Env) (s : Store) (md : Bytes → Option Bytes) (keyOf : Bytes → Bytes) (n ni : Nat) (st : St) (u : MemberUse)
    (a : Access) (name cur : Bytes) : Option Bytes :=
  (memberLoop (worldOf env s) keyOf n ni u a name cur a.types [] st).map fun l => l.flatMap (foundText s md)

/-- With a new query it is what `memberHoverIn` says. -/
theorem hoverAfter_new (md : Bytes → Option Bytes) (keyOf : Bytes → Bytes) (n ni : Nat) (u : MemberUse) (a : Access) (name cur : Bytes) :
    hoverAfter env s md keyOf n ni St.new u a name cur = memberHoverIn env s md keyOf n ni u a name cur := rfl

/-! ### The text of what is found -/

theorem Sole.shown (he : EnvOK env) (hok : HistOK env h) (hs : run env root h = some s) {keyOf : Bytes → Bytes} {n ni : Nat} {st : St}
    {u : MemberUse} {a : Access} {name cur : Bytes} {x : Sym} (md : Bytes → Option Bytes) (hx : Live env (latest h) x)
    (hk : kindOf x = some u.kind) (hf : Sole s (memberLoop (worldOf env s) keyOf n ni u a name cur a.types [] st) x) :
    hoverAfter env s md keyOf n ni st u a name cur = some (memberText md (scopeNamed s (memberOf s x.stored).scope) x) := by
  obtain ⟨f, h1, h2, h3⟩ := hf
  rw [hoverAfter, h1, Option.map_some, List.flatMap_cons, List.flatMap_nil, List.append_nil, foundText, h2, memberOf_decl hk,
    get_num_live he hok hs hx (kindOf_nog hk), Option.elim_some, memberText_stored, h3]

/-! ### C153 -/

/-- C153: after any history, and whatever was asked before in the same request, hovering over a property of an object (or after
`::`) shows exactly the text of its declaration, with the class that declares it. -/
theorem C153_property (he : EnvOK env) (hsl : env.LowerSlash) (hok : HistOK env h) (hs : run env root h = some s)
    (ho : OneEach env (latest h)) (hac : Acyclic env (latest h)) (hap : ClassesApart env (latest h)) (md : Bytes → Option Bytes)
    (keyOf : Bytes → Bytes) :
    ∀ name, ∃ N, ∀ n ni, N ≤ n → N ≤ ni → ∀ (st : St), Resolving (worldOf env s) st → ∀ (a : Access) (cur t : Bytes) (p : Property),
      a.types ≠ [] → (∀ y ∈ a.types, y = t) → NoTrait env (latest h) t →
      (SomeProperty env (latest h) t (b!"$" ++ name) p → ByArrow cur a.scopeName p.scope.fqn (.pro p) →
        hoverAfter env s md keyOf n ni st .prop a name cur = some (Show.propertyHover md (.cls p.scope.fqn) p)) ∧
      (SomeProperty env (latest h) t name p → ByScope cur a.scopeName p.scope.fqn (.pro p) →
        hoverAfter env s md keyOf n ni st .staticProp a name cur = some (Show.propertyHover md (.cls p.scope.fqn) p)) := by
  intro name
  obtain ⟨N, hN⟩ := sole_property he hsl hok hs ho hac hap keyOf name
  have hsc : ∀ {t nm p}, SomeProperty env (latest h) t nm p → scopeNamed s p.scope.fqn = .cls p.scope.fqn := by
    intro t nm p hp
    obtain ⟨d, e, hd, -, hab, hsc⟩ := hp.above
    rw [hsc]
    cases hab with
    | self => exact scopeNamed_class he hok hs hd
    | parent _ _ h _ => exact scopeNamed_class he hok hs h
  refine ⟨N, fun n ni hn hni st hst a cur t p hne hts htr => ?_⟩
  obtain ⟨h1, h2⟩ := hN n ni hn hni st hst a cur t p hne hts htr
  refine ⟨fun hp hu => ?_, fun hp hu => ?_⟩
  · rw [← hsc hp]
    exact (h1 hp hu).shown he hok hs md hp.live rfl
  · rw [← hsc hp]
    exact (h2 hp hu).shown he hok hs md hp.live rfl

/-- C153: the same for calls of methods, with the class or trait that declares the method, if neither the class of the object nor
a class above it implements an interface. -/
theorem C153_method_partial (he : EnvOK env) (hsl : env.LowerSlash) (hok : HistOK env h) (hs : run env root h = some s)
    (ho : OneEach env (latest h)) (hac : Acyclic env (latest h)) (hap : ClassesApart env (latest h)) (md : Bytes → Option Bytes)
    (keyOf : Bytes → Bytes) :
    ∀ name, ∃ N, ∀ n ni, N ≤ n → N ≤ ni → ∀ (st : St), Resolving (worldOf env s) st → ∀ (a : Access) (cur t : Bytes) (m : Method),
      a.types ≠ [] → (∀ y ∈ a.types, y = t) → NoTrait env (latest h) t →
      SomeMethod env (latest h) t name m → NoInterfaces env (latest h) t →
      ∃ scope, Container env (latest h) m.scope.fqn scope ∧
        (ByArrow cur a.scopeName m.scope.fqn (.met m) →
          hoverAfter env s md keyOf n ni st .method a name cur = some (Show.methodHover md scope m)) ∧
        (ByScope cur a.scopeName m.scope.fqn (.met m) →
          hoverAfter env s md keyOf n ni st .staticMethod a name cur = some (Show.methodHover md scope m)) := by
  intro name
  obtain ⟨N, hN⟩ := sole_method he hsl hok hs ho hac hap keyOf name
  refine ⟨N, fun n ni hn hni st hst a cur t m hne hts htr hm hb => ?_⟩
  obtain ⟨h1, h2⟩ := hN n ni hn hni st hst a cur t m hne hts htr hm hb
  have hhas : Has env (latest h) t m.scope.fqn := by
    obtain ⟨c, k1, k2, k3⟩ := hm.from_
    exact .inl ⟨c, k1, k2, k3⟩
  exact ⟨scopeNamed s m.scope.fqn, scopeNamed_of he hok hs (has_container hhas),
    fun hu => (h1 hu).shown he hok hs md hm.live rfl, fun hu => (h2 hu).shown he hok hs md hm.live rfl⟩

/-- C153: at the end of a chain of accesses (C151) whose declarations say that it is an object of the one class `t`, hovering over
a property shows exactly the text of its declaration. -/
theorem C153_chain_property (he : EnvOK env) (hsl : env.LowerSlash) (hok : HistOK env h) (hs : run env root h = some s)
    (ho : OneEach env (latest h)) (hac : Acyclic env (latest h)) (hap : ClassesApart env (latest h)) (md : Bytes → Option Bytes)
    (keyOf : Bytes → Bytes) (last : Imports.Table) (st) (hst : ∀ u a c name, Resolving (worldOf env s) (st u a c name)) :
    ∀ name, ∃ N, ∀ n ni, N ≤ n → N ≤ ni → ∀ (here : Bytes) (e0 : Infer.Expr) (S0 : Bytes → Prop) (e : Infer.Expr) (t : Bytes) (p : Property)
      (after : St), Resolving (worldOf env s) after → Chain env (latest h) here e0 S0 e (· = t) →
      (∀ q, q ∈ (e0.typesIn (resolvedIn env s last n ni st)).map Types.Ty.fqn ↔ S0 q) →
      NoTrait env (latest h) t → SomeProperty env (latest h) t (b!"$" ++ name) p → ByArrow here e.scopeName p.scope.fqn (.pro p) →
      hoverAfter env s md keyOf n ni after .prop
        ⟨e.scopeName, (e.typesIn (resolvedIn env s last n ni st)).map Types.Ty.fqn⟩ name here =
        some (Show.propertyHover md (.cls p.scope.fqn) p) := by
  intro name
  obtain ⟨N, hN⟩ := C151_chain he hsl hok hs ho hac hap last st hst
  obtain ⟨M, hM⟩ := C153_property he hsl hok hs ho hac hap md keyOf name
  refine ⟨max N M, fun n ni hn hni here e0 S0 e t p after ha hc h0 htr hp hu => ?_⟩
  have hty := hN n ni (le_trans (le_max_left _ _) hn) (le_trans (le_max_left _ _) hni) here e0 S0 e _ hc h0
  exact (hM n ni (le_trans (le_max_right _ _) hn) (le_trans (le_max_right _ _) hni) after ha
    ⟨e.scopeName, (e.typesIn (resolvedIn env s last n ni st)).map Types.Ty.fqn⟩ here t p
    (List.ne_nil_of_mem ((hty t).mpr rfl)) (fun y hy => (hty y).mp hy) htr).1 hp hu

/-- C153: the same for a method, if neither the class nor a class above it implements an interface. -/
theorem C153_chain_method_partial (he : EnvOK env) (hsl : env.LowerSlash) (hok : HistOK env h) (hs : run env root h = some s)
    (ho : OneEach env (latest h)) (hac : Acyclic env (latest h)) (hap : ClassesApart env (latest h)) (md : Bytes → Option Bytes)
    (keyOf : Bytes → Bytes) (last : Imports.Table) (st) (hst : ∀ u a c name, Resolving (worldOf env s) (st u a c name)) :
    ∀ name, ∃ N, ∀ n ni, N ≤ n → N ≤ ni → ∀ (here : Bytes) (e0 : Infer.Expr) (S0 : Bytes → Prop) (e : Infer.Expr) (t : Bytes) (m : Method)
      (after : St), Resolving (worldOf env s) after → Chain env (latest h) here e0 S0 e (· = t) →
      (∀ q, q ∈ (e0.typesIn (resolvedIn env s last n ni st)).map Types.Ty.fqn ↔ S0 q) →
      NoTrait env (latest h) t → SomeMethod env (latest h) t name m → NoInterfaces env (latest h) t →
      ByArrow here e.scopeName m.scope.fqn (.met m) →
      ∃ scope, Container env (latest h) m.scope.fqn scope ∧ hoverAfter env s md keyOf n ni after .method
        ⟨e.scopeName, (e.typesIn (resolvedIn env s last n ni st)).map Types.Ty.fqn⟩ name here = some (Show.methodHover md scope m) := by
  intro name
  obtain ⟨N, hN⟩ := C151_chain he hsl hok hs ho hac hap last st hst
  obtain ⟨M, hM⟩ := C153_method_partial he hsl hok hs ho hac hap md keyOf name
  refine ⟨max N M, fun n ni hn hni here e0 S0 e t m after ha hc h0 htr hm hb hu => ?_⟩
  have hty := hN n ni (le_trans (le_max_left _ _) hn) (le_trans (le_max_left _ _) hni) here e0 S0 e _ hc h0
  obtain ⟨scope, h1, h2, -⟩ := hM n ni (le_trans (le_max_right _ _) hn) (le_trans (le_max_right _ _) hni) after ha
    ⟨e.scopeName, (e.typesIn (resolvedIn env s last n ni st)).map Types.Ty.fqn⟩ here t m
    (List.ne_nil_of_mem ((hty t).mpr rfl)) (fun y hy => (hty y).mp hy) htr hm hb
  exact ⟨scope, h1, h2 hu⟩

/-! ### Examples -/

/-- Non-vacuity of the theorems of C153: they have the conditions of those of C152 (see the example there); the texts of that
example. -/
example : ∃ s, run Store.Demo.env Store.Demo.root Demo.linkHist = some s ∧
      (hoverAfter Store.Demo.env s some id 9 9 (Demo.askedPlain s) .method ⟨[], [b!"\\App\\B"]⟩ b!"m" [],
       hoverAfter Store.Demo.env s some id 9 9 (Demo.askedPlain s) .prop ⟨[], [b!"\\App\\B"]⟩ b!"b" []) =
      (some (Show.methodHover some (.cls b!"\\App\\A") Demo.linkMeth), some (Show.propertyHover some (.cls b!"\\App\\A") Demo.linkProp)) :=
  Store.Demo.observe _ _ (by decide +kernel)

/-- What is missing in C153_method_partial: hovering over the second `m` of `$a->m()->m()` shows nothing, in the situation of
`C152_false_chain_with_interfaces`. -/
theorem C153_false_chain_with_interfaces :
    HistOK Store.Demo.env Demo.bldHist ∧
    SomeMethod Store.Demo.env (latest Demo.bldHist) b!"\\App\\B" b!"m" Demo.bldMeth ∧
    ByArrow [] [] Demo.bldMeth.scope.fqn (.met Demo.bldMeth) ∧
    (∀ s, run Store.Demo.env Store.Demo.root Demo.bldHist = some s → Resolving (worldOf Store.Demo.env s) (Demo.askedBefore s)) ∧
    ∃ s, run Store.Demo.env Store.Demo.root Demo.bldHist = some s ∧
      (hoverAfter Store.Demo.env s some id 9 9 St.new .method ⟨[], [b!"\\App\\B"]⟩ b!"m" [],
       hoverAfter Store.Demo.env s some id 9 9 (Demo.askedBefore s) .method ⟨[], [b!"\\App\\B"]⟩ b!"m" []) =
      (some (Show.methodHover some (.cls b!"\\App\\A") Demo.bldMeth), some []) :=
  ⟨Demo.bldHist_ok, Demo.bld_method, .inl (by simp [Public, Protected, Private, Demo.bldMeth]),
    fun s hs => Demo.askedBefore_resolving Demo.bldHist_ok hs (Demo.bld_live (by simp [Demo.bldDoc])),
    Store.Demo.observe _ _ (by decide +kernel)⟩

end Verif.Whole
