import Verif.Whole.PropsTextBare
import Verif.Infer.Lemmas

/-! C151: the types along a chain of accesses, of any length. -/

namespace Verif.Whole

open Verif.Encoding Verif.Storage Verif.Store Verif.Query
open Verif.Analyser (Node PType TokType Tok)
open Verif.Decl (OnlyPhrase OnlyToken DocApplies)

variable {env : Env} {root : Bytes} {h : List HOp} {s : Store}

/-! ### Specification -/

/-- A type that stands for the object the method was called on: `@return static` and `@return $this`. -/
def StandsForObject (t : Types.Ty) : Prop := t.original = b!"static" ∨ t.original = b!"$this"

/-- Nothing called `c` has a property `n`. -/
def LacksProperty (env : Env) (L : Bytes → Option Doc) (c n : Bytes) : Prop :=
  n ≠ [] ∧ ∀ p, Live env L (.pro p) → FromClass env L c p.scope.fqn → p.name ≠ n

/-- Nothing called `c` has a method `n`. -/
def LacksMethod (env : Env) (L : Bytes → Option Doc) (c n : Bytes) : Prop :=
  n ≠ [] ∧ ∀ m, Live env L (.met m) → (FromClass env L c m.scope.fqn ∨ FromInterface env L c m.scope.fqn) →
    env.lower m.name ≠ env.lower n

/-- Written in the class `here`, behind an expression `e0` that has the types `S0`: a chain of properties and method calls,
after `->` and after `::`, of any length, with the types that the declarations in the files give it. At each link, whatever the expression before it may be
has one declared property (method) of that name, which may be used there, or none at all (as `null` has none). The types of a
property are the declared ones; those of a call are the declared ones, with the types of the object itself for `static` and
`$this`. In between, the value may be in a local variable, which also has the types `ts` that a doc comment or its declaration
gives it (`$x = $b->m(); $x->c`), or in parentheses. -/
inductive Chain (env : Env) (L : Bytes → Option Doc) (here : Bytes) (e0 : Infer.Expr) (S0 : Bytes → Prop) :
    Infer.Expr → (Bytes → Prop) → Prop
  | start : Chain env L here e0 S0 e0 S0
  | property {e S} (n : Bytes) : Chain env L here e0 S0 e S →
      (∀ c, S c → LacksProperty env L c (b!"$" ++ n) ∨
        ∃ p, SomeProperty env L c (b!"$" ++ n) p ∧ ByArrow here e.scopeName p.scope.fqn (.pro p)) →
      Chain env L here e0 S0 (.property here n [] false e)
        fun q => ∃ c p, S c ∧ SomeProperty env L c (b!"$" ++ n) p ∧ ∃ t, Gives (.pro p) t ∧ t.fqn = q
  | method {e S} (n : Bytes) : Chain env L here e0 S0 e S →
      (∀ c, S c → LacksMethod env L c n ∨
        ∃ m, SomeMethod env L c n m ∧ NoInterfaces env L c ∧ ByArrow here e.scopeName m.scope.fqn (.met m)) →
      Chain env L here e0 S0 (.method here n [] false e)
        fun q => ∃ c m, S c ∧ SomeMethod env L c n m ∧ ∃ t, Gives (.met m) t ∧
          (¬ StandsForObject t ∧ t.fqn = q ∨ StandsForObject t ∧ S q)
  | staticProperty {e S} (n : Bytes) : Chain env L here e0 S0 e S →
      (∀ c, S c → LacksProperty env L c n ∨ ∃ p, SomeProperty env L c n p ∧ ByScope here e.scopeName p.scope.fqn (.pro p)) →
      Chain env L here e0 S0 (.staticProperty here n [] false e)
        fun q => ∃ c p, S c ∧ SomeProperty env L c n p ∧ ∃ t, Gives (.pro p) t ∧ t.fqn = q
  | staticMethod {e S} (n : Bytes) : Chain env L here e0 S0 e S →
      (∀ c, S c → LacksMethod env L c n ∨
        ∃ m, SomeMethod env L c n m ∧ NoInterfaces env L c ∧ ByScope here e.scopeName m.scope.fqn (.met m)) →
      Chain env L here e0 S0 (.staticMethod here n [] false e)
        fun q => ∃ c m, S c ∧ SomeMethod env L c n m ∧ ∃ t, Gives (.met m) t ∧
          (¬ StandsForObject t ∧ t.fqn = q ∨ StandsForObject t ∧ S q)
  | assigned {e S} (n : Bytes) (ts : Types.Union) : Chain env L here e0 S0 e S →
      Chain env L here e0 S0 (.variable n ts false false e) fun q => S q ∨ ∃ t ∈ ts, t.fqn = q
  | derived {e S} : Chain env L here e0 S0 e S → Chain env L here e0 S0 (.derived false e) S

/-! ### The loops, by names -/

theorem mem_memberLoop (f : Bytes → List Types.Union) (on u : Types.Union) (q : Bytes) :
    q ∈ (Infer.memberLoop f on u).map Types.Ty.fqn ↔ q ∈ u.map Types.Ty.fqn ∨ ∃ x ∈ on.map Types.Ty.fqn, NameFound (f x) q := by
  have inner : ∀ (l : List Types.Union) (u : Types.Union),
      q ∈ (l.foldl Types.merge u).map Types.Ty.fqn ↔ q ∈ u.map Types.Ty.fqn ∨ NameFound l q := by
    intro l
    induction l with
    | nil => intro u; simp [NameFound]
    | cons v l ih =>
      intro u
      rw [List.foldl_cons, ih, Types.C25_merge]
      simp only [NameFound, List.mem_cons, exists_eq_or_imp]
      tauto
  unfold Infer.memberLoop
  induction on generalizing u with
  | nil => simp
  | cons t on ih =>
    rw [List.foldl_cons]
    refine (ih _).trans ?_
    rw [inner]
    simp only [List.map_cons, List.mem_cons, exists_eq_or_imp, or_assoc]

theorem names_add (u : Types.Union) (t : Types.Ty) (q : Bytes) :
    q ∈ (Types.add u t).map Types.Ty.fqn ↔ q ∈ u.map Types.Ty.fqn ∨ t.fqn = q := by
  have := Types.C25_merge u [t] q
  simp only [Types.merge, List.foldl_cons, List.foldl_nil] at this
  rw [this]
  simp [eq_comm]

theorem names_mergeWithArrayLevel (u v : Types.Union) (k : Int) (q : Bytes) :
    q ∈ (Types.mergeWithArrayLevel u v k).map Types.Ty.fqn ↔ q ∈ u.map Types.Ty.fqn ∨ q ∈ v.map Types.Ty.fqn := by
  unfold Types.mergeWithArrayLevel
  induction v generalizing u with
  | nil => simp
  | cons t v ih =>
    rw [List.foldl_cons, ih, names_add]
    simp only [List.map_cons, List.mem_cons, eq_comm (a := q)]
    tauto

theorem names_resolveMemberTypes (ret on : Types.Union) (q : Bytes) :
    q ∈ (Infer.resolveMemberTypes ret on).map Types.Ty.fqn ↔
      ∃ t ∈ ret, ¬ StandsForObject t ∧ t.fqn = q ∨ StandsForObject t ∧ q ∈ on.map Types.Ty.fqn := by
  have key : ∀ (ret u : Types.Union), q ∈ (ret.foldl (fun newTypes t => if Infer.isSelf t then
      Types.mergeWithArrayLevel newTypes on t.arrayLevel else Types.add newTypes t) u).map Types.Ty.fqn ↔
      q ∈ u.map Types.Ty.fqn ∨ ∃ t ∈ ret, ¬ StandsForObject t ∧ t.fqn = q ∨ StandsForObject t ∧ q ∈ on.map Types.Ty.fqn := by
    intro ret
    induction ret with
    | nil => intro u; simp
    | cons t ret ih =>
      intro u
      rw [List.foldl_cons, ih]
      by_cases hs : Infer.isSelf t = true
      · have hs' : StandsForObject t := (Infer.isSelf_iff t).mp hs
        rw [if_pos hs, names_mergeWithArrayLevel]
        simp only [List.mem_cons, exists_eq_or_imp, hs', or_assoc, not_true_eq_false, not_false_eq_true, false_and, true_and,
          false_or, or_false]
      · have hs' : ¬ StandsForObject t := fun k => hs ((Infer.isSelf_iff t).mpr k)
        rw [if_neg hs, names_add]
        simp only [List.mem_cons, exists_eq_or_imp, hs', or_assoc, not_true_eq_false, not_false_eq_true, false_and, true_and,
          false_or, or_false]
  have := key ret []
  simpa [Infer.resolveMemberTypes] using this

theorem mem_methodLoop (f : Bytes → List Types.Union) (on u : Types.Union) (q : Bytes) :
    q ∈ (Infer.methodLoop f on u).map Types.Ty.fqn ↔ q ∈ u.map Types.Ty.fqn ∨ ∃ x ∈ on.map Types.Ty.fqn, ∃ ret ∈ f x,
      ∃ t ∈ ret, ¬ StandsForObject t ∧ t.fqn = q ∨ StandsForObject t ∧ q ∈ on.map Types.Ty.fqn := by
  have inner : ∀ (l : List Types.Union) (u : Types.Union),
      q ∈ (l.foldl (fun types ret => Types.merge types (Infer.resolveMemberTypes ret on)) u).map Types.Ty.fqn ↔
      q ∈ u.map Types.Ty.fqn ∨ ∃ ret ∈ l,
        ∃ t ∈ ret, ¬ StandsForObject t ∧ t.fqn = q ∨ StandsForObject t ∧ q ∈ on.map Types.Ty.fqn := by
    intro l
    induction l with
    | nil => intro u; simp
    | cons v l ih =>
      intro u
      rw [List.foldl_cons, ih, Types.C25_merge, names_resolveMemberTypes]
      simp only [List.mem_cons, exists_eq_or_imp, or_assoc]
  unfold Infer.methodLoop
  generalize hq : (fun types (ret : Types.Union) => Types.merge types (Infer.resolveMemberTypes ret on)) = g at inner ⊢
  generalize hP : (fun t : Types.Ty => ¬ StandsForObject t ∧ t.fqn = q ∨ StandsForObject t ∧ q ∈ on.map Types.Ty.fqn) = P at inner
  have hP' : ∀ t, (¬ StandsForObject t ∧ t.fqn = q ∨ StandsForObject t ∧ q ∈ on.map Types.Ty.fqn) ↔ P t := by
    intro t; rw [← hP]
  simp only [hP'] at inner ⊢
  clear hP hP' hq
  induction on generalizing u with
  | nil => simp
  | cons t on ih =>
    rw [List.foldl_cons]
    refine (ih _).trans ?_
    rw [inner]
    simp only [List.map_cons, List.mem_cons, exists_eq_or_imp, or_assoc]

theorem getTypes_isNil (e : Infer.Expr) (h : e.isNil = true) : e.getTypes = [] := by
  cases e with
  | nothing => rfl
  | _ => cases h

theorem scopeName_resolve (w : Infer.World) (e : Infer.Expr) : (e.resolve w).scopeName = e.scopeName := by
  cases e <;> simp only [Infer.Expr.resolve] <;> (try split) <;> rfl

/-! ### What a class has -/

theorem SomeProperty.from_ {L : Bytes → Option Doc} {c n : Bytes} {p : Property} (hp : SomeProperty env L c n p) :
    FromClass env L c p.scope.fqn := by
  obtain ⟨d, e, h1, h2, h3, h4⟩ := hp.above
  exact ⟨d, h1, h2, e, h3, .inl h4⟩

theorem SomeMethod.from_ {L : Bytes → Option Doc} {c n : Bytes} {m : Method} (hp : SomeMethod env L c n m) :
    FromClass env L c m.scope.fqn := by
  obtain ⟨d, e, h1, h2, h3, h4 | ⟨-, t, h5, h6, h7, h8⟩⟩ := hp.above
  · exact ⟨d, h1, h2, e, h3, .inl h4⟩
  · exact ⟨d, h1, h2, e, h3, .inr (.inl ⟨t, h5, h6, h7, h8⟩)⟩

/-! ### What the index answers after an arrow -/

theorem after_arrow (he : EnvOK env) (hsl : env.LowerSlash) (hok : HistOK env h) (hs : run env root h = some s)
    (ho : OneEach env (latest h)) (hac : Acyclic env (latest h)) (hap : ClassesApart env (latest h)) (last : Imports.Table) (st)
    (hst : ∀ u a c name, Resolving (worldOf env s) (st u a c name)) :
    ∃ N, ∀ n ni, N ≤ n → N ≤ ni → ∀ (a : Infer.Access) (c name : Bytes) (t : Types.Ty),
      (LacksProperty env (latest h) c name → ¬ ∃ u ∈ (resolvedIn env s last n ni st).props a c name, t ∈ u) ∧
      (∀ p, SomeProperty env (latest h) c name p → MayUse a p.scope.fqn (.pro p) →
        ((∃ u ∈ (resolvedIn env s last n ni st).props a c name, t ∈ u) ↔ Gives (.pro p) t)) ∧
      (LacksMethod env (latest h) c name → ¬ ∃ u ∈ (resolvedIn env s last n ni st).methods a c name, t ∈ u) ∧
      (∀ m, SomeMethod env (latest h) c name m → NoInterfaces env (latest h) c → MayUse a m.scope.fqn (.met m) →
        ((∃ u ∈ (resolvedIn env s last n ni st).methods a c name, t ∈ u) ↔ Gives (.met m) t)) := by
  obtain ⟨o, hd⟩ := declared_exists he hok hs last
  obtain ⟨N, hN⟩ := searches_end he hsl hok hs hac
  refine ⟨N, fun n ni hn hni a c name t => ?_⟩
  obtain ⟨pend, mend⟩ := hN n ni hn hni
  have hcov := covers_of he hsl hok hs ho last n ni st (fun _ _ _ _ => (hst _ _ _ _).reachable) o hd
  refine ⟨?_, fun p hp hu => ⟨?_, fun ht => ?_⟩, ?_, fun m hp hb hu => ⟨?_, fun ht => ?_⟩⟩
  · rintro ⟨hn0, hl⟩ ⟨u, hu, ht⟩
    obtain ⟨p', k1, k2, k3, -⟩ := (hd.props _ _ _ _ _).mp (hcov.props a c name u hu t ht)
    exact hl p' k1 k2 (k3 hn0)
  · rintro ⟨u, hu, ht⟩
    obtain ⟨p', k1, k2, k3, k4⟩ := (hd.props _ _ _ _ _).mp (hcov.props a c name u hu t ht)
    rwa [hp.only p' k1 k2 (k3 hp.named)] at k4
  · obtain ⟨fs, hfs⟩ := pend (MemberUse.reduce .prop a.here (accessOf a)) name c (st .prop a c name)
    obtain ⟨v, hv, hvt⟩ := some_property_found he hsl hok hs ho hap .prop rfl a.here (accessOf a) n ni name c hp
      (fun _ rel => by
        rcases hu with ⟨x, xs, e1, e2⟩ | hu
        · exact inherited_object ⟨xs.map (·.fqn), by simp [accessOf, e1, e2]⟩ rel _
        · exact inherited_of (k := .props) rfl s hu rel)
      (fun h => absurd rfl h.1) _ (hst _ _ _ _) fs hfs t ht
    exact ⟨v, by simp only [resolvedIn, hfs, Option.getD_some]; exact hv, hvt⟩
  · rintro ⟨hn0, hl⟩ ⟨u, hu, ht⟩
    obtain ⟨p', k1, k2, k3, -⟩ := (hd.methods _ _ _ _ _).mp (hcov.methods a c name u hu t ht)
    exact hl p' k1 k2 (k3 hn0)
  · rintro ⟨u, hu, ht⟩
    obtain ⟨p', k1, k2, k3, k4⟩ := (hd.methods _ _ _ _ _).mp (hcov.methods a c name u hu t ht)
    rwa [hp.only p' k1 k2 (k3 hp.named)] at k4
  · obtain ⟨fs, hfs⟩ := mend (MemberUse.reduce .method a.here (accessOf a)) name c (st .method a c name)
    obtain ⟨v, hv, hvt⟩ := bare_method_found he hsl hok hs ho .method rfl a.here (accessOf a) n ni name c hp hb
      (fun _ rel => by
        rcases hu with ⟨x, xs, e1, e2⟩ | hu
        · exact inherited_object ⟨xs.map (·.fqn), by simp [accessOf, e1, e2]⟩ rel _
        · exact inherited_of (k := .methods) rfl s hu rel)
      (fun h => absurd rfl h.2) _ (hst _ _ _ _) fs hfs t ht
    exact ⟨v, by simp only [resolvedIn, hfs, Option.getD_some]; exact hv, hvt⟩

theorem after_scope (he : EnvOK env) (hsl : env.LowerSlash) (hok : HistOK env h) (hs : run env root h = some s)
    (ho : OneEach env (latest h)) (hac : Acyclic env (latest h)) (hap : ClassesApart env (latest h)) (last : Imports.Table) (st)
    (hst : ∀ u a c name, Resolving (worldOf env s) (st u a c name)) :
    ∃ N, ∀ n ni, N ≤ n → N ≤ ni → ∀ (a : Infer.Access) (c name : Bytes) (t : Types.Ty),
      (LacksProperty env (latest h) c name → ¬ ∃ u ∈ (resolvedIn env s last n ni st).staticProps a c name, t ∈ u) ∧
      (∀ p, SomeProperty env (latest h) c name p → ByScope a.here a.scopeName p.scope.fqn (.pro p) →
        ((∃ u ∈ (resolvedIn env s last n ni st).staticProps a c name, t ∈ u) ↔ Gives (.pro p) t)) ∧
      (LacksMethod env (latest h) c name → ¬ ∃ u ∈ (resolvedIn env s last n ni st).staticMethods a c name, t ∈ u) ∧
      (∀ m, SomeMethod env (latest h) c name m → NoInterfaces env (latest h) c → ByScope a.here a.scopeName m.scope.fqn (.met m) →
        ((∃ u ∈ (resolvedIn env s last n ni st).staticMethods a c name, t ∈ u) ↔ Gives (.met m) t)) := by
  obtain ⟨o, hd⟩ := declared_exists he hok hs last
  obtain ⟨N, hN⟩ := searches_end he hsl hok hs hac
  refine ⟨N, fun n ni hn hni a c name t => ?_⟩
  obtain ⟨pend, mend⟩ := hN n ni hn hni
  have hcov := covers_of he hsl hok hs ho last n ni st (fun _ _ _ _ => (hst _ _ _ _).reachable) o hd
  refine ⟨?_, fun p hp hu => ⟨?_, fun ht => ?_⟩, ?_, fun m hp hb hu => ⟨?_, fun ht => ?_⟩⟩
  · rintro ⟨hn0, hl⟩ ⟨u, hu, ht⟩
    obtain ⟨p', k1, k2, k3, -, -⟩ := (hd.staticProps _ _ _ _ _).mp (hcov.staticProps a c name u hu t ht)
    exact hl p' k1 k2 (k3 hn0)
  · rintro ⟨u, hu, ht⟩
    obtain ⟨p', k1, k2, k3, -, k4⟩ := (hd.staticProps _ _ _ _ _).mp (hcov.staticProps a c name u hu t ht)
    rwa [hp.only p' k1 k2 (k3 hp.named)] at k4
  · obtain ⟨fs, hfs⟩ := pend (MemberUse.reduce .staticProp a.here (accessOf a)) name c (st .staticProp a c name)
    obtain ⟨v, hv, hvt⟩ := some_property_found he hsl hok hs ho hap .staticProp rfl a.here (accessOf a) n ni name c hp
      (fun h => by rcases h with h | h <;> cases h)
      (fun _ rel => inheritedStatic_of (k := .props) rfl s hu rel) _ (hst _ _ _ _) fs hfs t ht
    exact ⟨v, by simp only [resolvedIn, hfs, Option.getD_some]; exact hv, hvt⟩
  · rintro ⟨hn0, hl⟩ ⟨u, hu, ht⟩
    obtain ⟨p', k1, k2, k3, -, -⟩ := (hd.staticMethods _ _ _ _ _).mp (hcov.staticMethods a c name u hu t ht)
    exact hl p' k1 k2 (k3 hn0)
  · rintro ⟨u, hu, ht⟩
    obtain ⟨p', k1, k2, k3, -, k4⟩ := (hd.staticMethods _ _ _ _ _).mp (hcov.staticMethods a c name u hu t ht)
    rwa [hp.only p' k1 k2 (k3 hp.named)] at k4
  · obtain ⟨fs, hfs⟩ := mend (MemberUse.reduce .staticMethod a.here (accessOf a)) name c (st .staticMethod a c name)
    obtain ⟨v, hv, hvt⟩ := bare_method_found he hsl hok hs ho .staticMethod rfl a.here (accessOf a) n ni name c hp hb
      (fun h => by rcases h with h | h <;> cases h)
      (fun _ rel => inheritedStatic_of (k := .methods) rfl s hu rel) _ (hst _ _ _ _) fs hfs t ht
    exact ⟨v, by simp only [resolvedIn, hfs, Option.getD_some]; exact hv, hvt⟩

/-! ### C151 -/

/-- C151: after any history, and whatever was asked before in the same request, a chain of accesses and calls of any length has
exactly the types that the declarations in the files give it. -/
theorem C151_chain (he : EnvOK env) (hsl : env.LowerSlash) (hok : HistOK env h) (hs : run env root h = some s)
    (ho : OneEach env (latest h)) (hac : Acyclic env (latest h)) (hap : ClassesApart env (latest h)) (last : Imports.Table) (st)
    (hst : ∀ u a c name, Resolving (worldOf env s) (st u a c name)) :
    ∃ N, ∀ n ni, N ≤ n → N ≤ ni → ∀ (here : Bytes) (e0 : Infer.Expr) (S0 : Bytes → Prop) (e : Infer.Expr) (S : Bytes → Prop),
      Chain env (latest h) here e0 S0 e S →
      (∀ q, q ∈ (e0.typesIn (resolvedIn env s last n ni st)).map Types.Ty.fqn ↔ S0 q) →
      ∀ q, q ∈ (e.typesIn (resolvedIn env s last n ni st)).map Types.Ty.fqn ↔ S q := by
  obtain ⟨N, hN⟩ := after_arrow he hsl hok hs ho hac hap last st hst
  obtain ⟨M, hM⟩ := after_scope he hsl hok hs ho hac hap last st hst
  refine ⟨max N M, fun n ni hn hni here e0 S0 e S hc h0 => ?_⟩
  have hN := hN n ni (le_trans (le_max_left _ _) hn) (le_trans (le_max_left _ _) hni)
  have hM := hM n ni (le_trans (le_max_right _ _) hn) (le_trans (le_max_right _ _) hni)
  induction hc with
  | start => exact h0
  | @property e S name hc hm ih =>
    intro q
    have e1 : (Infer.Expr.property here name [] false e).typesIn (resolvedIn env s last n ni st) =
      Infer.memberLoop (fun c => (resolvedIn env s last n ni st).props ⟨here, (e.resolve (resolvedIn env s last n ni st)).scopeName,
        e.typesIn (resolvedIn env s last n ni st)⟩ c (b!"$" ++ name)) (e.typesIn (resolvedIn env s last n ni st)) [] := rfl
    rw [e1, mem_memberLoop, scopeName_resolve]
    constructor
    · rintro (hq | ⟨c, hcn, u, hu, hq⟩)
      · cases hq
      · obtain ⟨t, ht, rfl⟩ := List.mem_map.mp hq
        have hS := (ih c).mp hcn
        rcases hm c hS with hl | ⟨p, hp, hb⟩
        · exact absurd ⟨u, hu, ht⟩ ((hN _ c _ t).1 hl)
        · exact ⟨c, p, hS, hp, t, ((hN _ c _ t).2.1 p hp (.inr hb)).mp ⟨u, hu, ht⟩, rfl⟩
    · rintro ⟨c, p, hS, hp, t, ht, rfl⟩
      rcases hm c hS with hl | ⟨p', hp', hb⟩
      · exact absurd hp.name (hl.2 p hp.live hp.from_)
      · have : p = p' := hp'.only p hp.live hp.from_ hp.name
        subst this
        obtain ⟨u, hu, htu⟩ := ((hN ⟨here, e.scopeName, e.typesIn (resolvedIn env s last n ni st)⟩ c _ t).2.1 p hp' (.inr hb)).mpr ht
        exact .inr ⟨c, (ih c).mpr hS, u, hu, List.mem_map_of_mem htu⟩
  | @method e S name hc hm ih =>
    intro q
    have e1 : (Infer.Expr.method here name [] false e).typesIn (resolvedIn env s last n ni st) =
      Infer.methodLoop (fun c => (resolvedIn env s last n ni st).methods ⟨here, (e.resolve (resolvedIn env s last n ni st)).scopeName,
        e.typesIn (resolvedIn env s last n ni st)⟩ c name) (e.typesIn (resolvedIn env s last n ni st)) [] := rfl
    rw [e1, mem_methodLoop, scopeName_resolve]
    simp only [ih]
    constructor
    · rintro (hq | ⟨c, hS, u, hu, t, ht, hq⟩)
      · cases hq
      · rcases hm c hS with hl | ⟨p, hp, hnb, hb⟩
        · exact absurd ⟨u, hu, ht⟩ ((hN _ c _ t).2.2.1 hl)
        · exact ⟨c, p, hS, hp, t, ((hN _ c _ t).2.2.2 p hp hnb (.inr hb)).mp ⟨u, hu, ht⟩, hq⟩
    · rintro ⟨c, p, hS, hp, t, ht, hq⟩
      rcases hm c hS with hl | ⟨p', hp', hnb, hb⟩
      · exact absurd hp.name (hl.2 p hp.live (.inl hp.from_))
      · have : p = p' := hp'.only p hp.live (.inl hp.from_) hp.name
        subst this
        obtain ⟨u, hu, htu⟩ := ((hN ⟨here, e.scopeName, e.typesIn (resolvedIn env s last n ni st)⟩ c _ t).2.2.2 p hp' hnb
          (.inr hb)).mpr ht
        exact .inr ⟨c, hS, u, hu, t, htu, hq⟩
  | @staticProperty e S name hc hm ih =>
    intro q
    have e1 : (Infer.Expr.staticProperty here name [] false e).typesIn (resolvedIn env s last n ni st) =
      Infer.memberLoop (fun c => (resolvedIn env s last n ni st).staticProps ⟨here, (e.resolve (resolvedIn env s last n ni st)).scopeName,
        e.typesIn (resolvedIn env s last n ni st)⟩ c name) (e.typesIn (resolvedIn env s last n ni st)) [] := rfl
    rw [e1, mem_memberLoop, scopeName_resolve]
    constructor
    · rintro (hq | ⟨c, hcn, u, hu, hq⟩)
      · cases hq
      · obtain ⟨t, ht, rfl⟩ := List.mem_map.mp hq
        have hS := (ih c).mp hcn
        rcases hm c hS with hl | ⟨p, hp, hb⟩
        · exact absurd ⟨u, hu, ht⟩ ((hM _ c _ t).1 hl)
        · exact ⟨c, p, hS, hp, t, ((hM _ c _ t).2.1 p hp hb).mp ⟨u, hu, ht⟩, rfl⟩
    · rintro ⟨c, p, hS, hp, t, ht, rfl⟩
      rcases hm c hS with hl | ⟨p', hp', hb⟩
      · exact absurd hp.name (hl.2 p hp.live hp.from_)
      · have : p = p' := hp'.only p hp.live hp.from_ hp.name
        subst this
        obtain ⟨u, hu, htu⟩ := ((hM ⟨here, e.scopeName, e.typesIn (resolvedIn env s last n ni st)⟩ c _ t).2.1 p hp' hb).mpr ht
        exact .inr ⟨c, (ih c).mpr hS, u, hu, List.mem_map_of_mem htu⟩
  | @staticMethod e S name hc hm ih =>
    intro q
    have e1 : (Infer.Expr.staticMethod here name [] false e).typesIn (resolvedIn env s last n ni st) =
      Infer.methodLoop (fun c => (resolvedIn env s last n ni st).staticMethods ⟨here, (e.resolve (resolvedIn env s last n ni st)).scopeName,
        e.typesIn (resolvedIn env s last n ni st)⟩ c name) (e.typesIn (resolvedIn env s last n ni st)) [] := rfl
    rw [e1, mem_methodLoop, scopeName_resolve]
    simp only [ih]
    constructor
    · rintro (hq | ⟨c, hS, u, hu, t, ht, hq⟩)
      · cases hq
      · rcases hm c hS with hl | ⟨p, hp, hnb, hb⟩
        · exact absurd ⟨u, hu, ht⟩ ((hM _ c _ t).2.2.1 hl)
        · exact ⟨c, p, hS, hp, t, ((hM _ c _ t).2.2.2 p hp hnb hb).mp ⟨u, hu, ht⟩, hq⟩
    · rintro ⟨c, p, hS, hp, t, ht, hq⟩
      rcases hm c hS with hl | ⟨p', hp', hnb, hb⟩
      · exact absurd hp.name (hl.2 p hp.live (.inl hp.from_))
      · have : p = p' := hp'.only p hp.live (.inl hp.from_) hp.name
        subst this
        obtain ⟨u, hu, htu⟩ := ((hM ⟨here, e.scopeName, e.typesIn (resolvedIn env s last n ni st)⟩ c _ t).2.2.2 p hp' hnb
          hb).mpr ht
        exact .inr ⟨c, hS, u, hu, t, htu, hq⟩
  | @assigned e S name ts hc ih =>
    intro q
    have e1 : (Infer.Expr.variable name ts false false e).typesIn (resolvedIn env s last n ni st) =
      if (e.resolve (resolvedIn env s last n ni st)).isNil then ts
      else Types.merge (e.typesIn (resolvedIn env s last n ni st)) ts := rfl
    have e2 : q ∈ ts.map Types.Ty.fqn ↔ ∃ t ∈ ts, t.fqn = q := List.mem_map
    rw [e1]
    split
    · rename_i hn
      have := (ih q).not.mp (by simp [Infer.Expr.typesIn, getTypes_isNil _ hn])
      rw [e2]
      tauto
    · rw [Types.C25_merge, ih q, e2]
  | @derived e S hc ih =>
    intro q
    have e1 : (Infer.Expr.derived false e).typesIn (resolvedIn env s last n ni st) =
      if (e.resolve (resolvedIn env s last n ni st)).isNil then [] else e.typesIn (resolvedIn env s last n ni st) := rfl
    rw [e1, ← ih q]
    split
    · rename_i hn
      simp [Infer.Expr.typesIn, getTypes_isNil _ hn]
    · rfl

/-- C151: if the text above the method names neither `static` nor `$this`, the call at the end of a chain has exactly the types
that the `@return` tags of the doc comment of the declaration name. -/
theorem C151_call (he : EnvOK env) (hsl : env.LowerSlash) (hok : HistOK env h) (hs : run env root h = some s)
    (ho : OneEach env (latest h)) (hac : Acyclic env (latest h)) (hap : ClassesApart env (latest h)) (last : Imports.Table) (st)
    (hst : ∀ u a c name, Resolving (worldOf env s) (st u a c name))
    (m : Method) (denv : Decl.Env) (ks head : List Node) (doc : Option Node)
    (hh : OnlyPhrase .methodDeclarationHeader ks (.phr .methodDeclarationHeader head))
    (hdoc : DocApplies denv (.phr .methodDeclaration ks) doc)
    (hrec : SameTypes m.returnTypes (Decl.newMethod denv (.phr .methodDeclaration ks)).returns)
    (hno : ∀ t, Gives (.met m) t → ¬ StandsForObject t) :
    ∃ N, ∀ n ni, N ≤ n → N ≤ ni → ∀ (here : Bytes) (e0 : Infer.Expr) (S0 : Bytes → Prop) (e : Infer.Expr) (c name : Bytes),
      Chain env (latest h) here e0 S0 e (· = c) → SomeMethod env (latest h) c name m → NoInterfaces env (latest h) c →
      ByArrow here e.scopeName m.scope.fqn (.met m) →
      (∀ q, q ∈ (e0.typesIn (resolvedIn env s last n ni st)).map Types.Ty.fqn ↔ S0 q) →
      ∀ q, q ∈ ((Infer.Expr.method here name [] false e).typesIn (resolvedIn env s last n ni st)).map Types.Ty.fqn ↔
        ReturnDocumented denv doc q := by
  obtain ⟨N, hN⟩ := C151_chain he hsl hok hs ho hac hap last st hst
  refine ⟨N, fun n ni hn hni here e0 S0 e c name hc hm hb hu h0 q => ?_⟩
  rw [hN n ni hn hni here e0 S0 _ _ (hc.method name fun x hx => by subst hx; exact .inr ⟨m, hm, hb, hu⟩) h0 q]
  have ret : q ∈ (m.returnTypes.map Show.ofType).map Types.Ty.fqn ↔ ReturnDocumented denv doc q := by
    rw [hrec]
    exact method_returns denv ks head doc hh hdoc q
  rw [← ret]
  constructor
  · rintro ⟨x, m', rfl, hm', t, ht, hq⟩
    rw [hm.only m' hm'.live (.inl hm'.from_) hm'.name] at ht
    rcases hq with ⟨-, rfl⟩ | ⟨hq, -⟩
    · exact List.mem_map_of_mem ht
    · exact absurd hq (hno t ht)
  · intro hq
    obtain ⟨t, ht, rfl⟩ := List.mem_map.mp hq
    exact ⟨c, m, rfl, hm, t, ht, .inl ⟨hno t ht, rfl⟩⟩

/-- C151: a call of a method that is documented to return `static` or `$this`, and nothing else, has the types of the object
before the arrow. -/
theorem C151_fluent (he : EnvOK env) (hsl : env.LowerSlash) (hok : HistOK env h) (hs : run env root h = some s)
    (ho : OneEach env (latest h)) (hac : Acyclic env (latest h)) (hap : ClassesApart env (latest h)) (last : Imports.Table) (st)
    (hst : ∀ u a c name, Resolving (worldOf env s) (st u a c name)) :
    ∃ N, ∀ n ni, N ≤ n → N ≤ ni → ∀ (here : Bytes) (e0 : Infer.Expr) (S0 : Bytes → Prop) (e : Infer.Expr) (S : Bytes → Prop)
      (name : Bytes), Chain env (latest h) here e0 S0 e S →
      (∀ c, S c → ∃ m, SomeMethod env (latest h) c name m ∧ NoInterfaces env (latest h) c ∧
        ByArrow here e.scopeName m.scope.fqn (.met m) ∧ (∃ t, Gives (.met m) t) ∧ ∀ t, Gives (.met m) t → StandsForObject t) →
      (∀ q, q ∈ (e0.typesIn (resolvedIn env s last n ni st)).map Types.Ty.fqn ↔ S0 q) →
      ∀ q, q ∈ ((Infer.Expr.method here name [] false e).typesIn (resolvedIn env s last n ni st)).map Types.Ty.fqn ↔ S q := by
  obtain ⟨N, hN⟩ := C151_chain he hsl hok hs ho hac hap last st hst
  refine ⟨N, fun n ni hn hni here e0 S0 e S name hc hm h0 q => ?_⟩
  rw [hN n ni hn hni here e0 S0 _ _ (hc.method name fun x hx => by
    obtain ⟨m, h1, h2, h3, -⟩ := hm x hx
    exact .inr ⟨m, h1, h2, h3⟩) h0 q]
  constructor
  · rintro ⟨x, m', hx, hm', t, ht, hq⟩
    obtain ⟨m, h1, -, -, -, h5⟩ := hm x hx
    rw [h1.only m' hm'.live (.inl hm'.from_) hm'.name] at ht
    rcases hq with ⟨hq, -⟩ | ⟨-, hq⟩
    · exact absurd (h5 t ht) hq
    · exact hq
  · intro hq
    obtain ⟨m, h1, -, -, ⟨t, ht⟩, h5⟩ := hm q hq
    exact ⟨q, m, hq, h1, t, ht, .inr ⟨h5 t ht, hq⟩⟩

/-! ### An example -/

namespace Demo

open Store.Demo (uA uB)

/-- `/** @var B */ public $b;` of `A` -/
def linkProp : Property := ⟨Store.Demo.loc uB 2, Store.Demo.loc uB 2, [], none, b!"$b", Store.Demo.ty b!"App\\A", 0, false,
  [⟨b!"\\App\\B", b!"B", 0⟩]⟩
/-- `/** @return static */ function m() {}` of `A` -/
def linkMeth : Method := ⟨Store.Demo.loc uB 3, Store.Demo.loc uB 3, b!"m", [], [⟨b!"static", b!"static", 0⟩], [],
  Store.Demo.ty b!"App\\A", 0, false, 0, none⟩

/-- With `class A` and `class B extends A`. -/
def linkDoc : Doc where
  uri := uB
  hash := b!"9"
  symbols := [.cla plainA, .pro linkProp, .met linkMeth, .cla plainB]
  namespaces := []
  refs := []

def linkHist : List HOp := [.upgrade b!"v0.0.16", .index Store.Demo.a1, .restart, .index linkDoc, .delete uA]

theorem linkDoc_ok : DocOK Store.Demo.env linkDoc where
  uri := Store.Demo.uB_ok
  len := by decide
  syms := by
    have : ∀ x ∈ linkDoc.symbols, x.WF := by
      simp [linkDoc, plainA, plainB, linkProp, linkMeth, Sym.WF, Class.WF, Method.WF, Property.WF, Location.WF,
        Store.Demo.loc, uB, Str, Store.Demo.ty, TypeString.WF, Types.WF, ListWF, DeprecatedWF]
    intro x hx
    exact Store.Demo.sym_ok (this x hx) ((by decide +kernel : ∀ x ∈ linkDoc.symbols, ∀ n ∈ x.names, sep ∉ n) x hx)
      ((by decide +kernel : ∀ x ∈ linkDoc.symbols, x.location.uri = uB) x hx)
      ((by decide +kernel : ∀ x ∈ linkDoc.symbols, (x.key Store.Demo.env).length < 1000) x hx)
  refsLen := by decide
  refs := by simp [linkDoc]

theorem linkHist_ok : HistOK Store.Demo.env linkHist where
  docs := by
    rw [show docs linkHist = [Store.Demo.a1, linkDoc] from rfl]
    simp [Store.Demo.a1_ok, linkDoc_ok]
  consts := by
    intro d1 h1 d2 h2 c1 c2 m1 m2 _ _
    rw [show docs linkHist = [Store.Demo.a1, linkDoc] from rfl] at h1 h2
    simp only [List.mem_cons, List.not_mem_nil, or_false] at h1 h2
    rcases h1 with rfl | rfl <;> rcases h2 with rfl | rfl <;>
      first
        | rfl
        | (simp [Store.Demo.a1, linkDoc, Store.Demo.cla, Store.Demo.met, Store.Demo.pro, Store.Demo.fn, Store.Demo.glo,
            Store.Demo.claCon] at m1 m2)
  crashes := by simp [Store.Keeps, linkHist]

theorem link_mem {x : Sym} (hx : Live Store.Demo.env (latest linkHist) x) : x ∈ linkDoc.symbols := by
  obtain ⟨u, d, pre, post, hu, hd, -⟩ := hx
  have : d = linkDoc := by
    simp only [latest, linkHist, List.foldl_cons, List.foldl_nil, latestStep] at hu
    split at hu
    · cases hu
    · split at hu
      · exact (Option.some.inj hu).symm
      · rename_i h1 h2
        rw [if_neg (show ¬ u = Store.Demo.a1.uri from h1)] at hu
        cases hu
  subst this
  rw [hd]; simp

theorem link_live {x : Sym} (hx : x ∈ linkDoc.symbols) : Live Store.Demo.env (latest linkHist) x := by
  have e : latest linkHist uB = some linkDoc := by decide +kernel
  have no : ∀ y ∈ linkDoc.symbols, y.Indexed := by
    simp [linkDoc, Sym.Indexed]
  simp only [linkDoc, List.mem_cons, List.not_mem_nil, or_false] at hx
  rcases hx with rfl | rfl | rfl | rfl
  · exact ⟨uB, linkDoc, [], _, e, rfl, no _ (by simp [linkDoc]), by
      simp only [List.mem_cons, List.not_mem_nil, or_false, forall_eq_or_imp, forall_eq]
      refine ⟨by simp [SameDecl, Sym.kind], by simp [SameDecl, Sym.kind], ?_⟩
      rintro ⟨-, -, hp, -⟩
      exact absurd hp (by decide +kernel)⟩
  · exact ⟨uB, linkDoc, [_], _, e, rfl, no _ (by simp [linkDoc]), by simp [SameDecl, Sym.kind]⟩
  · exact ⟨uB, linkDoc, [_, _], _, e, rfl, no _ (by simp [linkDoc]), by simp [SameDecl, Sym.kind]⟩
  · exact ⟨uB, linkDoc, [_, _, _], _, e, rfl, no _ (by simp [linkDoc]), by simp⟩

theorem link_cla {c : Class} (hc : Live Store.Demo.env (latest linkHist) (.cla c)) : c = plainA ∨ c = plainB := by
  simpa [linkDoc] using link_mem hc

theorem link_each : OneEach Store.Demo.env (latest linkHist) where
  classes c d hc hd hn := by
    rcases link_cla hc with rfl | rfl <;> rcases link_cla hd with rfl | rfl
    · rfl
    · exact absurd hn (inh_ne (by decide +kernel))
    · exact absurd hn (inh_ne (by decide +kernel))
    · rfl
  interfaces c d hc hd _ := by
    have := link_mem hc
    simp [linkDoc] at this

theorem link_acyclic : Acyclic Store.Demo.env (latest linkHist) := by
  have h0 : ∀ d, ¬ Extends Store.Demo.env (latest linkHist) plainA d := fun d hd => absurd rfl hd.1
  intro c hc h
  rcases link_cla hc with rfl | rfl
  · rcases Relation.TransGen.head'_iff.mp h with ⟨d, hd, -⟩
    exact h0 d hd
  · rcases Relation.TransGen.head'_iff.mp h with ⟨d, hd, hdb⟩
    rcases link_cla hd.2.1 with rfl | rfl
    · rcases Relation.ReflTransGen.cases_head hdb with e | ⟨x, hx, -⟩
      · exact absurd (congrArg (·.location.range) e) (by decide +kernel)
      · exact h0 x hx
    · exact inh_ne (by decide +kernel) hd.2.2

theorem link_apart : ClassesApart Store.Demo.env (latest linkHist) := by
  intro d _ i hi
  have := link_mem hi
  simp [linkDoc] at this

theorem link_bare (c : Bytes) : NoInterfaces Store.Demo.env (latest linkHist) c := by
  intro d e _ _ _ i hi
  have := link_mem hi
  simp [linkDoc] at this

theorem link_above : Above Store.Demo.env (latest linkHist) plainB plainA :=
  .parent .self (by decide) (link_live (by simp [linkDoc])) ((classFQNLower_eq_iff Store.Demo.lower_slash _ _).mp rfl)

theorem link_method : SomeMethod Store.Demo.env (latest linkHist) b!"\\App\\B" b!"m" linkMeth :=
  ⟨by decide, link_live (by simp [linkDoc]), rfl, ⟨plainB, plainA, link_live (by simp [linkDoc]),
    (classFQNLower_eq_iff Store.Demo.lower_slash _ _).mp rfl, link_above, .inl rfl⟩,
    fun q hq _ _ => by simpa [linkDoc] using link_mem hq⟩

theorem link_property : SomeProperty Store.Demo.env (latest linkHist) b!"\\App\\B" b!"$b" linkProp :=
  ⟨by decide, link_live (by simp [linkDoc]), rfl, ⟨plainB, plainA, link_live (by simp [linkDoc]),
    (classFQNLower_eq_iff Store.Demo.lower_slash _ _).mp rfl, link_above, rfl⟩,
    fun q hq _ _ => by simpa [linkDoc] using link_mem hq⟩

/-- `new B` -/
def linkNew : Infer.Expr := .known [⟨b!"\\App\\B", b!"B", 0⟩]

/-- `(new B)->m()->b->m()` -/
def linkExpr : Infer.Expr := .method [] b!"m" [] false (.property [] b!"b" [] false (.method [] b!"m" [] false linkNew))

end Demo

/-- Non-vacuity of C151_chain and C151_fluent: `(new B)->m()->b->m()`, where `B` inherits the method `m`, documented to return
`static`, and the property `b`, documented to be a `B`, is a chain, and the index gives it the type `B`, also if `$a->m()` was
asked for before. -/
example : HistOK Store.Demo.env Demo.linkHist ∧ OneEach Store.Demo.env (latest Demo.linkHist) ∧
    Acyclic Store.Demo.env (latest Demo.linkHist) ∧ ClassesApart Store.Demo.env (latest Demo.linkHist) ∧
    (∃ S, Chain Store.Demo.env (latest Demo.linkHist) [] Demo.linkNew (· = b!"\\App\\B") Demo.linkExpr S ∧
      S b!"\\App\\B" ∧ ∀ q, S q → q = b!"\\App\\B") ∧
    (∃ t, Gives (.met Demo.linkMeth) t) ∧ (∀ t, Gives (.met Demo.linkMeth) t → StandsForObject t) ∧
    (∀ w, (Demo.linkNew.typesIn w).map Types.Ty.fqn = [b!"\\App\\B"]) ∧
    ∃ s, run Store.Demo.env Store.Demo.root Demo.linkHist = some s ∧
      (Demo.linkExpr.typesIn (resolvedIn Store.Demo.env s Decl.senv0.table 9 9 fun _ _ _ _ => Demo.askedPlain s)).map Types.Ty.fqn =
        [b!"\\App\\B"] := by
  have pub : ∀ here e, ByArrow here e Demo.linkMeth.scope.fqn (.met Demo.linkMeth) := fun _ _ =>
    .inl (by simp [Public, Protected, Private, Demo.linkMeth])
  have pubp : ∀ here e, ByArrow here e Demo.linkProp.scope.fqn (.pro Demo.linkProp) := fun _ _ =>
    .inl (by simp [Public, Protected, Private, Demo.linkProp])
  have gm : ∀ t, Gives (.met Demo.linkMeth) t ↔ t = ⟨b!"static", b!"static", 0⟩ := fun t => by
    simp [Gives, Demo.linkMeth, Show.ofType]
  have gp : ∀ t, Gives (.pro Demo.linkProp) t ↔ t = ⟨b!"\\App\\B", b!"B", 0⟩ := fun t => by
    simp [Gives, Demo.linkProp, Show.ofType]
  have mm : ∀ {c n m}, SomeMethod Store.Demo.env (latest Demo.linkHist) c n m → m = Demo.linkMeth := fun hm => by
    simpa [Demo.linkDoc] using Demo.link_mem hm.live
  have pp : ∀ {c n m}, SomeProperty Store.Demo.env (latest Demo.linkHist) c n m → m = Demo.linkProp := fun hm => by
    simpa [Demo.linkDoc] using Demo.link_mem hm.live
  have hself : StandsForObject ⟨b!"static", b!"static", 0⟩ := .inl rfl
  refine ⟨Demo.linkHist_ok, Demo.link_each, Demo.link_acyclic, Demo.link_apart, ⟨_, .method b!"m" (.property b!"b" (.method b!"m" .start
    ?_) ?_) ?_, ?_, ?_⟩, ⟨_, (gm _).mpr rfl⟩, fun t ht => by rw [(gm t).mp ht]; exact hself, fun _ => rfl,
    Store.Demo.observe _ _ (by decide +kernel)⟩
  · rintro c rfl
    exact .inr ⟨_, Demo.link_method, Demo.link_bare _, pub _ _⟩
  · rintro q ⟨c, m, rfl, hm, t, ht, ⟨hn, -⟩ | ⟨-, rfl⟩⟩
    · rw [mm hm, gm] at ht
      rw [ht] at hn
      exact absurd hself hn
    · exact .inr ⟨_, Demo.link_property, pubp _ _⟩
  · rintro q ⟨c, p, -, hp, t, ht, rfl⟩
    rw [pp hp, gp] at ht
    rw [ht]
    exact .inr ⟨_, Demo.link_method, Demo.link_bare _, pub _ _⟩
  · have h1 : ∃ c m, c = b!"\\App\\B" ∧ SomeMethod Store.Demo.env (latest Demo.linkHist) c b!"m" m ∧ ∃ t, Gives (.met m) t ∧
        (¬ StandsForObject t ∧ t.fqn = b!"\\App\\B" ∨ StandsForObject t ∧ b!"\\App\\B" = b!"\\App\\B") :=
      ⟨_, _, rfl, Demo.link_method, _, (gm _).mpr rfl, .inr ⟨hself, rfl⟩⟩
    exact ⟨_, _, ⟨_, _, h1, Demo.link_property, _, (gp _).mpr rfl, rfl⟩, Demo.link_method, _, (gm _).mpr rfl,
      .inr ⟨hself, _, _, h1, Demo.link_property, _, (gp _).mpr rfl, rfl⟩⟩
  · rintro q ⟨c, m, -, hm, t, ht, ⟨hn, -⟩ | ⟨-, c', p, -, hp, t', ht', rfl⟩⟩
    · rw [mm hm, gm] at ht
      rw [ht] at hn
      exact absurd hself hn
    · rw [pp hp, gp] at ht'
      rw [ht']

/-- Non-vacuity of C151_call: `(new B)->m()` of the example of C150_method_no_interfaces, where `m` is documented to return a `Baz`
(the conditions about the text are those of the example of C149). -/
example : ClassesApart Store.Demo.env (latest Demo.plainHist) ∧
    Chain Store.Demo.env (latest Demo.plainHist) [] Demo.linkNew (· = b!"\\App\\B") Demo.linkNew (· = b!"\\App\\B") ∧
    ByArrow [] Demo.linkNew.scopeName Demo.saidMeth.scope.fqn (.met Demo.saidMeth) ∧
    (∀ t, Gives (.met Demo.saidMeth) t → ¬ StandsForObject t) := by
  refine ⟨?_, .start, .inl (by simp [Public, Protected, Private, Demo.saidMeth]), ?_⟩
  · intro d _ i hi
    have := Demo.plain_mem hi
    simp [Demo.plainDoc] at this
  · intro t ht
    simp only [Gives, Demo.saidMeth, List.map_cons, List.map_nil, List.mem_cons, List.not_mem_nil, or_false] at ht
    subst ht
    unfold StandsForObject
    decide

/-- Non-vacuity of C151_chain after `::`: `self::m()` in the class `B`. -/
example : ∃ S, Chain Store.Demo.env (latest Demo.linkHist) b!"\\App\\B" (.classAccess b!"self" [⟨b!"\\App\\B", b!"B", 0⟩] true .nothing)
      (· = b!"\\App\\B")
      (.staticMethod b!"\\App\\B" b!"m" [] false (.classAccess b!"self" [⟨b!"\\App\\B", b!"B", 0⟩] true .nothing)) S ∧
    S b!"\\App\\B" ∧
    ∃ s, run Store.Demo.env Store.Demo.root Demo.linkHist = some s ∧
      ((Infer.Expr.staticMethod b!"\\App\\B" b!"m" [] false (.classAccess b!"self" [⟨b!"\\App\\B", b!"B", 0⟩] true .nothing)).typesIn
        (resolvedIn Store.Demo.env s Decl.senv0.table 9 9 fun _ _ _ _ => St.new)).map Types.Ty.fqn = [b!"\\App\\B"] := by
  refine ⟨_, .staticMethod b!"m" .start ?_, ⟨_, _, rfl, Demo.link_method, ⟨b!"static", b!"static", 0⟩, ?_, .inr ⟨.inl rfl, rfl⟩⟩,
    Store.Demo.observe _ _ (by decide +kernel)⟩
  · rintro c rfl
    exact .inr ⟨_, Demo.link_method, Demo.link_bare _, by simp [Infer.Expr.scopeName],
      fun _ => .inr (by simp [Private, Demo.linkMeth]), by simp [Infer.Expr.scopeName]⟩
  · simp [Gives, Demo.linkMeth, Show.ofType]

end Verif.Whole
