import Verif.Whole.PropsTextDefinition
import Verif.Whole.PropsSignatures

/-! C154: the signatures that are shown for a call of a method at the end of a chain of accesses. -/

namespace Verif.Whole

open Verif.Encoding Verif.Storage Verif.Store Verif.Query

variable {env : Env} {root : Bytes} {h : List HOp} {s : Store}

/-! ### Model -/

/-- The signatures that are shown inside the parentheses of a call of a method (`internal/lsp/signature.go:40-44`,
`hasParamToSignatureInformation`, `94-120`; `methodAccess.go:76-94`, `scopedMethodAccess.go:79-96`) if the query has been used
before: for the types of the object or class before the operator (`ResolveAndGetScope`, `expression.go:32-38`), and, for the hints
of a document (`signature.go:67-91`), for all the calls before this one. `st` is the state in which that leaves the query,
`a.types` are the types before the operator. `static` is true after `::`. -/
def signaturesAfter (env : Env) (s : Store) (n ni : Nat) (st : St) (static : Bool) (a : Access) (name cur : Bytes) :
    Option (List Show.Signature) :=
  (callLoop (MemberUse.reduce (if static then .staticMethod else .method) cur a)
    (a.types.flatMap (callLookups (worldOf env s) n ni name)) st).map fun l =>
      (l.filterMap fun f => (decls s)[f.member.decl]?).filterMap signatureOf

/-- With a new query it is what `signatureHelpIn` says. -/
theorem signaturesAfter_new (last : Imports.Table) (n ni : Nat) (static : Bool) (a : Access) (name cur : Bytes) :
    signaturesAfter env s n ni St.new static a name cur =
      signatureHelpIn env s last n ni (.member (if static then .staticMethod else .method) a name cur) := by
  cases static <;>
  · simp only [signaturesAfter, signatureHelpIn, describedIn, signatures, Option.map_map, Bool.false_eq_true, if_false, if_true]
    congr 1
    funext l
    simp only [Function.comp_apply, List.filterMap_map]
    try rfl

/-! ### One member, found any number of times -/

theorem reduceLoop_seen (ok : Found → Bool) (adjust : Found → Found) (x : Member) (seen : List Bytes) (hs : x.name ∈ seen)
    (l : List Found) (hl : ∀ f ∈ l, f.member = x) : reduceLoop ok adjust seen l = [] := by
  induction l with
  | nil => rfl
  | cons f l ih =>
    rw [reduceLoop, if_pos (by rw [hl f (by simp)]; exact hs)]
    exact ih fun g hg => hl g (List.mem_cons_of_mem _ hg)

theorem reduceLoop_one (ok : Found → Bool) (adjust : Found → Found) (x : Member) (hok : ∀ f, f.member = x → ok f = true)
    (ha : ∀ f, (adjust f).member = f.member) (l : List Found) (hne : l ≠ []) (hl : ∀ f ∈ l, f.member = x) :
    (reduceLoop ok adjust [] l).map (·.member) = [x] := by
  cases l with
  | nil => exact absurd rfl hne
  | cons f l =>
    have hf := hl f (by simp)
    rw [reduceLoop, if_neg (by simp), if_pos (hok f hf), reduceLoop_seen ok adjust x _ (by simp [hf]) l
      (fun g hg => hl g (List.mem_cons_of_mem _ hg))]
    simp [ha, hf]

theorem reduce_one (u : MemberUse) (cur : Bytes) (a : Access) (x : Member) (m : Inherited) (hne : m.members ≠ [])
    (hm : ∀ f ∈ m.members, f.member = x) (h1 : (u = .prop ∨ u = .method) → ∀ rel, isInherited cur a rel x = true)
    (h2 : (u ≠ .prop ∧ u ≠ .method) → ∀ rel, isInheritedStatic cur a rel x = true) :
    (u.reduce cur a m).map (·.member) = [x] := by
  have k1 : (∀ rel, isInherited cur a rel x = true) → (m.reduceAccess cur a).map (·.member) = [x] := fun h =>
    reduceLoop_one _ _ x (fun f hf => by rw [hf]; exact h _) (fun f => by split <;> rfl) _ hne hm
  have k2 : (∀ rel, isInheritedStatic cur a rel x = true) → (m.reduceStatic cur a).map (·.member) = [x] := fun h =>
    reduceLoop_one _ _ x (fun f hf => by rw [hf]; exact h _) (fun f => rfl) _ hne hm
  cases u
  case prop => exact k1 (h1 (.inl rfl))
  case method => exact k1 (h1 (.inr rfl))
  all_goals exact k2 (h2 (by decide))

/-! ### C154 -/

/-- C154: after any history, and whatever was asked before in the same request, the signatures that are shown for a call of a
method are those of its declaration, once for each type before the operator, if neither the class nor a class above it
implements an interface. -/
theorem C154_method_partial (he : EnvOK env) (hsl : env.LowerSlash) (hok : HistOK env h) (hs : run env root h = some s)
    (ho : OneEach env (latest h)) (hac : Acyclic env (latest h)) (hap : ClassesApart env (latest h)) :
    ∀ name, ∃ N, ∀ n ni, N ≤ n → N ≤ ni → ∀ (st : St), Resolving (worldOf env s) st → ∀ (a : Access) (cur t : Bytes) (m : Method),
      (∀ y ∈ a.types, y = t) → NoTrait env (latest h) t → SomeMethod env (latest h) t name m → NoInterfaces env (latest h) t →
      (ByArrow cur a.scopeName m.scope.fqn (.met m) →
        signaturesAfter env s n ni st false a name cur = some (a.types.map fun _ => withoutTexts (Show.methodSignature m))) ∧
      (ByScope cur a.scopeName m.scope.fqn (.met m) →
        signaturesAfter env s n ni st true a name cur = some (a.types.map fun _ => withoutTexts (Show.methodSignature m))) := by
  intro name
  have hw := distinct he hsl hok hs ho
  obtain ⟨N, hN⟩ := lookups_end (worldOf env s) (noCycle he hsl hok hs hac)
  have key : ∀ (u : MemberUse), u = .method ∨ u = .staticMethod → ∀ n ni, N ≤ n → N ≤ ni →
      ∀ (a : Access) (cur t : Bytes) (m : Method), NoTrait env (latest h) t → SomeMethod env (latest h) t name m →
      NoInterfaces env (latest h) t →
      ((u = .prop ∨ u = .method) → ∀ rel, isInherited cur a rel (memberOf s (Sym.stored (.met m))) = true) →
      ((u ≠ .prop ∧ u ≠ .method) → ∀ rel, isInheritedStatic cur a rel (memberOf s (Sym.stored (.met m))) = true) →
      ∀ (ts : List Bytes), (∀ y ∈ ts, y = t) → ∀ (st : St), Resolving (worldOf env s) st →
      ∃ l, callLoop (u.reduce cur a) (ts.flatMap (callLookups (worldOf env s) n ni name)) st = some l ∧
        l.map (·.member) = ts.map fun _ => memberOf s (Sym.stored (.met m)) := by
    intro u hu n ni hn hni a cur t m htr hm hb hin1 hin2 ts
    obtain ⟨d, e, hd, hdn, hab, hown⟩ := hm.above
    have hdw : clsOf s d ∈ (worldOf env s).classes := (mem_classes he hok hs _).mpr ⟨d, hd, rfl⟩
    have hcl : (worldOf env s).classesNamed t = [clsOf s d] := named_single hw hdw ((key_iff hsl _ _).mpr hdn)
    have hi : (worldOf env s).interfacesNamed t = [] := by
      unfold World.interfacesNamed
      rw [List.filter_eq_nil_iff]
      intro i hi hx
      exact apart_of he hsl hok hs hap _ hdw i hi (by rw [of_decide_eq_true hx]; exact (key_iff hsl _ _).mpr hdn)
    induction ts with
    | nil => exact fun _ st _ => ⟨[], rfl, rfl⟩
    | cons y ts ih =>
      intro hts st hst
      have hy : y = t := hts y (by simp)
      subst hy
      obtain ⟨r, -, hr⟩ := (hN name).1 _ hdw none st (by simp)
      have hr : getClassMethods (worldOf env s) n ni (clsOf s d) name none st = some r := hr n ni hn hni
      obtain ⟨l, h1, h2⟩ := ih (fun z hz => hts z (List.mem_cons_of_mem _ hz)) r.2 (.methods hst hdw hr)
      have hlook : callLookups (worldOf env s) n ni name y = [getClassMethods (worldOf env s) n ni (clsOf s d) name] := by
        rw [callLookups, hcl, hi]; rfl
      have hall : ∀ f ∈ r.1.members, f.member = memberOf s (Sym.stored (.met m)) := by
        intro f hf
        have hl : getClassMethods (worldOf env s) n ni (clsOf s d) name ∈ lookups (worldOf env s) n ni .method name y := by
          simp [lookups, hcl, MemberUse.kind, MemberUse.key]
        obtain ⟨hf1, hf2⟩ := (lookup_at hw hl hst.reachable hr).2 f hf
        obtain ⟨q, k1, ⟨k2, k3⟩, k4⟩ := (mem_methods he hok hs hm.named _).mp hf2
        have : q = m := hm.only q k1 (.inl (k2 ▸ from_one he hsl hok hs hap htr hd hdn hf1)) k3
        subst this
        exact k4.symm
      have hne : r.1.members ≠ [] := by
        have hall := (getClassMethods_bare hw hdw (hst.bare_inv hw) hr).2
          (bare_of he hsl hok hs hb hd hdn) _ (ancestor_of he hsl hok hs hab)
        have hmem : ∀ scope, m.scope.fqn = scope → memberOf s (Sym.stored (.met m)) ∈ (worldOf env s).members .methods scope name :=
          fun scope hsc => (mem_methods he hok hs hm.named _).mpr ⟨m, hm.live, ⟨hsc, hm.name⟩, rfl⟩
        rcases hown with hsc | ⟨-, tr, h5, ⟨x, hx, hxn⟩, h6, h7⟩
        · exact List.ne_nil_of_mem (hall _ (List.mem_append_left _ (List.mem_map_of_mem (hmem (clsOf s e).name hsc))))
        · exact List.ne_nil_of_mem (hall _ (List.mem_append_right _
            (List.mem_flatMap.mpr ⟨trtOf s tr, (mem_used _ _ _).mpr ⟨List.mem_map.mpr ⟨x, hx, hxn⟩, h6,
              (mem_traits he hok hs _).mpr ⟨tr, h5, rfl⟩⟩, List.mem_map_of_mem (hmem _ h7)⟩)))
      refine ⟨u.reduce cur a r.1 ++ l, ?_, ?_⟩
      · rw [List.flatMap_cons, hlook, List.singleton_append, callLoop, hr]
        simp only [h1, Option.map_some]
      · rw [List.map_append, reduce_one u cur a _ _ hne hall hin1 hin2, h2]
        rfl
  have fin : ∀ {m : Method} {ts : List Bytes} {l : List Found}, Live env (latest h) (.met m) →
      l.map (·.member) = ts.map (fun _ => memberOf s (Sym.stored (.met m))) →
      (l.filterMap fun f => (decls s)[f.member.decl]?).filterMap signatureOf =
        ts.map fun _ => withoutTexts (Show.methodSignature m) := by
    intro m ts l hm hl
    have hd : l.filterMap (fun f => (decls s)[f.member.decl]?) = (l.map (·.member)).filterMap fun x => (decls s)[x.decl]? := by
      rw [List.filterMap_map]; rfl
    rw [hd, hl]
    clear hd hl
    induction ts with
    | nil => rfl
    | cons y ts ih =>
      rw [List.map_cons, List.filterMap_cons_some (b := Sym.stored (.met m))
        (by rw [memberOf_decl (k := .methods) rfl]; exact get_num_live he hok hs hm (by simp)),
        List.filterMap_cons_some (signatureOf_stored (.met m)), ih]
      rfl
  refine ⟨N, fun n ni hn hni st hst a cur t m hts htr hm hb => ⟨fun hu => ?_, fun hu => ?_⟩⟩
  · obtain ⟨l, h1, h2⟩ := key .method (.inl rfl) n ni hn hni a cur t m htr hm hb (fun _ rel => inherited_of (k := .methods) rfl s hu rel)
      (fun h => absurd rfl h.2) a.types hts st hst
    rw [signaturesAfter, if_neg (by simp), h1, Option.map_some, fin hm.live h2]
  · obtain ⟨l, h1, h2⟩ := key .staticMethod (.inr rfl) n ni hn hni a cur t m htr hm hb (fun h => by rcases h with h | h <;> cases h)
      (fun _ rel => inheritedStatic_of (k := .methods) rfl s hu rel) a.types hts st hst
    rw [signaturesAfter, if_pos rfl, h1, Option.map_some, fin hm.live h2]

/-- C154: at the end of a chain of accesses (C151) whose declarations say that it is an object of the one class `t`, the
signatures that are shown for a call of a method are those of its declaration, and there is at least one, if neither the class
nor a class above it implements an interface. -/
theorem C154_chain_partial (he : EnvOK env) (hsl : env.LowerSlash) (hok : HistOK env h) (hs : run env root h = some s)
    (ho : OneEach env (latest h)) (hac : Acyclic env (latest h)) (hap : ClassesApart env (latest h))
    (last : Imports.Table) (st) (hst : ∀ u a c name, Resolving (worldOf env s) (st u a c name)) :
    ∀ name, ∃ N, ∀ n ni, N ≤ n → N ≤ ni → ∀ (here : Bytes) (e0 : Infer.Expr) (S0 : Bytes → Prop) (e : Infer.Expr) (t : Bytes) (m : Method)
      (after : St), Resolving (worldOf env s) after → Chain env (latest h) here e0 S0 e (· = t) →
      (∀ q, q ∈ (e0.typesIn (resolvedIn env s last n ni st)).map Types.Ty.fqn ↔ S0 q) →
      NoTrait env (latest h) t → SomeMethod env (latest h) t name m → NoInterfaces env (latest h) t →
      ByArrow here e.scopeName m.scope.fqn (.met m) →
      ∃ k, signaturesAfter env s n ni after false ⟨e.scopeName, (e.typesIn (resolvedIn env s last n ni st)).map Types.Ty.fqn⟩ name here =
        some (List.replicate (k + 1) (withoutTexts (Show.methodSignature m))) := by
  intro name
  obtain ⟨N, hN⟩ := C151_chain he hsl hok hs ho hac hap last st hst
  obtain ⟨M, hM⟩ := C154_method_partial he hsl hok hs ho hac hap name
  refine ⟨max N M, fun n ni hn hni here e0 S0 e t m after ha hc h0 htr hm hb hu => ?_⟩
  have hty := hN n ni (le_trans (le_max_left _ _) hn) (le_trans (le_max_left _ _) hni) here e0 S0 e _ hc h0
  have hr := (hM n ni (le_trans (le_max_right _ _) hn) (le_trans (le_max_right _ _) hni) after ha
    ⟨e.scopeName, (e.typesIn (resolvedIn env s last n ni st)).map Types.Ty.fqn⟩ here t m (fun y hy => (hty y).mp hy) htr hm hb).1 hu
  have hpos := List.length_pos_of_mem ((hty t).mpr rfl)
  refine ⟨((e.typesIn (resolvedIn env s last n ni st)).map Types.Ty.fqn).length - 1, ?_⟩
  rw [hr, List.map_const', Nat.sub_add_cancel hpos]

/-! ### Examples -/

/-- Non-vacuity of the theorems of C154: they have the conditions of those of C152 (see the example there); the signature of that
example. -/
example : ∃ s, run Store.Demo.env Store.Demo.root Demo.linkHist = some s ∧
      signaturesAfter Store.Demo.env s 9 9 (Demo.askedPlain s) false ⟨[], [b!"\\App\\B"]⟩ b!"m" [] =
      some [withoutTexts (Show.methodSignature Demo.linkMeth)] :=
  Store.Demo.observe _ _ (by decide +kernel)

/-- What is missing in C154_method_partial: inside the second parentheses of `$a->m()->m()` no signature is shown, in the situation
of `C152_false_chain_with_interfaces`. -/
theorem C154_false_chain_with_interfaces :
    HistOK Store.Demo.env Demo.bldHist ∧
    SomeMethod Store.Demo.env (latest Demo.bldHist) b!"\\App\\B" b!"m" Demo.bldMeth ∧
    ByArrow [] [] Demo.bldMeth.scope.fqn (.met Demo.bldMeth) ∧
    (∀ s, run Store.Demo.env Store.Demo.root Demo.bldHist = some s → Resolving (worldOf Store.Demo.env s) (Demo.askedBefore s)) ∧
    ∃ s, run Store.Demo.env Store.Demo.root Demo.bldHist = some s ∧
      (signaturesAfter Store.Demo.env s 9 9 St.new false ⟨[], [b!"\\App\\B"]⟩ b!"m" [],
       signaturesAfter Store.Demo.env s 9 9 (Demo.askedBefore s) false ⟨[], [b!"\\App\\B"]⟩ b!"m" []) =
      (some [withoutTexts (Show.methodSignature Demo.bldMeth)], some []) :=
  ⟨Demo.bldHist_ok, Demo.bld_method, .inl (by simp [Public, Protected, Private, Demo.bldMeth]),
    fun s hs => Demo.askedBefore_resolving Demo.bldHist_ok hs (Demo.bld_live (by simp [Demo.bldDoc])),
    Store.Demo.observe _ _ (by decide +kernel)⟩

end Verif.Whole
