import Verif.Whole.PropsTextInherited
import Verif.Query.Bare

/-! C150: the types of inherited methods of classes without interfaces, whatever was asked before. -/

namespace Verif.Whole

open Verif.Encoding Verif.Storage Verif.Store Verif.Query
open Verif.Analyser (Node PType TokType Tok)
open Verif.Decl (OnlyPhrase OnlyToken DocApplies)

variable {env : Env} {root : Bytes} {h : List HOp} {s : Store}

/-- Neither the class `c` nor one that it extends, directly or not, implements an interface that is declared in the files. -/
def NoInterfaces (env : Env) (L : Bytes → Option Doc) (c : Bytes) : Prop :=
  ∀ d e, Live env L (.cla d) → SameClassName env d.name.fqn c → Above env L d e →
    ∀ i, Live env L (.int i) → ∀ x ∈ e.interfaces, x.fqn ≠ i.name.fqn

theorem bare_of (he : EnvOK env) (hsl : env.LowerSlash) (hok : HistOK env h) (hs : run env root h = some s) {t : Bytes} {d : Class}
    (hb : NoInterfaces env (latest h) t) (hd : Live env (latest h) (.cla d)) (hdn : SameClassName env d.name.fqn t) :
    Bare (worldOf env s) (clsOf s d) := by
  intro x hx
  obtain ⟨e, hab, rfl⟩ := above_of he hsl hok hs hx
  rw [List.eq_nil_iff_forall_not_mem]
  intro i hi
  obtain ⟨h1, -, h3⟩ := (mem_implemented _ _ _).mp hi
  obtain ⟨j, hj, rfl⟩ := (mem_interfaces he hok hs _).mp h3
  obtain ⟨y, hy, hyn⟩ := List.mem_map.mp h1
  exact hb d e hd hdn hab j hj y hy hyn

theorem bare_method_found (he : EnvOK env) (hsl : env.LowerSlash) (hok : HistOK env h) (hs : run env root h = some s)
    (ho : OneEach env (latest h)) (u : MemberUse) (hu : u.kind = .methods) (cur : Bytes)
    (a : Query.Access) (n ni : Nat) (name t : Bytes) {p : Method} (hp : SomeMethod env (latest h) t name p)
    (hb : NoInterfaces env (latest h) t)
    (hin1 : (u = .prop ∨ u = .method) → ∀ rel, isInherited cur a rel (memberOf s (Sym.stored (.met p))) = true)
    (hin2 : (u ≠ .prop ∧ u ≠ .method) → ∀ rel, isInheritedStatic cur a rel (memberOf s (Sym.stored (.met p))) = true)
    (st : St) (hst : Resolving (worldOf env s) st) (fs : List Found)
    (hfs : callLoop (u.reduce cur a) (callLookups (worldOf env s) n ni name t) st = some fs)
    (ty : Types.Ty) (hty : Gives (.met p) ty) : ∃ v ∈ memberTypes s fs, ty ∈ v := by
  have hw := distinct he hsl hok hs ho
  obtain ⟨d, e, hd, hdn, hab, hown⟩ := hp.above
  have hc : clsOf s d ∈ (worldOf env s).classesNamed t :=
    (mem_classesNamed _ _ _).mpr ⟨(mem_classes he hok hs _).mpr ⟨d, hd, rfl⟩, (key_iff hsl _ _).mpr hdn⟩
  have hcl := ((mem_classesNamed _ _ _).mp hc).1
  obtain ⟨st', r, h1, h2, h3⟩ := callLoop_has (P := Resolving (worldOf env s)) _ _ (by
    intro l hl st r hP hr
    rcases List.mem_append.mp hl with hl | hl
    · obtain ⟨c, hc, rfl⟩ := List.mem_map.mp hl
      exact .methods hP ((mem_classesNamed _ _ _).mp hc).1 hr
    · obtain ⟨i, hi, rfl⟩ := List.mem_map.mp hl
      exact .interface hP (List.mem_filter.mp hi).1 hr) st hst fs hfs _ (List.mem_append_left _ (List.mem_map_of_mem hc))
  have hall := (getClassMethods_bare hw hcl (h1.bare_inv hw) h2).2 (bare_of he hsl hok hs hb hd hdn) _
    (ancestor_of he hsl hok hs hab)
  have hmem : ∀ scope, p.scope.fqn = scope → memberOf s (Sym.stored (.met p)) ∈ (worldOf env s).members .methods scope name :=
    fun scope hsc => (mem_methods he hok hs hp.named _).mpr ⟨p, hp.live, ⟨hsc, hp.name⟩, rfl⟩
  have hne : r.1.members ≠ [] := by
    rcases hown with hsc | ⟨-, tr, h5, ⟨x, hx, hxn⟩, h6, h7⟩
    · exact List.ne_nil_of_mem (hall _ (List.mem_append_left _ (List.mem_map_of_mem (hmem (clsOf s e).name hsc))))
    · exact List.ne_nil_of_mem (hall _ (List.mem_append_right _
        (List.mem_flatMap.mpr ⟨trtOf s tr, (mem_used _ _ _).mpr ⟨List.mem_map.mpr ⟨x, hx, hxn⟩, h6, (mem_traits he hok hs _).mpr ⟨tr, h5, rfl⟩⟩,
          List.mem_map_of_mem (hmem _ h7)⟩)))
  refine ⟨_, sole_found he hok hs u cur a hp.live (by rw [hu]; rfl) r.1 hne ?_ hin1 hin2 h3 rfl, hty⟩
  intro f hf
  obtain ⟨x, k1, k2, k3, k4, k5⟩ := fromCls_live he hsl hok hs (by decide) hc
    ((getClassMethods_ok _ hw n ni _ hcl name none st' (h1.reachable.cacheOk hw) r h2).2 f hf)
  cases x with
  | met q => rw [← k3, hp.only q k1 (.inl k4) (k5 hp.named)]
  | _ => cases k2

/-- C150: after any history, and whatever was asked before in the same request, a call of a method that a class inherits, gets
from a trait or declares has exactly the types that the `@return` tags of the doc comment of the declaration name, if neither
the class nor a class above it implements an interface. So it is after `->` and after `::`. -/
theorem C150_method_no_interfaces (he : EnvOK env) (hsl : env.LowerSlash) (hok : HistOK env h) (hs : run env root h = some s)
    (ho : OneEach env (latest h)) (hac : Acyclic env (latest h)) (last : Imports.Table) (st)
    (hst : ∀ u a c name, Resolving (worldOf env s) (st u a c name))
    (m : Method) (denv : Decl.Env) (ks head : List Node) (doc : Option Node)
    (hh : OnlyPhrase .methodDeclarationHeader ks (.phr .methodDeclarationHeader head))
    (hdoc : DocApplies denv (.phr .methodDeclaration ks) doc)
    (hrec : SameTypes m.returnTypes (Decl.newMethod denv (.phr .methodDeclaration ks)).returns) :
    ∃ N, ∀ n ni, N ≤ n → N ≤ ni → ∀ (a : Infer.Access) (c name q : Bytes), SomeMethod env (latest h) c name m →
      NoInterfaces env (latest h) c →
      (MayUse a m.scope.fqn (.met m) →
        (NameFound ((resolvedIn env s last n ni st).methods a c name) q ↔ ReturnDocumented denv doc q)) ∧
      (ByScope a.here a.scopeName m.scope.fqn (.met m) →
        (NameFound ((resolvedIn env s last n ni st).staticMethods a c name) q ↔ ReturnDocumented denv doc q)) := by
  obtain ⟨o, hd⟩ := declared_exists he hok hs last
  obtain ⟨N, hN⟩ := searches_end he hsl hok hs hac
  refine ⟨N, fun n ni hn hni a c name q hp hb => ?_⟩
  obtain ⟨-, pend⟩ := hN n ni hn hni
  have hcov := covers_of he hsl hok hs ho last n ni st (fun _ _ _ _ => (hst _ _ _ _).reachable) o hd
  have ret : q ∈ (m.returnTypes.map Show.ofType).map Types.Ty.fqn ↔ ReturnDocumented denv doc q := by
    rw [hrec]
    exact method_returns denv ks head doc hh hdoc q
  refine ⟨fun hu => Iff.trans ⟨?_, fun hq => ?_⟩ ret, fun hu => Iff.trans ⟨?_, fun hq => ?_⟩ ret⟩
  · rintro ⟨u, hu, hq⟩
    obtain ⟨t, ht, rfl⟩ := List.mem_map.mp hq
    obtain ⟨p', k1, k2, k3, k4⟩ := (hd.methods _ _ _ _ _).mp (hcov.methods a c name u hu t ht)
    rw [hp.only p' k1 k2 (k3 hp.named)] at k4
    exact List.mem_map_of_mem k4
  · obtain ⟨t, ht, rfl⟩ := List.mem_map.mp hq
    obtain ⟨fs, hfs⟩ := pend (MemberUse.reduce .method a.here (accessOf a)) name c (st .method a c name)
    obtain ⟨v, hv, hvt⟩ := bare_method_found he hsl hok hs ho .method rfl a.here (accessOf a) n ni name c hp hb
      (fun _ rel => by
        rcases hu with ⟨x, xs, e1, e2⟩ | hu
        · exact inherited_object ⟨xs.map (·.fqn), by simp [accessOf, e1, e2]⟩ rel _
        · exact inherited_of (k := .methods) rfl s hu rel)
      (fun h => absurd rfl h.2) _ (hst _ _ _ _) fs hfs t ht
    exact ⟨v, by simp only [resolvedIn, hfs, Option.getD_some]; exact hv, List.mem_map_of_mem hvt⟩
  · rintro ⟨u, hu, hq⟩
    obtain ⟨t, ht, rfl⟩ := List.mem_map.mp hq
    obtain ⟨p', k1, k2, k3, -, k4⟩ := (hd.staticMethods _ _ _ _ _).mp (hcov.staticMethods a c name u hu t ht)
    rw [hp.only p' k1 k2 (k3 hp.named)] at k4
    exact List.mem_map_of_mem k4
  · obtain ⟨t, ht, rfl⟩ := List.mem_map.mp hq
    obtain ⟨fs, hfs⟩ := pend (MemberUse.reduce .staticMethod a.here (accessOf a)) name c (st .staticMethod a c name)
    obtain ⟨v, hv, hvt⟩ := bare_method_found he hsl hok hs ho .staticMethod rfl a.here (accessOf a) n ni name c hp hb
      (fun h => by rcases h with h | h <;> cases h)
      (fun _ rel => inheritedStatic_of (k := .methods) rfl s hu rel) _ (hst _ _ _ _) fs hfs t ht
    exact ⟨v, by simp only [resolvedIn, hfs, Option.getD_some]; exact hv, List.mem_map_of_mem hvt⟩

/-! ### An example -/

namespace Demo

open Store.Demo (uA uB)

/-- `class A` and `class B extends A` in the namespace `App`, without interfaces -/
def plainA : Class := ⟨Store.Demo.loc uB 1, Store.Demo.loc uB 1, 0, [], Store.Demo.ty b!"App\\A", ⟨[], [], 0⟩, [], [], none⟩
def plainB : Class := ⟨Store.Demo.loc uB 5, Store.Demo.loc uB 5, 0, [], Store.Demo.ty b!"App\\B", Store.Demo.ty b!"App\\A",
  [], [], none⟩

def plainDoc : Doc where
  uri := uB
  hash := b!"9"
  symbols := [.cla plainA, .met saidMeth, .cla plainB]
  namespaces := []
  refs := []

def plainHist : List HOp := [.upgrade b!"v0.0.16", .index Store.Demo.a1, .restart, .index plainDoc, .delete uA]

theorem plainDoc_ok : DocOK Store.Demo.env plainDoc where
  uri := Store.Demo.uB_ok
  len := by decide
  syms := by
    have : ∀ x ∈ plainDoc.symbols, x.WF := by
      simp [plainDoc, plainA, plainB, saidMeth, Sym.WF, Class.WF, Method.WF, Location.WF,
        Store.Demo.loc, uB, Str, Store.Demo.ty, TypeString.WF, Types.WF, ListWF, DeprecatedWF]
    intro x hx
    exact Store.Demo.sym_ok (this x hx) ((by decide +kernel : ∀ x ∈ plainDoc.symbols, ∀ n ∈ x.names, sep ∉ n) x hx)
      ((by decide +kernel : ∀ x ∈ plainDoc.symbols, x.location.uri = uB) x hx)
      ((by decide +kernel : ∀ x ∈ plainDoc.symbols, (x.key Store.Demo.env).length < 1000) x hx)
  refsLen := by decide
  refs := by simp [plainDoc]

theorem plainHist_ok : HistOK Store.Demo.env plainHist where
  docs := by
    rw [show docs plainHist = [Store.Demo.a1, plainDoc] from rfl]
    simp [Store.Demo.a1_ok, plainDoc_ok]
  consts := by
    intro d1 h1 d2 h2 c1 c2 m1 m2 _ _
    rw [show docs plainHist = [Store.Demo.a1, plainDoc] from rfl] at h1 h2
    simp only [List.mem_cons, List.not_mem_nil, or_false] at h1 h2
    rcases h1 with rfl | rfl <;> rcases h2 with rfl | rfl <;>
      first
        | rfl
        | (simp [Store.Demo.a1, plainDoc, Store.Demo.cla, Store.Demo.met, Store.Demo.pro, Store.Demo.fn, Store.Demo.glo,
            Store.Demo.claCon] at m1 m2)
  crashes := by simp [Store.Keeps, plainHist]

theorem plain_mem {x : Sym} (hx : Live Store.Demo.env (latest plainHist) x) : x ∈ plainDoc.symbols := by
  obtain ⟨u, d, pre, post, hu, hd, -⟩ := hx
  have : d = plainDoc := by
    simp only [latest, plainHist, List.foldl_cons, List.foldl_nil, latestStep] at hu
    split at hu
    · cases hu
    · split at hu
      · exact (Option.some.inj hu).symm
      · rename_i h1 h2
        rw [if_neg (show ¬ u = Store.Demo.a1.uri from h1)] at hu
        cases hu
  subst this
  rw [hd]; simp

theorem plain_live {x : Sym} (hx : x ∈ plainDoc.symbols) : Live Store.Demo.env (latest plainHist) x := by
  have e : latest plainHist uB = some plainDoc := by decide +kernel
  have no : ∀ y ∈ plainDoc.symbols, y.Indexed := by
    simp [plainDoc, Sym.Indexed]
  simp only [plainDoc, List.mem_cons, List.not_mem_nil, or_false] at hx
  rcases hx with rfl | rfl | rfl
  · exact ⟨uB, plainDoc, [], _, e, rfl, no _ (by simp [plainDoc]), by
      simp only [List.mem_cons, List.not_mem_nil, or_false, forall_eq_or_imp, forall_eq]
      refine ⟨by simp [SameDecl, Sym.kind], ?_⟩
      rintro ⟨-, -, hp, -⟩
      exact absurd hp (by decide +kernel)⟩
  · exact ⟨uB, plainDoc, [_], _, e, rfl, no _ (by simp [plainDoc]), by simp [SameDecl, Sym.kind]⟩
  · exact ⟨uB, plainDoc, [_, _], _, e, rfl, no _ (by simp [plainDoc]), by simp⟩

theorem plain_cla {c : Class} (hc : Live Store.Demo.env (latest plainHist) (.cla c)) : c = plainA ∨ c = plainB := by
  simpa [plainDoc] using plain_mem hc

theorem plain_each : OneEach Store.Demo.env (latest plainHist) where
  classes c d hc hd hn := by
    rcases plain_cla hc with rfl | rfl <;> rcases plain_cla hd with rfl | rfl
    · rfl
    · exact absurd hn (inh_ne (by decide +kernel))
    · exact absurd hn (inh_ne (by decide +kernel))
    · rfl
  interfaces c d hc hd _ := by
    have := plain_mem hc
    simp [plainDoc] at this

theorem plain_acyclic : Acyclic Store.Demo.env (latest plainHist) := by
  have h0 : ∀ d, ¬ Extends Store.Demo.env (latest plainHist) plainA d := fun d hd => absurd rfl hd.1
  intro c hc h
  rcases plain_cla hc with rfl | rfl
  · rcases Relation.TransGen.head'_iff.mp h with ⟨d, hd, -⟩
    exact h0 d hd
  · rcases Relation.TransGen.head'_iff.mp h with ⟨d, hd, hdb⟩
    rcases plain_cla hd.2.1 with rfl | rfl
    · rcases Relation.ReflTransGen.cases_head hdb with e | ⟨x, hx, -⟩
      · exact absurd (congrArg (·.location.range) e) (by decide +kernel)
      · exact h0 x hx
    · exact inh_ne (by decide +kernel) hd.2.2

/-- The state of a request in which the method `m` of an `A` was asked for. -/
def askedPlain (s : Store) : St :=
  ((getClassMethods (worldOf Store.Demo.env s) 9 9 (clsOf s plainA) b!"m" none St.new).map (·.2)).getD St.new

end Demo

/-- Non-vacuity of C150_method_no_interfaces: the example of `C150_false_second_question` without the interface. Here `$b->m()`
has its type although `$a->m()` was asked for before (the conditions about the text are those of the example of C149). -/
example : HistOK Store.Demo.env Demo.plainHist ∧ OneEach Store.Demo.env (latest Demo.plainHist) ∧
    Acyclic Store.Demo.env (latest Demo.plainHist) ∧
    SomeMethod Store.Demo.env (latest Demo.plainHist) b!"\\App\\B" b!"m" Demo.saidMeth ∧
    NoInterfaces Store.Demo.env (latest Demo.plainHist) b!"\\App\\B" ∧
    MayUse ⟨[], b!"$b", []⟩ Demo.saidMeth.scope.fqn (.met Demo.saidMeth) ∧
    ∃ s, run Store.Demo.env Store.Demo.root Demo.plainHist = some s ∧
      (resolvedIn Store.Demo.env s Decl.senv0.table 9 9 fun _ _ _ _ => Demo.askedPlain s).methods ⟨[], b!"$b", []⟩
         b!"\\App\\B" b!"m" = [[⟨b!"\\App\\Baz", b!"Baz", 0⟩]] := by
  refine ⟨Demo.plainHist_ok, Demo.plain_each, Demo.plain_acyclic, ⟨by decide, Demo.plain_live (by simp [Demo.plainDoc]), rfl,
    ⟨Demo.plainB, Demo.plainA, Demo.plain_live (by simp [Demo.plainDoc]), (classFQNLower_eq_iff Store.Demo.lower_slash _ _).mp rfl,
      .parent .self (by decide) (Demo.plain_live (by simp [Demo.plainDoc])) ((classFQNLower_eq_iff Store.Demo.lower_slash _ _).mp rfl),
      .inl rfl⟩, fun q hq _ _ => by simpa [Demo.plainDoc] using Demo.plain_mem hq⟩, ?_,
    .inr (.inl (by simp [Public, Protected, Private, Demo.saidMeth])), Store.Demo.observe _ _ (by decide +kernel)⟩
  intro d e _ _ _ i hi
  have := Demo.plain_mem hi
  simp [Demo.plainDoc] at this

end Verif.Whole
