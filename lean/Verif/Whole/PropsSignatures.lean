import Verif.Whole.Signatures
import Verif.Whole.PropsShow
import Verif.Query.PropsHover
import Verif.Show.PropsSignature

/-! C130: signature help after any history of the index. -/

namespace Verif.Whole

open Verif.Encoding Verif.Storage Verif.Store Verif.Query

variable {env : Env} {root : Bytes} {h : List HOp} {s : Store}

/-- A signature without the descriptions of the parameters (`@param … text`): those are not stored (C02, C118). -/
def withoutTexts (sig : Show.Signature) : Show.Signature :=
  { sig with parameters := sig.parameters.map fun p => (p.1, []) }

theorem explains_withoutTexts (sig : Show.Signature) (name : Bytes) (params : List Bytes) (desc : Bytes) :
    Show.Explains (withoutTexts sig) name params desc ↔ Show.Explains sig name params desc := by
  unfold Show.Explains withoutTexts
  simp only [List.map_map]
  exact Iff.rfl

/-- What is shown of a stored declaration. -/
theorem signatureOf_stored (x : Sym) : signatureOf x.stored = (signatureOf x).map withoutTexts := by
  cases x with
  | fn c =>
    simp only [Sym.stored, signatureOf, Show.functionSignature, Show.signature, withoutTexts, List.map_map, Option.map_some]
    rfl
  | met c =>
    simp only [Sym.stored, signatureOf, Show.methodSignature, Show.signature, withoutTexts, List.map_map, Option.map_some]
    rfl
  | _ => rfl

open Classical in
/-- C130: inside the parentheses of a function call, signature help shows the signatures of exactly the functions of the
current versions of the files that have the name to which the call resolves, each once. The
descriptions of the parameters are left out, since they are not stored. -/
theorem C130_functions (he : EnvOK env) (hok : HistOK env h) (hs : run env root h = some s)
    (last : Imports.Table) (n ni : Nat) (t : Types.Ty) :
    ∃ fs : List Function, signatureHelpIn env s last n ni (.function t) = some (fs.map fun f => withoutTexts (Show.functionSignature f)) ∧
      fs.Nodup ∧ ∀ f, f ∈ fs ↔ Live env (latest h) (.fn f) ∧
        f.name.fqn = last.getFunctionReferenceFQN (fun q => decide (FunctionExists env (latest h) q)) t := by
  obtain ⟨xs, -, h2, h3, h4⟩ := scan_all kFn he hok hs
  generalize hq : last.getFunctionReferenceFQN (fun q => decide (FunctionExists env (latest h) q)) t = q
  have hmem : ∀ f, f ∈ (xs.filter fun a => hasPrefix (q ++ [sep]) ((kFn.con a).key env)) ↔
      Live env (latest h) (.fn f) ∧ f.name.fqn = q := by
    intro f
    rw [List.mem_filter, h3, hasPrefix_iff]
    exact and_congr_right fun hf => fqn_key he hok hf (by simp [kFn, Sym.names]) q
  refine ⟨_, ?_, h2.filter _, hmem⟩
  have e : s.getFunctions q = some _ := h4 (q ++ [sep])
  simp only [signatureHelpIn, describedIn, signatures, functions_exist he hok hs, hq, Option.map_some]
  have gen : ∀ l : List Function, (∀ f ∈ l, Live env (latest h) (.fn f)) →
      (((l.map kFn.st).map fun c => num s (.fn c)).filterMap fun d => (decls s)[d]?).filterMap signatureOf =
        l.map fun f => withoutTexts (Show.functionSignature f) := by
    intro l hl
    induction l with
    | nil => rfl
    | cons f l ih =>
      have hg := get_num_live he hok hs (hl f List.mem_cons_self) (by simp)
      have hsig := signatureOf_stored (.fn f)
      rw [show (Sym.fn f).stored = .fn (kFn.st f) from rfl] at hg hsig
      rw [List.map_cons, List.map_cons, List.filterMap_cons_some hg, List.filterMap_cons_some hsig, List.map_cons,
        ih fun x hx => hl x (List.mem_cons_of_mem _ hx)]
  rw [← gen _ fun f hf => ((hmem f).mp hf).1]
  simp only [siteOf, e, Option.getD_some]

/-- A function no other function of the current files is called like: what is shown is its signature alone. -/
theorem function_signature (he : EnvOK env) (hok : HistOK env h) (hs : run env root h = some s)
    (last : Imports.Table) (n ni : Nat) (t : Types.Ty) (f : Function)
    (hlive : Live env (latest h) (.fn f))
    (honly : ∀ g, Live env (latest h) (.fn g) → g.name.fqn = f.name.fqn → g = f)
    (ht : last.getFunctionReferenceFQN (fun q => @decide (FunctionExists env (latest h) q) (Classical.propDecidable _)) t =
      f.name.fqn) :
    signatureHelpIn env s last n ni (.function t) = some [withoutTexts (Show.functionSignature f)] := by
  obtain ⟨fs, hfs, hnd, hmem⟩ := C130_functions he hok hs last n ni t
  have : fs = [f] := by
    have h5 : ∀ g ∈ fs, g = f := fun g hg => honly g ((hmem g).mp hg).1 (((hmem g).mp hg).2.trans ht)
    have h6 := (hmem _).mpr ⟨hlive, ht.symm⟩
    rw [List.eq_replicate_iff.mpr ⟨rfl, h5⟩] at hnd h6 ⊢
    have h7 := List.nodup_replicate.mp hnd
    cases hl : fs.length with
    | zero => rw [hl] at h6; cases h6
    | succ k =>
      have : k = 0 := by omega
      subst this
      rfl
  rw [hfs, this]
  rfl

/-- C130: from the text of a file to the text on the screen. The current version of a file declares a function, which no
other function of the current files is called like. Inside a call that resolves to it, signature help shows one signature:
`name(parameters)` with the declared name and every declared parameter in order, with its types, name and default value; it
lists exactly these parameters and has the description of the doc comment; whatever the history of the index. -/
theorem C130_function_shown (he : EnvOK env) (hok : HistOK env h) (hs : run env root h = some s)
    (uri : Bytes) (d : Doc) (hcur : latest h uri = some d) (denv : Decl.Env)
    (ks ps es : List Analyser.Node) (name : Analyser.Tok) (doc : Option Analyser.Node)
    (hh : Decl.OnlyPhrase .functionDeclarationHeader ks (.phr .functionDeclarationHeader ps))
    (hn : Decl.OnlyToken .name ps name) (hi : Decl.NoPhrase .identifier ps)
    (hord : Decl.Ordinary (denv.ctx.tokText name)) (hp : Show.Parameters ps es)
    (hd : Decl.DocApplies denv (.phr .functionDeclaration ks) doc)
    (hv : ∀ e ∈ es, ∀ type var v, Decl.ParamWritten e type var (some v) → Decl.textOf denv.ctx v ≠ [])
    (hf : Show.LevelsFit (Decl.newFunction denv (.phr .functionDeclaration ks))) (pre post : List Sym)
    (hin : d.symbols = pre ++ .fn (Show.toFunction uri denv (.phr .functionDeclaration ks)) :: post)
    (hlast : ∀ y ∈ post, ¬ SameDecl env (.fn (Show.toFunction uri denv (.phr .functionDeclaration ks))) y)
    (honly : ∀ g, Live env (latest h) (.fn g) →
      g.name.fqn = (Show.toFunction uri denv (.phr .functionDeclaration ks)).name.fqn →
      g = Show.toFunction uri denv (.phr .functionDeclaration ks))
    (last : Imports.Table) (n ni : Nat) (t : Types.Ty)
    (ht : last.getFunctionReferenceFQN (fun q => @decide (FunctionExists env (latest h) q) (Classical.propDecidable _)) t =
      (Show.toFunction uri denv (.phr .functionDeclaration ks)).name.fqn) :
    ∃ sig params desc, signatureHelpIn env s last n ni (.function t) = some [sig] ∧
      List.Forall₂ (Show.ParamReads denv doc) es params ∧ Show.DescriptionIs denv doc desc ∧
      Show.Explains sig (denv.ctx.tokText name) params desc := by
  have hlive : Live env (latest h) (.fn (Show.toFunction uri denv (.phr .functionDeclaration ks))) :=
    ⟨uri, d, pre, post, hcur, hin, trivial, fun y hy hc => hlast y hy hc.2⟩
  obtain ⟨u, -, hsok⟩ := live_ok he hok hlive
  obtain ⟨f, params, desc, hr, h1, h3, h4⟩ := Show.C118_function uri denv ks ps es name doc [] hh hn hi hord hp
    hd hv hf hsok.wf
  have hfs := function_signature he hok hs last n ni t _ hlive honly ht
  refine ⟨_, params, desc, hfs, h1, h3, ?_⟩
  rw [C02_function_round_trip_partial _ hsok.wf] at hr
  injection hr with hr
  injection hr with hr _
  rw [← hr] at h4
  have h5 := signatureOf_stored (.fn (Show.toFunction uri denv (.phr .functionDeclaration ks)))
  simp only [signatureOf, Sym.stored, Option.map_some] at h5
  injection h5 with h5
  exact h5 ▸ h4

/-- C130: for an object of the class `c`, signature help inside the parentheses of a method call describes exactly the
method of the nearest class: if neither `c` nor the classes between it and `k`, nor their traits, have a method of this
name, and `k` declares a public one, its signature is shown and no other. The methods of this name are written alike in all
files. -/
theorem C130_methods (he : EnvOK env) (hsl : env.LowerSlash) (hok : HistOK env h) (hs : run env root h = some s)
    (ho : OneEach env (latest h)) (hap : ∀ d, Live env (latest h) (.cla d) → ∀ i, Live env (latest h) (.int i) →
      ¬ SameClassName env d.name.fqn i.name.fqn)
    (c : Class) (hc : Live env (latest h) (.cla c)) (hal : Unmistakable env (latest h) c)
    (ds : List Class) (k : Class) (hk : (c :: ds).getLast? = some k) (hch : (c :: ds).IsChain (Extends env (latest h)))
    (hnd : (c :: ds).Nodup) (name : Bytes) (hn : name ≠ []) (hla : ∀ d ∈ (c :: ds).dropLast, Lacks env (latest h) name d)
    (m : Method) (hm : Live env (latest h) (.met m)) (hmk : m.scope.fqn = k.name.fqn) (hmn : m.name = name)
    (hpub : m.visibility = 0)
    (hone : ∀ x, Live env (latest h) (.met x) → x.scope.fqn = k.name.fqn → env.lower x.name = env.lower name → x = m)
    (hx : ∀ x, Live env (latest h) (.met x) → env.lower x.name = env.lower name → x.name = name)
    (t : Bytes) (ht : SameClassName env c.name.fqn t) (a : Access) (ha : a.types = [t]) (cur : Bytes)
    (last : Imports.Table) :
    ∃ N, ∀ n ni, N ≤ n → N ≤ ni →
      signatureHelpIn env s last n ni (.member .method a name cur) = some [withoutTexts (Show.methodSignature m)] := by
  have hw := distinct he hsl hok hs ho
  have hcw : clsOf s c ∈ (worldOf env s).classes := (mem_classes he hok hs _).mpr ⟨c, hc, rfl⟩
  obtain ⟨N, hN⟩ := method_found he hsl hok hs ho hap c hc hal ds k hk hch hnd name hn hla m hm hmk hmn hpub hone hx t ht a
    ha cur last id
  refine ⟨N, fun n ni h1 h2 => ?_⟩
  have hsig := C89_methods_partial (siteOf env s) hw last last id n ni (clsOf s c) hcw (alone_of he hsl hok hs hal) t
    ((key_iff hsl _ _).mpr ht) .method (.inl rfl) a ha name cur (named_of he hok hs hn hx)
  have hloc : hover (siteOf env s) last id n ni (.member .method a name cur) = some [num s (Sym.met m).stored] :=
    hN n ni h1 h2
  rw [signatureHelpIn, describedIn, hsig, hloc, Option.map_some, Option.map_some,
    List.filterMap_cons_some (get_num_live he hok hs hm (by simp)),
    List.filterMap_cons_some (signatureOf_stored (.met m))]
  rfl

/-- C130: signature help inside `new C(…)` describes exactly the constructor of the nearest class: if neither `C` nor the
classes between it and `k`, nor their traits, declare a constructor, and `k` declares a public one, its signature is shown
and no other. -/
theorem C130_new (he : EnvOK env) (hsl : env.LowerSlash) (hok : HistOK env h) (hs : run env root h = some s)
    (ho : OneEach env (latest h)) (hap : ∀ d, Live env (latest h) (.cla d) → ∀ i, Live env (latest h) (.int i) →
      ¬ SameClassName env d.name.fqn i.name.fqn)
    (c : Class) (hc : Live env (latest h) (.cla c))
    (ds : List Class) (k : Class) (hk : (c :: ds).getLast? = some k) (hch : (c :: ds).IsChain (Extends env (latest h)))
    (hnd : (c :: ds).Nodup) (hla : ∀ d ∈ (c :: ds).dropLast, Lacks env (latest h) b!"__construct" d)
    (m : Method) (hm : Live env (latest h) (.met m)) (hmk : m.scope.fqn = k.name.fqn) (hmn : m.name = b!"__construct")
    (hpub : m.visibility = 0)
    (hone : ∀ x, Live env (latest h) (.met x) → x.scope.fqn = k.name.fqn →
      env.lower x.name = env.lower b!"__construct" → x = m)
    (t : Types.Ty) (ht : SameClassName env c.name.fqn t.fqn) (last : Imports.Table) :
    ∃ N, ∀ n ni, N ≤ n → N ≤ ni →
      signatureHelpIn env s last n ni (.new_ [t]) = some [withoutTexts (Show.methodSignature m)] := by
  have hw := distinct he hsl hok hs ho
  have hcw : clsOf s c ∈ (worldOf env s).classes := (mem_classes he hok hs _).mpr ⟨c, hc, rfl⟩
  have hkey : (worldOf env s).key (clsOf s c).name = (worldOf env s).key t.fqn := (key_iff hsl _ _).mpr ht
  obtain ⟨N, hN⟩ := nearest_first he hsl hok hs ho hap c hc ds k hk hch hnd b!"__construct" (by decide) hla m hm hmk hmn hone
  refine ⟨N, fun n ni h1 h2 => ?_⟩
  obtain ⟨q, f0, fs, hcl, -, hmem, hf0⟩ := hN n ni h1 h2
  have hcl' : getClassMethods (worldOf env s) n ni (clsOf s c) b!"__construct" none St.new = some q := hcl
  have hred : q.1.reduceFirst = some f0 := by
    have : f0.member.vis = .pub := by
      rw [hf0]
      show visOf m.visibility = _
      rw [hpub]; decide
    unfold Inherited.reduceFirst
    rw [hmem, List.find?_cons_of_pos (by simpa using this)]
  have hdecl : f0.member.decl = num s (Sym.met m).stored := by rw [hf0]; rfl
  have hsig : signatures (siteOf env s) last n ni (.new_ [t]) = some [num s (Sym.met m).stored] := by
    simp only [signatures, List.flatMap_cons, List.flatMap_nil, List.append_nil,
      show (siteOf env s).world = worldOf env s from rfl, named_single hw hcw hkey, constructors, hcl', Option.map_some,
      hred, Option.toList_some, List.map_cons, List.map_nil, hdecl]
  rw [signatureHelpIn, describedIn, hsig, Option.map_some, Option.map_some,
    List.filterMap_cons_some (get_num_live he hok hs hm (by simp)),
    List.filterMap_cons_some (signatureOf_stored (.met m))]
  rfl

/-- C130: what is shown for a method or a constructor, from the text of the file that declares it: `modifiers
name(parameters)` with the declared modifiers, name and every declared parameter in order, with its types, name and default
value; exactly these parameters are listed, and the description is that of the doc comment. `m` is the method that the file
declares, as it is indexed (C79, C80). -/
theorem C130_method_signature (uri : Bytes) (scope : Types.Ty) (range : Rng) (denv : Decl.Env)
    (ks ps es mods : List Analyser.Node) (name : Analyser.Node) (doc : Option Analyser.Node)
    (hh : Decl.OnlyPhrase .methodDeclarationHeader ks (.phr .methodDeclarationHeader ps))
    (hn : Decl.OnlyPhrase .identifier ps name) (hi : ∀ k ∈ ps, ¬ Decl.IsToken .name k)
    (hmod : Decl.MethodModifiers ps mods) (hov : Decl.OneVisibility mods) (hp : Show.Parameters ps es)
    (hd : Decl.DocApplies denv (.phr .methodDeclaration ks) doc)
    (hv : ∀ e ∈ es, ∀ type var v, Decl.ParamWritten e type var (some v) → Decl.textOf denv.ctx v ≠ [])
    (hf : Show.LevelsFit (Decl.newMethod denv (.phr .methodDeclaration ks)))
    (he : EnvOK env) (hok : HistOK env h)
    (hm : Live env (latest h) (.met (Show.toMethod uri scope range (Decl.newMethod denv (.phr .methodDeclaration ks))))) :
    ∃ mod params desc, Show.ModifiersShown mods mod ∧ List.Forall₂ (Show.ParamReads denv doc) es params ∧
      Show.DescriptionIs denv doc desc ∧
      Show.Explains (withoutTexts (Show.methodSignature
          (Show.toMethod uri scope range (Decl.newMethod denv (.phr .methodDeclaration ks)))))
        (mod ++ b!" " ++ denv.ctx.nodeText name) params desc := by
  obtain ⟨u, -, hsok⟩ := live_ok he hok hm
  obtain ⟨f, mod, params, desc, hr, h1, h2, h3, h4⟩ := Show.C118_method uri scope range denv ks ps es mods name doc [] hh hn
    hi hmod hov hp hd hv hf hsok.wf
  refine ⟨mod, params, desc, h1, h2, h3, ?_⟩
  rw [C02_method_round_trip_partial _ hsok.wf] at hr
  injection hr with hr
  injection hr with hr _
  rw [← hr] at h4
  have h5 := signatureOf_stored (.met (Show.toMethod uri scope range (Decl.newMethod denv (.phr .methodDeclaration ks))))
  simp only [signatureOf, Sym.stored, Option.map_some] at h5
  injection h5 with h5
  exact h5 ▸ h4

/-! ### examples -/

namespace Demo

open Verif.Store.Demo (uA uB a1 a2 b1)

/-- `public function __construct(int $a = 1)` of `Base`, with a text for `$a`. -/
def ctor : Method :=
  ⟨Store.Demo.loc uB 3, Store.Demo.loc uB 3, b!"__construct",
    [⟨Store.Demo.loc uB 3, Store.Demo.loc uB 3, b!"text", true, b!"$a", [⟨b!"int", b!"int", 0⟩], b!"1"⟩], [], b!"Makes.",
    Store.Demo.ty b!"Base", 0, false, 0, none⟩

/-- third version of `b.php`: the class has got a constructor -/
def b3 : Doc where
  uri := uB
  hash := b!"5"
  symbols := [.cla base, .met go, .met ctor]
  namespaces := []
  refs := []

def ctorHist : List HOp := [.upgrade b!"v0.0.16", .index a1, .index b2, .index a2, .restart, .index b3]

theorem b3_ok : DocOK Store.Demo.env b3 where
  uri := Store.Demo.uB_ok
  len := by decide
  syms := by
    have : ∀ x ∈ b3.symbols, x.WF := by
      simp [b3, base, go, ctor, Sym.WF, Class.WF, Method.WF, Parameter.WF,
        Location.WF, Store.Demo.loc, uB, Str, Store.Demo.ty, TypeString.WF, Types.WF, ListWF, DeprecatedWF]
    intro x hx
    exact Store.Demo.sym_ok (this x hx) ((by decide +kernel : ∀ x ∈ b3.symbols, ∀ n ∈ x.names, sep ∉ n) x hx)
      ((by decide +kernel : ∀ x ∈ b3.symbols, x.location.uri = uB) x hx)
      ((by decide +kernel : ∀ x ∈ b3.symbols, (x.key Store.Demo.env).length < 1000) x hx)
  refsLen := by decide
  refs := by simp [b3]

theorem ctorHist_ok : HistOK Store.Demo.env ctorHist where
  docs := by
    rw [show docs ctorHist = [a1, b2, a2, b3] from rfl]
    simp [Store.Demo.a1_ok, Store.Demo.a2_ok, b2_ok, b3_ok]
  consts := by
    intro d1 h1 d2 h2 c1 c2 m1 m2 _ _
    rw [show docs ctorHist = [a1, b2, a2, b3] from rfl] at h1 h2
    simp only [List.mem_cons, List.not_mem_nil, or_false] at h1 h2
    rcases h1 with rfl | rfl | rfl | rfl <;> rcases h2 with rfl | rfl | rfl | rfl <;>
      first
        | rfl
        | (simp [a1, a2, b2, b3, Store.Demo.cla, Store.Demo.met, Store.Demo.pro, Store.Demo.fn, Store.Demo.glo,
            Store.Demo.claCon] at m1 m2)
  crashes := by simp [Store.Keeps, ctorHist]

theorem ctor_mem {x : Sym} (hx : Live Store.Demo.env (latest ctorHist) x) : x ∈ a2.symbols ++ b3.symbols := by
  obtain ⟨u, d, pre, post, hu, hd, -⟩ := hx
  have : d = a2 ∨ d = b3 := by
    simp only [latest, ctorHist, List.foldl_cons, List.foldl_nil, latestStep] at hu
    split at hu
    · exact .inr (Option.some.inj hu).symm
    · split at hu
      · exact .inl (Option.some.inj hu).symm
      · rename_i h1 h2
        rw [if_neg (show ¬ u = b2.uri from h1), if_neg (show ¬ u = a1.uri from h2)] at hu
        cases hu
  rw [List.mem_append]
  rcases this with rfl | rfl
  · left; rw [hd]; simp
  · right; rw [hd]; simp

theorem ctor_cla {c : Class} (hc : Live Store.Demo.env (latest ctorHist) (.cla c)) : c = foo ∨ c = base := by
  have := ctor_mem hc
  simpa [a2, b3, Store.Demo.cla, Store.Demo.met, Store.Demo.pro, foo] using this

theorem ctor_int {c : Interface} (hc : Live Store.Demo.env (latest ctorHist) (.int c)) : False := by
  have := ctor_mem hc
  simp [a2, b3, Store.Demo.cla, Store.Demo.met, Store.Demo.pro] at this

theorem ctor_tra {c : Trait} (hc : Live Store.Demo.env (latest ctorHist) (.tra c)) : False := by
  have := ctor_mem hc
  simp [a2, b3, Store.Demo.cla, Store.Demo.met, Store.Demo.pro] at this

theorem ctor_met {m : Method} (hm : Live Store.Demo.env (latest ctorHist) (.met m)) :
    m.name = b!"setBar" ∨ m = go ∨ m = ctor := by
  have := ctor_mem hm
  have : Sym.met m = Store.Demo.met uA b!"N\\Foo" b!"setBar" ∨ m = go ∨ m = ctor := by
    simpa [a2, b3, Store.Demo.cla, Store.Demo.met, Store.Demo.pro] using this
  rcases this with h | h
  · left
    injection h with h
    rw [h]
  · exact .inr h

theorem ctor_foo : Live Store.Demo.env (latest ctorHist) (.cla foo) :=
  ⟨uA, a2, [], _, rfl, rfl, trivial, by simp [Store.Demo.met, Store.Demo.pro, SameDecl, Sym.kind]⟩

theorem ctor_base : Live Store.Demo.env (latest ctorHist) (.cla base) :=
  ⟨uB, b3, [], [.met go, .met ctor], rfl, rfl, trivial, by simp [SameDecl, Sym.kind]⟩

theorem ctor_live : Live Store.Demo.env (latest ctorHist) (.met ctor) :=
  ⟨uB, b3, [.cla base, .met go], [], rfl, rfl, trivial, by simp⟩

theorem ctor_go : Live Store.Demo.env (latest ctorHist) (.met go) :=
  ⟨uB, b3, [.cla base], [.met ctor], rfl, rfl, trivial, by
    simp only [List.mem_singleton]
    rintro y rfl ⟨-, h⟩
    exact absurd h.2.1 (by decide +kernel)⟩

theorem ctor_each : OneEach Store.Demo.env (latest ctorHist) where
  classes c d hc hd h := by
    rcases ctor_cla hc with rfl | rfl <;> rcases ctor_cla hd with rfl | rfl
    · rfl
    · exact absurd ((classFQNLower_eq_iff Store.Demo.lower_slash _ _).mpr h) (by decide +kernel)
    · exact absurd ((classFQNLower_eq_iff Store.Demo.lower_slash _ _).mpr h) (by decide +kernel)
    · rfl
  interfaces c _ hc := (ctor_int hc).elim

theorem ctor_chain : [foo, base].IsChain (Extends Store.Demo.env (latest ctorHist)) := by
  rw [List.isChain_pair]
  exact ⟨by decide, ctor_base, .inl rfl⟩

end Demo

/-- Non-vacuity of C130_new and C130_methods: `new Foo(…)` and `$foo->go(…)`, where `Foo` in `a.php` extends `Base` in
`b.php`, which has got a constructor in the meantime. -/
example : EnvOK Store.Demo.env ∧ Store.Demo.env.LowerSlash ∧ HistOK Store.Demo.env Demo.ctorHist ∧
    OneEach Store.Demo.env (latest Demo.ctorHist) ∧
    (∀ d, Live Store.Demo.env (latest Demo.ctorHist) (.cla d) → ∀ i, Live Store.Demo.env (latest Demo.ctorHist) (.int i) →
      ¬ SameClassName Store.Demo.env d.name.fqn i.name.fqn) ∧
    Live Store.Demo.env (latest Demo.ctorHist) (.cla Demo.foo) ∧
    Unmistakable Store.Demo.env (latest Demo.ctorHist) Demo.foo ∧
    [Demo.foo, Demo.base].IsChain (Extends Store.Demo.env (latest Demo.ctorHist)) ∧
    (∀ m ∈ [Demo.ctor, Demo.go],
      (∀ d ∈ [Demo.foo], Lacks Store.Demo.env (latest Demo.ctorHist) m.name d) ∧
      Live Store.Demo.env (latest Demo.ctorHist) (.met m) ∧ m.scope.fqn = Demo.base.name.fqn ∧ m.visibility = 0 ∧
      ∀ x, Live Store.Demo.env (latest Demo.ctorHist) (.met x) →
        Store.Demo.env.lower x.name = Store.Demo.env.lower m.name → x = m) ∧
    ∃ s, run Store.Demo.env Store.Demo.root Demo.ctorHist = some s ∧
      [signatureHelpIn Store.Demo.env s (Imports.newTable ⟨0, 0⟩) 9 9 (.new_ [⟨b!"\\N\\FOO", b!"FOO", 0⟩]),
       signatureHelpIn Store.Demo.env s (Imports.newTable ⟨0, 0⟩) 9 9
        (.member .method ⟨b!"$x", [b!"\\N\\Foo"]⟩ b!"go" [])] =
      [some [⟨b!"public __construct(int $a = 1)", b!"Makes.", [(b!"int $a = 1", [])]⟩],
       some [⟨b!"public go()", [], []⟩]] := by
  refine ⟨Store.Demo.env_ok, Store.Demo.lower_slash, Demo.ctorHist_ok, Demo.ctor_each,
    fun _ _ _ h => (Demo.ctor_int h).elim, Demo.ctor_foo, ⟨fun _ h => (Demo.ctor_int h).elim,
    fun _ h => (Demo.ctor_tra h).elim⟩, Demo.ctor_chain, ?_, Store.Demo.observe _ _ (by decide +kernel)⟩
  intro m hm
  have live : Live Store.Demo.env (latest Demo.ctorHist) (.met m) := by
    simp only [List.mem_cons, List.not_mem_nil, or_false] at hm
    rcases hm with rfl | rfl
    · exact Demo.ctor_live
    · exact Demo.ctor_go
  have one : ∀ x, Live Store.Demo.env (latest Demo.ctorHist) (.met x) →
      Store.Demo.env.lower x.name = Store.Demo.env.lower m.name → x = m := by
    intro x hx hl
    simp only [List.mem_cons, List.not_mem_nil, or_false] at hm
    rcases Demo.ctor_met hx with h | rfl | rfl <;> rcases hm with rfl | rfl <;>
      first
        | rfl
        | (rw [h] at hl; exact absurd hl (by decide +kernel))
        | exact absurd hl (by decide +kernel)
  refine ⟨fun d hd x hx hl => ?_, live, ?_, ?_, one⟩
  · rw [one x hx hl, List.mem_singleton.mp hd]
    exact (by decide +kernel : ∀ m ∈ [Demo.ctor, Demo.go], m.scope.fqn ≠ Demo.foo.name.fqn ∧
      ∀ t ∈ Demo.foo.use, t.fqn ≠ m.scope.fqn) m hm
  · exact (by decide +kernel : ∀ m ∈ [Demo.ctor, Demo.go], m.scope.fqn = Demo.base.name.fqn) m hm
  · exact (by decide +kernel : ∀ m ∈ [Demo.ctor, Demo.go], m.visibility = 0) m hm

open Verif.Decl in
/-- Non-vacuity of C130_function_shown, besides what is shown for C126_function_shown: the default values have a text. -/
example : (∀ e ∈ [sub (sub (sub (part 3) 0) 4) 0, sub (sub (sub (part 3) 0) 4) 3], ∀ type var v,
      ParamWritten e type var (some v) → textOf senv.ctx v ≠ []) ∧
    ∃ s, run Store.Demo.env Store.Demo.root Demo.countHist = some s ∧
      signatureHelpIn Store.Demo.env s (Imports.newTable ⟨0, 0⟩) 0 0
        (.function ⟨b!"\\App\\count", b!"\\App\\count", 0⟩) =
      some [⟨b!"count(\\Lib\\Foo|\\App\\Bar|null $a, $b = 1 + 2)", b!"Counts.",
        [(b!"\\Lib\\Foo|\\App\\Bar|null $a", []), (b!"$b = 1 + 2", [])]⟩] := by
  refine ⟨?_, ?_⟩
  · intro e he type var v hw hv
    have hrec := (newParameter_spec senv e type var (some v) hw).1 type var (some v) hw
    obtain ⟨-, -, -, h4, h5⟩ := hrec
    rw [Option.getD_some, hv] at h5
    simp only [List.mem_cons, List.not_mem_nil, or_false] at he
    rcases he with rfl | rfl
    · rw [Option.isSome_some] at h4
      exact absurd h4 (by decide +kernel)
    · exact absurd h5 (by decide +kernel)
  · obtain ⟨s, hs, -⟩ := run_inv Store.Demo.env_ok Demo.countHist_ok (root := Store.Demo.root)
    refine ⟨s, hs, ?_⟩
    rw [function_signature Store.Demo.env_ok Demo.countHist_ok hs _ _ _ _ Demo.count
      ⟨Store.Demo.uA, Demo.countDoc, [], [], by decide +kernel, rfl, trivial, by simp⟩ ?_ Demo.count_name]
    · exact congrArg some (by decide +kernel)
    · intro g hg e
      rcases Demo.count_live hg with rfl | h
      · rfl
      · rw [h] at e; exact absurd e (by decide +kernel)

end Verif.Whole
