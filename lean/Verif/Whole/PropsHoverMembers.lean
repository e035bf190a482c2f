import Verif.Whole.HoverMembers
import Verif.Whole.PropsShowAll
import Verif.Whole.PropsMembers
import Verif.Whole.PropsSignatures

/-! C138: what hovering over a member or over `new` shows after any history of the index. -/

namespace Verif.Whole

open Verif.Encoding Verif.Storage Verif.Store Verif.Query

variable {env : Env} {root : Bytes} {h : List HOp} {s : Store}

/-- A class, interface or trait of the current files has this name, and it is called a class, an interface or a trait. -/
inductive Container (env : Env) (L : Bytes → Option Doc) (name : Bytes) : Show.Scope → Prop where
  | cls {c : Class} : Live env L (.cla c) → c.name.fqn = name → Container env L name (.cls name)
  | intf {c : Interface} : Live env L (.int c) → c.name.fqn = name → Container env L name (.intf name)
  | trt {c : Trait} : Live env L (.tra c) → c.name.fqn = name → Container env L name (.trt name)

/-- What is forgotten in the index is not shown. -/
theorem memberText_stored (md : Bytes → Option Bytes) (sc : Show.Scope) (x : Sym) :
    memberText md sc x.stored = memberText md sc x := by
  cases x with
  | met c =>
    simp only [Sym.stored, memberText, Show.methodHover, Show.concatParams, List.map_map]
    rfl
  | _ => rfl

theorem any_class (he : EnvOK env) (hok : HistOK env h) (hs : run env root h = some s) (name : Bytes) :
    ((scanAll s cCla readClass).any fun c => decide (c.name.fqn = name)) = true ↔
      ∃ c, Live env (latest h) (.cla c) ∧ c.name.fqn = name := by
  rw [List.any_eq_true]
  constructor
  · rintro ⟨c, hc, e⟩
    obtain ⟨a, ha, rfl⟩ := (mem_scanAll kCla he hok hs c).mp hc
    exact ⟨a, ha, of_decide_eq_true e⟩
  · rintro ⟨c, hc, e⟩
    exact ⟨kCla.st c, (mem_scanAll kCla he hok hs _).mpr ⟨c, hc, rfl⟩, decide_eq_true e⟩

theorem any_interface (he : EnvOK env) (hok : HistOK env h) (hs : run env root h = some s) (name : Bytes) :
    ((scanAll s cInt readInterface).any fun c => decide (c.name.fqn = name)) = true ↔
      ∃ c, Live env (latest h) (.int c) ∧ c.name.fqn = name := by
  rw [List.any_eq_true]
  constructor
  · rintro ⟨c, hc, e⟩
    obtain ⟨a, ha, rfl⟩ := (mem_scanAll kInt he hok hs c).mp hc
    exact ⟨a, ha, of_decide_eq_true e⟩
  · rintro ⟨c, hc, e⟩
    exact ⟨kInt.st c, (mem_scanAll kInt he hok hs _).mpr ⟨c, hc, rfl⟩, decide_eq_true e⟩

theorem any_trait (he : EnvOK env) (hok : HistOK env h) (hs : run env root h = some s) (name : Bytes) :
    ((scanAll s cTra readTrait).any fun c => decide (c.name.fqn = name)) = true ↔
      ∃ c, Live env (latest h) (.tra c) ∧ c.name.fqn = name := by
  rw [List.any_eq_true]
  constructor
  · rintro ⟨c, hc, e⟩
    obtain ⟨a, ha, rfl⟩ := (mem_scanAll kTra he hok hs c).mp hc
    exact ⟨a, ha, of_decide_eq_true e⟩
  · rintro ⟨c, hc, e⟩
    exact ⟨kTra.st c, (mem_scanAll kTra he hok hs _).mpr ⟨c, hc, rfl⟩, decide_eq_true e⟩

theorem scopeNamed_class (he : EnvOK env) (hok : HistOK env h) (hs : run env root h = some s) {c : Class}
    (hc : Live env (latest h) (.cla c)) : scopeNamed s c.name.fqn = .cls c.name.fqn :=
  if_pos ((any_class he hok hs _).mpr ⟨c, hc, rfl⟩)

theorem scopeNamed_of (he : EnvOK env) (hok : HistOK env h) (hs : run env root h = some s) {name : Bytes}
    (hex : (∃ c, Live env (latest h) (.cla c) ∧ c.name.fqn = name) ∨ (∃ c, Live env (latest h) (.int c) ∧ c.name.fqn = name) ∨
      ∃ c, Live env (latest h) (.tra c) ∧ c.name.fqn = name) : Container env (latest h) name (scopeNamed s name) := by
  unfold scopeNamed
  split
  · rename_i h1
    obtain ⟨c, hc, e⟩ := (any_class he hok hs _).mp h1
    exact .cls hc e
  · rename_i h1
    split
    · rename_i h2
      obtain ⟨c, hc, e⟩ := (any_interface he hok hs _).mp h2
      exact .intf hc e
    · rename_i h2
      split
      · rename_i h3
        obtain ⟨c, hc, e⟩ := (any_trait he hok hs _).mp h3
        exact .trt hc e
      · rename_i h3
        rcases hex with e | e | e
        · exact absurd ((any_class he hok hs _).mpr e) h1
        · exact absurd ((any_interface he hok hs _).mpr e) h2
        · exact absurd ((any_trait he hok hs _).mpr e) h3

/-- The scope from which something has members is a declaration of the current files. -/
theorem has_container {t scope : Bytes} (hh : Has env (latest h) t scope) :
    (∃ c, Live env (latest h) (.cla c) ∧ c.name.fqn = scope) ∨ (∃ c, Live env (latest h) (.int c) ∧ c.name.fqn = scope) ∨
      ∃ c, Live env (latest h) (.tra c) ∧ c.name.fqn = scope := by
  have above : ∀ {c d : Class}, Live env (latest h) (.cla c) → Above env (latest h) c d → Live env (latest h) (.cla d) := by
    intro c d hc hd
    cases hd with
    | self => exact hc
    | parent _ _ h _ => exact h
  have above' : ∀ {c d : Interface}, Live env (latest h) (.int c) → IntfAbove env (latest h) c d →
      Live env (latest h) (.int d) := by
    intro c d hc hd
    cases hd with
    | self => exact hc
    | parent _ _ _ h => exact h
  rcases hh with ⟨c, hc, -, d, hd, rfl | ⟨x, hx, -, -, rfl⟩ | ⟨i, hi, -, -, j, hj, rfl⟩⟩ | ⟨i, hi, -, j, hj, rfl⟩ |
    ⟨x, hx, -, rfl⟩
  · exact .inl ⟨_, above hc hd, rfl⟩
  · exact .inr (.inr ⟨_, hx, rfl⟩)
  · exact .inr (.inl ⟨_, above' hi hj, rfl⟩)
  · exact .inr (.inl ⟨_, above' hi hj, rfl⟩)
  · exact .inr (.inr ⟨_, hx, rfl⟩)

theorem declares_scope {u : MemberUse} {scope name : Bytes} {x : Sym} (hd : Declares env u scope name x) :
    scopeOf x = scope := by
  cases x <;> simp only [Declares] at hd <;> simp only [scopeOf]
  · exact hd.2.1
  · exact hd.2.1
  · rcases hd with h | h <;> exact h.2.1

/-- One result of a lookup, as it is shown. -/
theorem found_at (he : EnvOK env) (hsl : env.LowerSlash) (hok : HistOK env h) (hs : run env root h = some s)
    (md : Bytes → Option Bytes) {u : MemberUse} {name t : Bytes} (hn : name ≠ []) {f : Found}
    (hf : MemberAt (worldOf env s) u name t f) :
    ∃ x, Live env (latest h) x ∧ Declares env u f.scope name x ∧ Has env (latest h) t f.scope ∧
      num s x.stored = f.member.decl ∧ f.member.scope = f.scope ∧
      foundText s md f = memberText md (scopeNamed s f.scope) x ∧ Container env (latest h) f.scope (scopeNamed s f.scope) ∧
      ((u = .prop ∨ u = .method) → (f.member.vis = .private_ ↔ Private x)) ∧ (f.member.isStatic = true ↔ Static x) := by
  have hh := has_of he hsl hok hs hf.1
  obtain ⟨x, hx, hdx, hnum, hms, hg, hp, hst⟩ := member_of he hok hs (has_nosep he hok hh) hn hf.2
  refine ⟨x, hx, hdx, hh, hnum, hms, ?_, scopeNamed_of he hok hs (has_container hh), hp, hst⟩
  rw [foundText, ← hnum, get_num_live he hok hs hx hg, Option.elim_some, memberText_stored]

/-- C138: the text that is shown for a member is put together from texts of members of the current files: declared in a class,
interface or trait from which (a class or interface of) one of the types of the object has members, under the name that is
written (methods in whatever case; of constants it is enough that the name starts like that). Every text names the class,
interface or trait that declares the member. Private methods and properties of objects are shown only in code of their class
through `$this` or of the class of the object; after `Name::` only what is static is. -/
theorem C138_right (he : EnvOK env) (hsl : env.LowerSlash) (hok : HistOK env h) (hs : run env root h = some s)
    (ho : OneEach env (latest h)) (md : Bytes → Option Bytes) (keyOf : Bytes → Bytes) (n ni : Nat) (u : MemberUse) (a : Access)
    (name cur : Bytes) (hn : name ≠ []) (text : Bytes)
    (hr : memberHoverIn env s md keyOf n ni u a name cur = some text) :
    ∃ parts : List (Sym × Show.Scope), text = parts.flatMap (fun p => memberText md p.2 p.1) ∧ ∀ p ∈ parts,
      Live env (latest h) p.1 ∧ Container env (latest h) (scopeOf p.1) p.2 ∧ (∃ t ∈ a.types, Has env (latest h) t (scopeOf p.1)) ∧
      Declares env u (scopeOf p.1) name p.1 ∧
      ((u = .prop ∨ u = .method) → Private p.1 → a.scopeName = b!"$this" ∧ scopeOf p.1 = cur ∨ cur ∈ a.types) ∧
      ((u ≠ .prop ∧ u ≠ .method) → a.scopeName ∉ [b!"parent", b!"self", b!"static", b!"$this"] → Static p.1) := by
  obtain ⟨l, hl, rfl⟩ := Option.map_eq_some_iff.mp hr
  have hsound := memberLoop_at (distinct he hsl hok hs ho) keyOf n ni u a name cur a.types a.types (fun _ h => h) [] St.new
    .new (by simp) l hl
  clear hl hr
  induction l with
  | nil => exact ⟨[], rfl, by simp⟩
  | cons f l ih =>
    obtain ⟨parts, e, hp⟩ := ih fun g hg => hsound g (List.mem_cons_of_mem _ hg)
    obtain ⟨⟨t, ht, hf⟩, h2, h3⟩ := hsound f List.mem_cons_self
    obtain ⟨x, hx, hdx, hh, -, hms, htext, hcon, hpr, hst⟩ := found_at he hsl hok hs md hn hf
    have hsc := declares_scope hdx
    refine ⟨(x, scopeNamed s f.scope) :: parts, by rw [List.flatMap_cons, List.flatMap_cons, htext, e], fun p hm => ?_⟩
    rcases List.mem_cons.mp hm with rfl | hm
    · refine ⟨hx, hsc ▸ hcon, ⟨t, ht, hsc ▸ hh⟩, hsc ▸ hdx, fun hu hv => ?_, fun hu hv => hst.mp (h3 hu hv)⟩
      have := h2 hu ((hpr hu).mpr hv)
      rw [hms] at this
      exact hsc ▸ this
    · exact hp p hm

/-- A result whose declaration is the method `m`. -/
theorem found_method (he : EnvOK env) (hsl : env.LowerSlash) (hok : HistOK env h) (hs : run env root h = some s)
    (md : Bytes → Option Bytes) {u : MemberUse} {name t : Bytes} (hn : name ≠ []) {f : Found}
    (hf : MemberAt (worldOf env s) u name t f) {m : Method} (hm : Live env (latest h) (.met m)) {k : Class}
    (hk : Live env (latest h) (.cla k)) (hmk : m.scope.fqn = k.name.fqn) (hd : f.member.decl = num s (Sym.met m).stored) :
    foundText s md f = Show.methodHover md (.cls k.name.fqn) m := by
  obtain ⟨x, hx, hdx, -, hnum, -, htext, -⟩ := found_at he hsl hok hs md hn hf
  have hxg : ∀ g, x ≠ .gloVar g := by rintro g rfl; exact hdx
  have e : x = .met m := stored_inj he hok hx hm (num_inj ((mem_decls he hok hs _).mpr ⟨_, hx, rfl, hxg⟩)
    ((mem_decls he hok hs _).mpr ⟨_, hm, rfl, by simp⟩) (hnum.trans hd))
  subst e
  have hsc := declares_scope hdx
  rw [htext, ← hsc, show scopeOf (.met m) = k.name.fqn from hmk, scopeNamed_class he hok hs hk]
  rfl

/-- The last class of a chain is in the current files. -/
theorem last_live {L : Bytes → Option Doc} {c k : Class} {ds : List Class} (hc : Live env L (.cla c))
    (hch : (c :: ds).IsChain (Extends env L)) (hk : (c :: ds).getLast? = some k) : Live env L (.cla k) := by
  induction ds generalizing c with
  | nil => injection hk with hk; exact hk ▸ hc
  | cons d ds ih =>
    rw [List.isChain_cons_cons] at hch
    exact ih hch.1.2.1 hch.2 (by rwa [List.getLast?_cons_cons] at hk)

/-- C138: for an object of the class `c`, hovering over a method call shows exactly the method in the nearest class: if neither
`c` nor the classes between it and `k`, nor their traits, have a method of this name, and `k` declares a public one, its text
is shown, with `class` and the name of `k`, and no other. -/
theorem C138_methods (he : EnvOK env) (hsl : env.LowerSlash) (hok : HistOK env h) (hs : run env root h = some s)
    (ho : OneEach env (latest h)) (hap : ∀ d, Live env (latest h) (.cla d) → ∀ i, Live env (latest h) (.int i) →
      ¬ SameClassName env d.name.fqn i.name.fqn)
    (c : Class) (hc : Live env (latest h) (.cla c)) (hal : Unmistakable env (latest h) c)
    (ds : List Class) (k : Class) (hk : (c :: ds).getLast? = some k) (hch : (c :: ds).IsChain (Extends env (latest h)))
    (hnd : (c :: ds).Nodup) (name : Bytes) (hn : name ≠ []) (hla : ∀ d ∈ (c :: ds).dropLast, Lacks env (latest h) name d)
    (m : Method) (hm : Live env (latest h) (.met m)) (hmk : m.scope.fqn = k.name.fqn) (hmn : m.name = name)
    (hpub : m.visibility = 0)
    (hone : ∀ x, Live env (latest h) (.met x) → x.scope.fqn = k.name.fqn → env.lower x.name = env.lower name → x = m)
    (hx : ∀ x, Live env (latest h) (.met x) → env.lower x.name = env.lower name → x.name = name)
    (t : Bytes) (ht : SameClassName env c.name.fqn t) (a : Access) (ha : a.types = [t])
    (cur : Bytes) (md : Bytes → Option Bytes) (keyOf : Bytes → Bytes) :
    ∃ N, ∀ n ni, N ≤ n → N ≤ ni →
      memberHoverIn env s md keyOf n ni .method a name cur = some (Show.methodHover md (.cls k.name.fqn) m) := by
  obtain ⟨N, hN⟩ := method_found he hsl hok hs ho hap c hc hal ds k hk hch hnd name hn hla m hm hmk hmn hpub hone hx t ht a
    ha cur (Imports.newTable ⟨0, 0⟩) keyOf
  have hkl : Live env (latest h) (.cla k) := last_live hc hch hk
  refine ⟨N, fun n ni h1 h2 => ?_⟩
  obtain ⟨l, hl, e⟩ := Option.map_eq_some_iff.mp (hN n ni h1 h2)
  have hl : memberLoop (worldOf env s) keyOf n ni .method a name cur a.types [] St.new = some l := hl
  cases l with
  | nil => cases e
  | cons f l =>
    injection e with e e'
    obtain rfl := List.map_eq_nil_iff.mp e'
    obtain ⟨⟨t', -, hf⟩, -⟩ := memberLoop_at (distinct he hsl hok hs ho) keyOf n ni .method a name cur a.types a.types
      (fun _ h => h) [] St.new .new (by simp) [f] hl f (by simp)
    rw [memberHoverIn, hl, Option.map_some, List.flatMap_cons, List.flatMap_nil, List.append_nil,
      found_method he hsl hok hs md hn hf hm hkl hmk e]

/-- C138: the same from the text of the file that declares the method: `modifiers function name(parameters): types` with the
declared modifiers, name, parameters in order and the types of the `@return` tags; below it `class` and the full name of the
class that declares it, and the description. -/
theorem C138_method_shown (he : EnvOK env) (hsl : env.LowerSlash) (hok : HistOK env h) (hs : run env root h = some s)
    (ho : OneEach env (latest h)) (hap : ∀ d, Live env (latest h) (.cla d) → ∀ i, Live env (latest h) (.int i) →
      ¬ SameClassName env d.name.fqn i.name.fqn)
    (c : Class) (hc : Live env (latest h) (.cla c)) (hal : Unmistakable env (latest h) c)
    (ds : List Class) (k : Class) (hk : (c :: ds).getLast? = some k) (hch : (c :: ds).IsChain (Extends env (latest h)))
    (hnd : (c :: ds).Nodup)
    (uri : Bytes) (scope : Types.Ty) (range : Rng) (denv : Decl.Env) (ks ps es mods : List Analyser.Node)
    (name : Analyser.Node) (doc : Option Analyser.Node)
    (hh : Decl.OnlyPhrase .methodDeclarationHeader ks (.phr .methodDeclarationHeader ps))
    (hname : Decl.OnlyPhrase .identifier ps name) (hi : ∀ k ∈ ps, ¬ Decl.IsToken .name k)
    (hmod : Decl.MethodModifiers ps mods) (hov : Decl.OneVisibility mods) (hp : Show.Parameters ps es)
    (hd : Decl.DocApplies denv (.phr .methodDeclaration ks) doc)
    (hf : Show.LevelsFit (Decl.newMethod denv (.phr .methodDeclaration ks))) (m : Method)
    (hm' : m = Show.toMethod uri scope range (Decl.newMethod denv (.phr .methodDeclaration ks)))
    (hn : m.name ≠ []) (hla : ∀ d ∈ (c :: ds).dropLast, Lacks env (latest h) m.name d)
    (hm : Live env (latest h) (.met m)) (hmk : m.scope.fqn = k.name.fqn) (hpub : m.visibility = 0)
    (hone : ∀ x, Live env (latest h) (.met x) → x.scope.fqn = k.name.fqn → env.lower x.name = env.lower m.name → x = m)
    (hx : ∀ x, Live env (latest h) (.met x) → env.lower x.name = env.lower m.name → x.name = m.name)
    (t : Bytes) (ht : SameClassName env c.name.fqn t) (a : Access) (ha : a.types = [t])
    (cur : Bytes) (md : Bytes → Option Bytes) (keyOf : Bytes → Bytes) :
    ∃ text mod params ret desc N, (∀ n ni, N ≤ n → N ≤ ni →
        memberHoverIn env s md keyOf n ni .method a m.name cur = some text) ∧
      Show.ModifiersShown mods mod ∧ List.Forall₂ (Show.ParamReads denv doc) es params ∧
      Show.ReturnShown (Show.Returned denv doc) ret ∧ Show.DescriptionIs denv doc desc ∧
      Show.HoverText md (mod ++ b!" function " ++ denv.ctx.nodeText name ++ b!"(" ++ b!", ".intercalate params ++ b!")" ++ ret)
        (b!"\n____\n\n`class " ++ k.name.fqn ++ b!"`") desc text := by
  obtain ⟨N, hN⟩ := C138_methods he hsl hok hs ho hap c hc hal ds k hk hch hnd m.name hn hla m hm hmk rfl hpub hone hx t ht a
    ha cur md keyOf
  obtain ⟨u, -, hsok⟩ := live_ok he hok hm
  subst hm'
  obtain ⟨f, mod, params, ret, desc, hr, h1, h2, h3, h4, h5⟩ := Show.C117_method md uri scope (.cls k.name.fqn) range denv ks ps
    es mods name doc [] hh hname hi hmod hov hp hd hf hsok.wf
  refine ⟨_, mod, params, ret, desc, N, hN, h1, h2, h3, h4, ?_⟩
  rw [C02_method_round_trip_partial _ hsok.wf] at hr
  injection hr with hr
  injection hr with hr _
  rw [← hr] at h5
  have h6 := memberText_stored md (.cls k.name.fqn)
    (.met (Show.toMethod uri scope range (Decl.newMethod denv (.phr .methodDeclaration ks))))
  simp only [memberText, Sym.stored] at h6
  exact h6 ▸ h5

theorem method_lookup {w : World} (hw : Distinct w) {c : Cls} (hc : c ∈ w.classes) {t : Bytes} (ht : w.key c.name = w.key t)
    (n ni : Nat) (name : Bytes) : classLookup w n ni .method name c ∈ lookups w n ni .method name t := by
  simp only [lookups, named_single hw hc ht]
  exact List.mem_append_left _ (List.mem_append_left _ (List.mem_singleton.mpr rfl))

/-- C138: hovering over the class name after `new` shows exactly the public constructor of the nearest class that declares
one, with the name of that class. -/
theorem C138_new (he : EnvOK env) (hsl : env.LowerSlash) (hok : HistOK env h) (hs : run env root h = some s)
    (ho : OneEach env (latest h)) (hap : ∀ d, Live env (latest h) (.cla d) → ∀ i, Live env (latest h) (.int i) →
      ¬ SameClassName env d.name.fqn i.name.fqn)
    (c : Class) (hc : Live env (latest h) (.cla c))
    (ds : List Class) (k : Class) (hk : (c :: ds).getLast? = some k) (hch : (c :: ds).IsChain (Extends env (latest h)))
    (hnd : (c :: ds).Nodup) (hla : ∀ d ∈ (c :: ds).dropLast, Lacks env (latest h) b!"__construct" d)
    (m : Method) (hm : Live env (latest h) (.met m)) (hmk : m.scope.fqn = k.name.fqn) (hmn : m.name = b!"__construct")
    (hpub : m.visibility = 0)
    (hone : ∀ x, Live env (latest h) (.met x) → x.scope.fqn = k.name.fqn →
      env.lower x.name = env.lower b!"__construct" → x = m)
    (t : Types.Ty) (ht : SameClassName env c.name.fqn t.fqn) (md : Bytes → Option Bytes) :
    ∃ N, ∀ n ni, N ≤ n → N ≤ ni →
      newHoverIn env s md n ni [t] = some (Show.methodHover md (.cls k.name.fqn) m) := by
  have hw := distinct he hsl hok hs ho
  have hcw : clsOf s c ∈ (worldOf env s).classes := (mem_classes he hok hs _).mpr ⟨c, hc, rfl⟩
  have hkey : (worldOf env s).key (clsOf s c).name = (worldOf env s).key t.fqn := (key_iff hsl _ _).mpr ht
  obtain ⟨N, hN⟩ := nearest_first he hsl hok hs ho hap c hc ds k hk hch hnd b!"__construct" (by decide) hla m hm hmk hmn hone
  refine ⟨N, fun n ni h1 h2 => ?_⟩
  obtain ⟨q, f0, fs, hcl, -, hmem, hf0⟩ := hN n ni h1 h2
  have hat := (lookup_at (n := n) (ni := ni) (t := t.fqn) hw
    (method_lookup hw hcw hkey n ni b!"__construct") .new hcl).2 f0 (by rw [hmem]; simp)
  have hcl' : getClassMethods (worldOf env s) n ni (clsOf s c) b!"__construct" none St.new = some q := hcl
  have hred : q.1.reduceFirst = some f0 := by
    have : f0.member.vis = .pub := by
      rw [hf0]
      show visOf m.visibility = _
      rw [hpub]; decide
    unfold Inherited.reduceFirst
    rw [hmem, List.find?_cons_of_pos (by simpa using this)]
  have htext := found_method he hsl hok hs md (by decide) hat hm (last_live hc hch hk) hmk (by rw [hf0]; rfl)
  simp only [newHoverIn, List.flatMap_cons, List.flatMap_nil, List.append_nil, named_single hw hcw hkey, constructors, hcl',
    Option.map_some, hred, Option.toList_some, List.isEmpty_cons, Bool.false_eq_true, if_false, htext, List.flatMap_cons, List.flatMap_nil, List.append_nil,
    List.cons_append, List.nil_append]

/-- C138: if nothing that the class has members from declares a public constructor, hovering over the class name after `new`
shows the text of the class. -/
theorem C138_new_class (he : EnvOK env) (hsl : env.LowerSlash) (hok : HistOK env h) (hs : run env root h = some s)
    (ho : OneEach env (latest h))
    (c : Class) (hc : Live env (latest h) (.cla c))
    (hno : ∀ m, Live env (latest h) (.met m) → env.lower m.name = env.lower b!"__construct" →
      Has env (latest h) c.name.fqn m.scope.fqn → m.visibility = 1 ∨ m.visibility = 2)
    (t : Types.Ty) (ht : SameClassName env c.name.fqn t.fqn) (md : Bytes → Option Bytes) (n ni : Nat) (text : Bytes)
    (hr : newHoverIn env s md n ni [t] = some text) : text = Show.classHover md c := by
  have hw := distinct he hsl hok hs ho
  have hcw : clsOf s c ∈ (worldOf env s).classes := (mem_classes he hok hs _).mpr ⟨c, hc, rfl⟩
  have hkey : (worldOf env s).key (clsOf s c).name = (worldOf env s).key t.fqn := (key_iff hsl _ _).mpr ht
  simp only [newHoverIn, List.flatMap_cons, List.flatMap_nil, List.append_nil, named_single hw hcw hkey, constructors] at hr
  cases hl : getClassMethods (worldOf env s) n ni (clsOf s c) b!"__construct" none St.new with
  | none => rw [hl] at hr; cases hr
  | some q =>
    have hl' : classLookup (worldOf env s) n ni .method b!"__construct" (clsOf s c) none St.new = some q := hl
    have hred : q.1.reduceFirst = none := by
      unfold Inherited.reduceFirst
      rw [List.find?_eq_none]
      intro f hf hv
      have hv : f.member.vis = .pub := by simpa using hv
      have hat := (lookup_at (n := n) (ni := ni) (u := .method) (name := b!"__construct") (t := c.name.fqn) hw
        (method_lookup hw hcw rfl n ni b!"__construct") .new hl').2 f hf
      have hh := has_of he hsl hok hs hat.1
      obtain ⟨m, hm, ⟨h1, h2⟩, e⟩ := (mem_methods he hok hs (by decide) f.member).mp hat.2
      have := hno m hm h2 (h1 ▸ hh)
      rw [← e] at hv
      have hv : visOf m.visibility = .pub := hv
      rcases this with e | e <;> rw [e] at hv <;> exact absurd hv (by decide)
    rw [hl] at hr
    simp only [Option.map_some, hred, Option.toList_none, List.append_nil, List.isEmpty_nil, if_true] at hr
    injection hr with hr
    have hg : (decls s)[(clsOf s c).decl]? = some (Sym.cla c).stored := get_num_live he hok hs hc (by simp)
    rw [← hr]
    simp only [List.filterMap_cons, List.filterMap_nil, hg]
    rw [ List.flatMap_cons, List.flatMap_nil, List.append_nil, showText_stored]
    rfl

/-! ### examples -/

/-- Non-vacuity of C138 (the hypotheses of C138_methods and C138_new are those of C130, see there): `b.php` was re-indexed
with a method and a constructor in the parent class of a class in `a.php`. What is shown names the parent class. -/
example : ∃ s, run Store.Demo.env Store.Demo.root Demo.ctorHist = some s ∧
    [memberHoverIn Store.Demo.env s some id 9 9 .method ⟨b!"$x", [b!"\\N\\Foo"]⟩ b!"go" [],
     newHoverIn Store.Demo.env s some 9 9 [⟨b!"\\N\\Foo", b!"Foo", 0⟩]] =
    [some b!"```php\n<?php\npublic function go()\n```\n\n____\n\n`class \\Base`\n____\n",
     some b!"```php\n<?php\npublic function __construct(int $a = 1)\n```\n\n____\n\n`class \\Base`\n____\nMakes.\n____\n"] :=
  Store.Demo.observe _ _ (by decide +kernel)

/-- Non-vacuity of C138_new_class: without a constructor the class is shown. -/
example : (∀ m, Live Store.Demo.env (latest Demo.hist) (.met m) →
      Store.Demo.env.lower m.name = Store.Demo.env.lower b!"__construct" →
      Has Store.Demo.env (latest Demo.hist) Demo.foo.name.fqn m.scope.fqn → m.visibility = 1 ∨ m.visibility = 2) ∧
    ∃ s, run Store.Demo.env Store.Demo.root Demo.hist = some s ∧
      newHoverIn Store.Demo.env s some 9 9 [⟨b!"\\N\\Foo", b!"Foo", 0⟩] =
        some b!"```php\n<?php\nclass N\\Foo extends \\Base\n```\n\n____\n" :=
  ⟨fun m hm hl _ => by
    rcases Demo.live_met hm with e | rfl
    · rw [e] at hl; exact absurd hl (by decide +kernel)
    · exact absurd hl (by decide +kernel), Store.Demo.observe _ _ (by decide +kernel)⟩

end Verif.Whole
