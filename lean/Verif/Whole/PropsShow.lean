import Verif.Whole.Show
import Verif.Whole.Props
import Verif.Show.PropsHover

/-! C126: what hovering shows after any history of the index. -/

namespace Verif.Whole

open Verif.Encoding Verif.Storage Verif.Store Verif.Query

variable {env : Env} {root : Bytes} {h : List HOp} {s : Store}

theorem split_same {α} {R : α → α → Prop} (x y : α) (hxy : R x y) (hyx : R y x) : ∀ (pre pre' post post' : List α),
    pre ++ x :: post = pre' ++ y :: post' → (∀ z ∈ post, ¬ R x z) → (∀ z ∈ post', ¬ R y z) → x = y
  | [], [], _, _, e, _, _ => by injection e
  | [], a :: pre', post, post', e, h1, _ => by
    injection e with _ e
    exact absurd hxy (h1 y (by rw [e]; simp))
  | a :: pre, [], post, post', e, _, h2 => by
    injection e with _ e
    exact absurd hyx (h2 x (by rw [← e]; simp))
  | a :: pre, b :: pre', post, post', e, h1, h2 => by
    injection e with _ e
    exact split_same x y hxy hyx pre pre' post post' e h1 h2

/-- Two live declarations with the same stored form are the same. -/
theorem stored_inj (he : EnvOK env) (hok : HistOK env h) {x y : Sym} (hx : Live env (latest h) x)
    (hy : Live env (latest h) y) (e : x.stored = y.stored) : x = y := by
  obtain ⟨s, -, inv, -, -⟩ := run_inv (root := []) he hok
  have hdl : ∀ u d, latest h u = some d → DocOK env d ∧ d.uri = u := fun u d hu =>
    ⟨hok.docs d (inv.live u d hu).1, (inv.live u d hu).2⟩
  obtain ⟨u, d, pre, post, h1, h2, h3, h4⟩ := hx
  obtain ⟨u', d', pre', post', h1', h2', h3', h4'⟩ := hy
  have hu : x.location.uri = u := by
    rw [((hdl u d h1).1.syms x (by rw [h2]; simp)).uri, (hdl u d h1).2]
  have hu' : y.location.uri = u' := by
    rw [((hdl u' d' h1').1.syms y (by rw [h2']; simp)).uri, (hdl u' d' h1').2]
  have : u = u' := by rw [← hu, ← hu', ← stored_location x, e, stored_location]
  subst this
  rw [h1] at h1'
  injection h1' with h1'
  subst h1'
  have kind : ∀ x : Sym, x.stored.kind = x.kind := fun x => by cases x <;> rfl
  have path : ∀ x : Sym, x.stored.path env = x.path env := fun x => by cases x <;> rfl
  have same : ∀ {x y : Sym}, x.stored = y.stored → SameDecl env x y := by
    intro x y e
    refine ⟨by rw [← kind x, e, kind], by rw [← path x, e, path], ?_⟩
    have hl : x.location = y.location := by rw [← stored_location, e, stored_location]
    split
    · rename_i a b
      rw [show a.location = b.location from hl]
    · trivial
  exact split_same (R := fun x y => y.Indexed ∧ SameDecl env x y) x y ⟨h3', same e⟩ ⟨h3, same e.symm⟩ pre pre' post post'
    (h2.symm.trans h2') h4 h4'

/-- What is forgotten in the index is not shown. -/
theorem showText_stored (md : Bytes → Option Bytes) (x : Sym) : showText md x.stored = showText md x := by
  cases x with
  | fn c =>
    simp only [Sym.stored, showText, Show.functionHover, Show.concatParams, List.map_map]
    rfl
  | int c => rfl
  | _ => rfl

theorem preimages {α β} (f : α → β) (P : α → Prop) (l : List β) (hl : ∀ y ∈ l, ∃ x, P x ∧ f x = y) :
    ∃ r : List α, r.map f = l ∧ ∀ x ∈ r, P x := by
  induction l with
  | nil => exact ⟨[], rfl, by simp⟩
  | cons y l ih =>
    obtain ⟨x, hx, rfl⟩ := hl y List.mem_cons_self
    obtain ⟨r, rfl, hr⟩ := ih fun z hz => hl z (List.mem_cons_of_mem _ hz)
    exact ⟨x :: r, rfl, fun z hz => (List.mem_cons.mp hz).elim (fun e => e ▸ hx) (hr z)⟩

open Classical in
/-- What a name stands for when it is hovered over. -/
def Shown (env : Env) (L : Bytes → Option Doc) (tbl : Imports.Table) (u : Use) : Sym → Prop
  | .cla c => ∃ ts, (u = .cls ts ∨ u = .typ ts) ∧ ∃ t ∈ ts, SameClassName env c.name.fqn t.fqn
  | .int i => ∃ ts, (u = .cls ts ∨ u = .intf ts ∨ u = .typ ts) ∧ ∃ t ∈ ts, i.name.fqn = t.fqn
  | .tra x => ∃ ts, u = .trt ts ∧ ∃ t ∈ ts, x.name.fqn = t.fqn
  | .fn f => ∃ t, u = .function t ∧
      f.name.fqn = tbl.getFunctionReferenceFQN (fun q => decide (FunctionExists env L q)) t
  | .con c => ∃ t, u = .constant t ∧ c.name.fqn = tbl.getConstReferenceFQN
      (fun q => decide (ConstExists env L q)) (fun q => decide (DefineExists env L q)) t
  | .def_ c => ∃ t, u = .constant t ∧ c.name.fqn = tbl.getConstReferenceFQN
      (fun q => decide (ConstExists env L q)) (fun q => decide (DefineExists env L q)) t
  | _ => False

theorem functions_exist (he : EnvOK env) (hok : HistOK env h) (hs : run env root h = some s) :
    (fun q => decide ((siteOf env s).functions q ≠ [])) =
      fun q => @decide (FunctionExists env (latest h) q) (Classical.propDecidable _) := by
  funext q
  rw [decide_eq_decide, ne_nil_iff]
  constructor
  · rintro ⟨d, hd⟩; obtain ⟨f, hf, e, -⟩ := (function_nums he hok hs _ _).mp hd; exact ⟨f, hf, e⟩
  · rintro ⟨f, hf, e⟩; exact ⟨_, (function_nums he hok hs _ _).mpr ⟨f, hf, e, rfl⟩⟩

theorem consts_exist (he : EnvOK env) (hok : HistOK env h) (hs : run env root h = some s) :
    (fun q => decide ((siteOf env s).consts q ≠ [])) =
      fun q => @decide (ConstExists env (latest h) q) (Classical.propDecidable _) := by
  funext q
  rw [decide_eq_decide, ne_nil_iff]
  constructor
  · rintro ⟨d, hd⟩; obtain ⟨f, hf, e, -⟩ := (const_nums he hok hs _ _).mp hd; exact ⟨f, hf, e⟩
  · rintro ⟨f, hf, e⟩; exact ⟨_, (const_nums he hok hs _ _).mpr ⟨f, hf, e, rfl⟩⟩

theorem defines_exist (he : EnvOK env) (hok : HistOK env h) (hs : run env root h = some s) :
    (fun q => decide ((siteOf env s).defines q ≠ [])) =
      fun q => @decide (DefineExists env (latest h) q) (Classical.propDecidable _) := by
  funext q
  rw [decide_eq_decide, ne_nil_iff]
  constructor
  · rintro ⟨d, hd⟩; obtain ⟨f, hf, e, -⟩ := (define_nums he hok hs _ _).mp hd; exact ⟨f, hf, e⟩
  · rintro ⟨f, hf, e⟩; exact ⟨_, (define_nums he hok hs _ _).mpr ⟨f, hf, e, rfl⟩⟩

/-- The use is a name, not a member or the creation of an object. -/
def Use.IsName : Use → Prop
  | .new_ _ => False
  | .member _ _ _ _ => False
  | _ => True

theorem hover_names (he : EnvOK env) (hsl : env.LowerSlash) (hok : HistOK env h) (hs : run env root h = some s)
    (tbl : Imports.Table) (keyOf : Bytes → Bytes) (n ni : Nat) (u : Use) (hu : Use.IsName u) :
    ∃ l, hover (siteOf env s) tbl keyOf n ni u = some l ∧ ∀ d, d ∈ l ↔
      ∃ x, Live env (latest h) x ∧ Shown env (latest h) tbl u x ∧ num s x.stored = d := by
  have maps : ∀ {α : Type} (f : Types.Ty → List α) (g : α → Nat) (ts : List Types.Ty),
      (ts.flatMap f).map g = ts.flatMap fun t => (f t).map g := fun f g ts => List.map_flatMap
  have hw : (siteOf env s).world = worldOf env s := rfl
  have cls : ∀ (u : Use) (ts : List Types.Ty), (u = .cls ts ∨ u = .typ ts) → hover (siteOf env s) tbl keyOf n ni u =
      some ((ts.flatMap fun t => (worldOf env s).classesNamed t.fqn).map (·.decl) ++
        (ts.flatMap fun t => (worldOf env s).interfacesNamed t.fqn).map (·.decl)) →
      ∃ l, hover (siteOf env s) tbl keyOf n ni u = some l ∧ ∀ d, d ∈ l ↔
        ∃ x, Live env (latest h) x ∧ Shown env (latest h) tbl u x ∧ num s x.stored = d := by
    intro u ts hu e
    refine ⟨_, e, fun d => ?_⟩
    rw [List.mem_append, maps, maps, List.mem_flatMap, List.mem_flatMap]
    simp only [class_nums he hsl hok hs, interface_nums he hok hs]
    constructor
    · rintro (⟨t, ht, c, hc, hk, rfl⟩ | ⟨t, ht, c, hc, hk, rfl⟩)
      · exact ⟨.cla c, hc, ⟨ts, hu, t, ht, hk⟩, rfl⟩
      · exact ⟨.int c, hc, ⟨ts, hu.imp_right .inr, t, ht, hk⟩, rfl⟩
    · rintro ⟨x, hx, hsh, rfl⟩
      cases x with
      | cla c =>
        obtain ⟨ts', hu', t, ht, hk⟩ := hsh
        have : ts' = ts := by rcases hu with rfl | rfl <;> rcases hu' with e | e <;> cases e <;> rfl
        subst this
        exact .inl ⟨t, ht, c, hx, hk, rfl⟩
      | int c =>
        obtain ⟨ts', hu', t, ht, hk⟩ := hsh
        have : ts' = ts := by rcases hu with rfl | rfl <;> rcases hu' with e | e | e <;> cases e <;> rfl
        subst this
        exact .inr ⟨t, ht, c, hx, hk, rfl⟩
      | tra c => obtain ⟨_, e, -⟩ := hsh; rcases hu with rfl | rfl <;> cases e
      | fn c => obtain ⟨_, e, -⟩ := hsh; rcases hu with rfl | rfl <;> cases e
      | con c => obtain ⟨_, e, -⟩ := hsh; rcases hu with rfl | rfl <;> cases e
      | def_ c => obtain ⟨_, e, -⟩ := hsh; rcases hu with rfl | rfl <;> cases e
      | _ => cases hsh
  cases u with
  | new_ _ => cases hu
  | member _ _ _ _ => cases hu
  | cls ts => exact cls _ ts (.inl rfl) rfl
  | typ ts => exact cls _ ts (.inr rfl) rfl
  | intf ts =>
    refine ⟨_, rfl, fun d => ?_⟩
    rw [maps, List.mem_flatMap]
    simp only [hw, interface_nums he hok hs]
    constructor
    · rintro ⟨t, ht, c, hc, hk, rfl⟩
      exact ⟨.int c, hc, ⟨ts, .inr (.inl rfl), t, ht, hk⟩, rfl⟩
    · rintro ⟨x, hx, hsh, rfl⟩
      cases x with
      | cla c => obtain ⟨_, e, -⟩ := hsh; rcases e with e | e <;> cases e
      | int c =>
        obtain ⟨ts', hu', t, ht, hk⟩ := hsh
        have : ts' = ts := by rcases hu' with e | e | e <;> cases e <;> rfl
        subst this
        exact ⟨t, ht, c, hx, hk, rfl⟩
      | tra c => obtain ⟨_, e, -⟩ := hsh; cases e
      | fn c => obtain ⟨_, e, -⟩ := hsh; cases e
      | con c => obtain ⟨_, e, -⟩ := hsh; cases e
      | def_ c => obtain ⟨_, e, -⟩ := hsh; cases e
      | _ => cases hsh
  | trt ts =>
    refine ⟨_, rfl, fun d => ?_⟩
    rw [maps, List.mem_flatMap]
    simp only [hw, trait_nums he hok hs]
    constructor
    · rintro ⟨t, ht, c, hc, hk, rfl⟩
      exact ⟨.tra c, hc, ⟨ts, rfl, t, ht, hk⟩, rfl⟩
    · rintro ⟨x, hx, hsh, rfl⟩
      cases x with
      | cla c => obtain ⟨_, e, -⟩ := hsh; rcases e with e | e <;> cases e
      | int c => obtain ⟨_, e, -⟩ := hsh; rcases e with e | e | e <;> cases e
      | tra c =>
        obtain ⟨ts', hu', t, ht, hk⟩ := hsh
        cases hu'
        exact ⟨t, ht, c, hx, hk, rfl⟩
      | fn c => obtain ⟨_, e, -⟩ := hsh; cases e
      | con c => obtain ⟨_, e, -⟩ := hsh; cases e
      | def_ c => obtain ⟨_, e, -⟩ := hsh; cases e
      | _ => cases hsh
  | function t =>
    refine ⟨_, rfl, fun d => ?_⟩
    rw [functions_exist he hok hs, function_nums he hok hs]
    constructor
    · rintro ⟨f, hf, e, rfl⟩; exact ⟨.fn f, hf, ⟨t, rfl, e⟩, rfl⟩
    · rintro ⟨x, hx, hsh, rfl⟩
      cases x with
      | cla c => obtain ⟨_, e, -⟩ := hsh; rcases e with e | e <;> cases e
      | int c => obtain ⟨_, e, -⟩ := hsh; rcases e with e | e | e <;> cases e
      | tra c => obtain ⟨_, e, -⟩ := hsh; cases e
      | fn c => obtain ⟨_, e, hk⟩ := hsh; cases e; exact ⟨c, hx, hk, rfl⟩
      | con c => obtain ⟨_, e, -⟩ := hsh; cases e
      | def_ c => obtain ⟨_, e, -⟩ := hsh; cases e
      | _ => cases hsh
  | constant t =>
    refine ⟨_, rfl, fun d => ?_⟩
    rw [consts_exist he hok hs, defines_exist he hok hs, List.mem_append, const_nums he hok hs, define_nums he hok hs]
    constructor
    · rintro (⟨f, hf, e, rfl⟩ | ⟨f, hf, e, rfl⟩)
      · exact ⟨.con f, hf, ⟨t, rfl, e⟩, rfl⟩
      · exact ⟨.def_ f, hf, ⟨t, rfl, e⟩, rfl⟩
    · rintro ⟨x, hx, hsh, rfl⟩
      cases x with
      | cla c => obtain ⟨_, e, -⟩ := hsh; rcases e with e | e <;> cases e
      | int c => obtain ⟨_, e, -⟩ := hsh; rcases e with e | e | e <;> cases e
      | tra c => obtain ⟨_, e, -⟩ := hsh; cases e
      | fn c => obtain ⟨_, e, -⟩ := hsh; cases e
      | con c => obtain ⟨_, e, hk⟩ := hsh; cases e; exact .inl ⟨c, hx, hk, rfl⟩
      | def_ c => obtain ⟨_, e, hk⟩ := hsh; cases e; exact .inr ⟨c, hx, hk, rfl⟩
      | _ => cases hsh

/-- C126: after any history, hovering over a name shows the texts of exactly the declarations of that name in the current
versions of the files, as they are declared there, and nothing else. -/
theorem C126_names (he : EnvOK env) (hsl : env.LowerSlash) (hok : HistOK env h) (hs : run env root h = some s)
    (md : Bytes → Option Bytes) (tbl : Imports.Table) (keyOf : Bytes → Bytes) (n ni : Nat) (u : Use) (hu : Use.IsName u) :
    ∃ r : List Sym, hoverTextIn env s md tbl keyOf n ni u = some (r.flatMap (showText md)) ∧
      ∀ x, x ∈ r ↔ Live env (latest h) x ∧ Shown env (latest h) tbl u x := by
  obtain ⟨l, hl, hd⟩ := hover_names he hsl hok hs tbl keyOf n ni u hu
  have nog : ∀ {x : Sym}, Shown env (latest h) tbl u x → ∀ g, x ≠ .gloVar g := by
    rintro x hx g rfl; cases hx
  have hmem : ∀ y, y ∈ (l.filterMap fun d => (decls s)[d]?) ↔
      ∃ x, (Live env (latest h) x ∧ Shown env (latest h) tbl u x) ∧ x.stored = y := by
    intro y
    rw [List.mem_filterMap]
    constructor
    · rintro ⟨d, hdl, e⟩
      obtain ⟨x, hx, hsh, rfl⟩ := (hd d).mp hdl
      rw [get_num_live he hok hs hx (nog hsh)] at e
      exact ⟨x, ⟨hx, hsh⟩, Option.some.inj e⟩
    · rintro ⟨x, ⟨hx, hsh⟩, rfl⟩
      exact ⟨_, (hd _).mpr ⟨x, hx, hsh, rfl⟩, get_num_live he hok hs hx (nog hsh)⟩
  obtain ⟨r, hr, hP⟩ := preimages Sym.stored (fun x => Live env (latest h) x ∧ Shown env (latest h) tbl u x) _
    fun y hy => (hmem y).mp hy
  refine ⟨r, ?_, fun x => ⟨hP x, fun hx => ?_⟩⟩
  · rw [hoverTextIn, hoverIn, hl, Option.map_some, Option.map_some, ← hr, List.flatMap_map]
    congr 1
    exact congrArg (fun f => List.flatMap f r) (funext fun x => showText_stored md x)
  · have : x.stored ∈ r.map Sym.stored := by rw [hr]; exact (hmem _).mpr ⟨x, hx, rfl⟩
    obtain ⟨y, hy, e⟩ := List.mem_map.mp this
    rw [stored_inj he hok hx.1 (hP y hy).1 e.symm]
    exact hy

open Classical in
/-- C126: for a call of a function that is each of them once. -/
theorem C126_functions (he : EnvOK env) (hok : HistOK env h) (hs : run env root h = some s)
    (md : Bytes → Option Bytes) (tbl : Imports.Table) (keyOf : Bytes → Bytes) (n ni : Nat) (t : Types.Ty) :
    ∃ fs : List Function, hoverTextIn env s md tbl keyOf n ni (.function t) = some (fs.flatMap (Show.functionHover md)) ∧
      fs.Nodup ∧ ∀ f, f ∈ fs ↔ Live env (latest h) (.fn f) ∧
        f.name.fqn = tbl.getFunctionReferenceFQN (fun q => decide (FunctionExists env (latest h) q)) t := by
  obtain ⟨xs, -, h2, h3, h4⟩ := scan_all kFn he hok hs
  generalize hq : tbl.getFunctionReferenceFQN (fun q => decide (FunctionExists env (latest h) q)) t = q
  have hmem : ∀ f, f ∈ (xs.filter fun a => hasPrefix (q ++ [sep]) ((kFn.con a).key env)) ↔
      Live env (latest h) (.fn f) ∧ f.name.fqn = q := by
    intro f
    rw [List.mem_filter, h3, hasPrefix_iff]
    exact and_congr_right fun hf => fqn_key he hok hf (by simp [kFn, Sym.names]) q
  refine ⟨_, ?_, h2.filter _, hmem⟩
  have e : s.getFunctions q = some _ := h4 (q ++ [sep])
  simp only [hoverTextIn, hoverIn, hover, functions_exist he hok hs, hq, Option.map_some]
  have gen : ∀ l : List Function, (∀ f ∈ l, Live env (latest h) (.fn f)) →
      (((l.map kFn.st).map fun c => num s (.fn c)).filterMap fun d => (decls s)[d]?).flatMap (showText md) =
        l.flatMap (Show.functionHover md) := by
    intro l hl
    induction l with
    | nil => rfl
    | cons f l ih =>
      have hg := get_num_live he hok hs (hl f List.mem_cons_self) (by simp)
      rw [show (Sym.fn f).stored = .fn (kFn.st f) from rfl] at hg
      rw [List.map_cons, List.map_cons, List.filterMap_cons_some hg, List.flatMap_cons, List.flatMap_cons,
        ih fun x hx => hl x (List.mem_cons_of_mem _ hx)]
      congr 1
      exact showText_stored md (.fn f)
  rw [← gen _ fun f hf => ((hmem f).mp hf).1]
  simp only [siteOf, e, Option.getD_some]

/-- A function no other function of the current files is called like: what is shown is its text alone. -/
theorem function_text (he : EnvOK env) (hok : HistOK env h) (hs : run env root h = some s)
    (md : Bytes → Option Bytes) (tbl : Imports.Table) (keyOf : Bytes → Bytes) (n ni : Nat) (t : Types.Ty) (f : Function)
    (hlive : Live env (latest h) (.fn f))
    (honly : ∀ g, Live env (latest h) (.fn g) → g.name.fqn = f.name.fqn → g = f)
    (ht : tbl.getFunctionReferenceFQN (fun q => @decide (FunctionExists env (latest h) q) (Classical.propDecidable _)) t =
      f.name.fqn) :
    hoverTextIn env s md tbl keyOf n ni (.function t) = some (Show.functionHover md f) := by
  obtain ⟨fs, hfs, hnd, hmem⟩ := C126_functions he hok hs md tbl keyOf n ni t
  have : fs = [f] := by
    have h5 : ∀ g ∈ fs, g = f := fun g hg => honly g ((hmem g).mp hg).1 (((hmem g).mp hg).2.trans ht)
    have h6 := (hmem _).mpr ⟨hlive, ht.symm⟩
    rw [List.eq_replicate_iff.mpr ⟨rfl, h5⟩] at hnd h6 ⊢
    have h7 := List.nodup_replicate.mp hnd
    cases hl : fs.length with
    | zero => rw [hl] at h6; cases h6
    | succ k =>
      have : k = 0 := by omega
      subst this
      rfl
  rw [this] at hfs
  rw [hfs, List.flatMap_cons, List.flatMap_nil, List.append_nil]

/-- C126: from the text of a file to the text on the screen. The current version of a file declares a function, which no
other function of the current files is called like. Hovering over a call that resolves to it shows `function name(parameters):
types` with the declared name, every declared parameter in order with its types, name and default value, and the types of
the `@return` tags; below it the description; whatever the history of the index. -/
theorem C126_function_shown (he : EnvOK env) (hok : HistOK env h) (hs : run env root h = some s)
    (md : Bytes → Option Bytes) (uri : Bytes) (d : Doc) (hcur : latest h uri = some d) (denv : Decl.Env)
    (ks ps es : List Analyser.Node) (name : Analyser.Tok) (doc : Option Analyser.Node)
    (hh : Decl.OnlyPhrase .functionDeclarationHeader ks (.phr .functionDeclarationHeader ps))
    (hn : Decl.OnlyToken .name ps name) (hi : Decl.NoPhrase .identifier ps)
    (hord : Decl.Ordinary (denv.ctx.tokText name)) (hp : Show.Parameters ps es)
    (hd : Decl.DocApplies denv (.phr .functionDeclaration ks) doc)
    (hf : Show.LevelsFit (Decl.newFunction denv (.phr .functionDeclaration ks))) (pre post : List Sym)
    (hin : d.symbols = pre ++ .fn (Show.toFunction uri denv (.phr .functionDeclaration ks)) :: post)
    (hlast : ∀ y ∈ post, ¬ SameDecl env (.fn (Show.toFunction uri denv (.phr .functionDeclaration ks))) y)
    (honly : ∀ g, Live env (latest h) (.fn g) →
      g.name.fqn = (Show.toFunction uri denv (.phr .functionDeclaration ks)).name.fqn →
      g = Show.toFunction uri denv (.phr .functionDeclaration ks))
    (tbl : Imports.Table) (keyOf : Bytes → Bytes) (n ni : Nat) (t : Types.Ty)
    (ht : tbl.getFunctionReferenceFQN (fun q => @decide (FunctionExists env (latest h) q) (Classical.propDecidable _)) t =
      (Show.toFunction uri denv (.phr .functionDeclaration ks)).name.fqn) :
    ∃ text params ret desc, hoverTextIn env s md tbl keyOf n ni (.function t) = some text ∧
      List.Forall₂ (Show.ParamReads denv doc) es params ∧ Show.ReturnShown (Show.Returned denv doc) ret ∧
      Show.DescriptionIs denv doc desc ∧
      Show.HoverText md (b!"function " ++ denv.ctx.tokText name ++ b!"(" ++ b!", ".intercalate params ++ b!")" ++ ret) []
        desc text := by
  have hlive : Live env (latest h) (.fn (Show.toFunction uri denv (.phr .functionDeclaration ks))) :=
    ⟨uri, d, pre, post, hcur, hin, trivial, fun y hy hc => hlast y hy hc.2⟩
  obtain ⟨u, -, hsok⟩ := live_ok he hok hlive
  obtain ⟨f, params, ret, desc, hr, h1, h2, h3, h4⟩ := Show.C117_function md uri denv ks ps es name doc [] hh hn hi hord hp
    hd hf hsok.wf
  have hfs := function_text he hok hs md tbl keyOf n ni t _ hlive honly ht
  refine ⟨_, params, ret, desc, hfs, h1, h2, h3, ?_⟩
  rw [C02_function_round_trip_partial _ hsok.wf] at hr
  injection hr with hr
  injection hr with hr _
  rw [← hr] at h4
  have h5 := showText_stored md (.fn (Show.toFunction uri denv (.phr .functionDeclaration ks)))
  simp only [showText, Sym.stored] at h5
  exact h5 ▸ h4

/-! ### examples -/

namespace Demo

open Verif.Decl (senv part sub)

/-- `function count(Foo $a, $b = 1 + 2)` with a doc comment, in `namespace App` of `a.php`. -/
def count : Function := Show.toFunction Store.Demo.uA senv (part 3)

def countDoc : Doc := ⟨Store.Demo.uA, b!"9", [.fn count], [], []⟩

/-- An older version of `a.php`, another file, and the current version of `a.php`. -/
def countHist : List HOp := [.upgrade b!"v0.0.16", .index Store.Demo.a1, .index Store.Demo.b1, .index countDoc]

theorem countDoc_ok : DocOK Store.Demo.env countDoc :=
  Store.Demo.doc_ok Store.Demo.uA_ok (by simp [Str, Store.Demo.uA]) _ _ (by decide) (by
    intro x hx
    rw [List.mem_singleton.mp hx]
    exact Store.Demo.sym_ok (show count.WF by decide +kernel) (by decide +kernel) rfl (by decide +kernel))

theorem countHist_ok : HistOK Store.Demo.env countHist where
  docs := by
    rw [show docs countHist = [Store.Demo.a1, Store.Demo.b1, countDoc] from rfl]
    simp [Store.Demo.a1_ok, Store.Demo.b1_ok, countDoc_ok]
  consts := by
    intro d1 h1 d2 h2 c1 c2 m1 m2 _ _
    rw [show docs countHist = [Store.Demo.a1, Store.Demo.b1, countDoc] from rfl] at h1 h2
    simp only [List.mem_cons, List.not_mem_nil, or_false] at h1 h2
    rcases h1 with rfl | rfl | rfl <;> rcases h2 with rfl | rfl | rfl <;>
      first
        | rfl
        | (simp [Store.Demo.a1, countDoc, Store.Demo.b1, Store.Demo.cla, Store.Demo.met, Store.Demo.pro, Store.Demo.fn,
            Store.Demo.glo, Store.Demo.claCon] at m1 m2)
  crashes := by simp [Store.Keeps, countHist]

theorem count_live {g : Function} (hg : Live Store.Demo.env (latest countHist) (.fn g)) :
    g = count ∨ g.name.fqn = b!"\\f" := by
  obtain ⟨u, d, pre, post, hu, hd, -⟩ := hg
  have hg : Sym.fn g ∈ d.symbols := by rw [hd]; simp
  simp only [latest, countHist, List.foldl_cons, List.foldl_nil, latestStep] at hu
  split at hu
  · cases hu
    left
    simpa [countDoc] using hg
  · split at hu
    · cases hu
      right
      have : Sym.fn g = Store.Demo.fn Store.Demo.uB b!"f" 2 := by
        simpa [Store.Demo.b1, Store.Demo.cla, Store.Demo.fn] using hg
      injection this with this
      rw [this]
      rfl
    · rename_i h1 h2
      rw [if_neg (show ¬ u = Store.Demo.a1.uri from h1)] at hu
      cases hu

theorem count_name : (Imports.newTable ⟨0, 0⟩).getFunctionReferenceFQN (fun q =>
      @decide (FunctionExists Store.Demo.env (latest countHist) q) (Classical.propDecidable _))
      ⟨b!"\\App\\count", b!"\\App\\count", 0⟩ = count.name.fqn := by
  have : count.name.fqn = b!"\\App\\count" := by decide +kernel
  rw [this]
  have gen : ∀ b : Bool, (if b then b!"\\App\\count" else b!"\\App\\count") = b!"\\App\\count" := by decide +kernel
  exact gen _

end Demo

open Verif.Decl in
/-- Non-vacuity of C126_function_shown, and what is shown. -/
example : EnvOK Store.Demo.env ∧ HistOK Store.Demo.env Demo.countHist ∧
    latest Demo.countHist Store.Demo.uA = some Demo.countDoc ∧
    OnlyPhrase .functionDeclarationHeader (part 3).kids (sub (part 3) 0) ∧
    (∃ t, OnlyToken .name (sub (part 3) 0).kids t ∧ Ordinary (senv.ctx.tokText t)) ∧
    NoPhrase .identifier (sub (part 3) 0).kids ∧
    Show.Parameters (sub (part 3) 0).kids
      [sub (sub (sub (part 3) 0) 4) 0, sub (sub (sub (part 3) 0) 4) 3] ∧
    DocApplies senv (part 3) (some (part 1)) ∧ Show.LevelsFit (newFunction senv (part 3)) ∧
    Demo.countDoc.symbols = [] ++ .fn (Show.toFunction Store.Demo.uA senv (part 3)) :: [] ∧
    (∀ g, Live Store.Demo.env (latest Demo.countHist) (.fn g) → g.name.fqn = Demo.count.name.fqn → g = Demo.count) ∧
    (Imports.newTable ⟨0, 0⟩).getFunctionReferenceFQN (fun q =>
      @decide (FunctionExists Store.Demo.env (latest Demo.countHist) q) (Classical.propDecidable _))
      ⟨b!"\\App\\count", b!"\\App\\count", 0⟩ = Demo.count.name.fqn ∧
    ∃ s, run Store.Demo.env Store.Demo.root Demo.countHist = some s ∧
      hoverTextIn Store.Demo.env s some (Imports.newTable ⟨0, 0⟩) id 0 0
        (.function ⟨b!"\\App\\count", b!"\\App\\count", 0⟩) =
      some b!"```php\n<?php\nfunction count(\\Lib\\Foo|\\App\\Bar|null $a, $b = 1 + 2): \\App\\Baz\n```\n\n____\nCounts.\n____\n" := by
  refine ⟨Store.Demo.env_ok, Demo.countHist_ok, by decide +kernel, OnlyPhrase.of_filter rfl,
    ⟨_, OnlyToken.of_filter rfl, by decide +kernel⟩, NoPhrase.of_filter rfl,
    .inl ⟨_, OnlyPhrase.of_filter rfl, Listed.of_filter rfl⟩, ⟨rfl, by decide +kernel⟩, by decide +kernel, rfl, ?_, ?_,
    ?_⟩
  · intro g hg e
    rcases Demo.count_live hg with rfl | h
    · rfl
    · rw [h] at e; exact absurd e (by decide +kernel)
  · exact Demo.count_name
  · obtain ⟨s, hs, -⟩ := run_inv Store.Demo.env_ok Demo.countHist_ok (root := Store.Demo.root)
    refine ⟨s, hs, ?_⟩
    rw [function_text Store.Demo.env_ok Demo.countHist_ok hs _ _ _ _ _ _ Demo.count
      ⟨Store.Demo.uA, Demo.countDoc, [], [], by decide +kernel, rfl, trivial, by simp⟩ ?_ Demo.count_name]
    · exact congrArg some (by decide +kernel)
    · intro g hg e
      rcases Demo.count_live hg with rfl | h
      · rfl
      · rw [h] at e; exact absurd e (by decide +kernel)

/-- Non-vacuity of C126_names: a class in another case, a constant that does not exist. -/
example : ∃ s, run Store.Demo.env Store.Demo.root Demo.hist = some s ∧
    [hoverTextIn Store.Demo.env s some (Imports.newTable ⟨0, 0⟩) id 0 0 (.cls [⟨b!"\\n\\foo", b!"foo", 0⟩]),
     hoverTextIn Store.Demo.env s some (Imports.newTable ⟨0, 0⟩) id 0 0 (.cls [⟨b!"\\N\\FOO", b!"FOO", 0⟩]),
     hoverTextIn Store.Demo.env s some (Imports.newTable ⟨0, 0⟩) id 0 0 (.constant ⟨b!"\\X", b!"X", 0⟩)] =
    [some [], some b!"```php\n<?php\nclass N\\Foo extends \\Base\n```\n\n____\n", some []] :=
  Store.Demo.observe _ _ (by decide +kernel)

end Verif.Whole
