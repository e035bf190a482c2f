import Verif.Whole.PropsShow
import Verif.Show.PropsClasses
import Verif.Show.PropsDefine

/-! C126 for classes, interfaces, traits and constants: from the text of a file to the text on the screen. -/

namespace Verif.Whole

open Verif.Encoding Verif.Storage Verif.Store Verif.Query

variable {env : Env} {root : Bytes} {h : List HOp} {s : Store}

theorem num_inj {x y : Sym} (hx : x ∈ decls s) (hy : y ∈ decls s) (e : num s x = num s y) : x = y := by
  have h1 := get_num hx
  rw [e, get_num hy] at h1
  exact (Option.some.inj h1).symm

/-- The numbers of the declarations that one lookup finds, each once. -/
theorem nums_once {α} (K : KindSpec α) (he : EnvOK env) (hok : HistOK env h) (hs : run env root h = some s)
    (hg : ∀ a g, K.con a ≠ .gloVar g) :
    ((scanAll s K.coll K.read).map fun a => num s (K.con a)).Nodup ∧
      ∀ p, (((scanDecode s.db (entryKey K.coll p) K.read).getD []).map fun a => num s (K.con a)).Nodup := by
  obtain ⟨xs, h1, h2, h3, h4⟩ := scan_all K he hok hs
  have key : ∀ ys : List α, ys.Sublist xs → ((ys.map K.st).map fun a => num s (K.con a)).Nodup := by
    intro ys hy
    rw [List.map_map]
    refine List.Nodup.map_on (fun x hx y hy' e => ?_) (hy.nodup h2)
    have lx := (h3 x).mp (hy.subset hx)
    have ly := (h3 y).mp (hy.subset hy')
    have ex : K.con x = K.con y := by
      refine stored_inj he hok lx ly (num_inj ((mem_decls he hok hs _).mpr ⟨_, lx, rfl, hg x⟩)
        ((mem_decls he hok hs _).mpr ⟨_, ly, rfl, hg y⟩) ?_)
      rw [K.stored, K.stored]; exact e
    exact K.con_inj _ _ ex
  refine ⟨?_, fun p => ?_⟩
  · rw [h1]; exact key xs (List.Sublist.refl _)
  · rw [h4, Option.getD_some]; exact key _ List.filter_sublist

/-- One name at one place of the text. -/
def Use.IsOne : Use → Prop
  | .cls ts | .typ ts | .intf ts | .trt ts => ∃ t, ts = [t]
  | .constant _ | .function _ => True
  | _ => False

theorem Use.IsOne.isName {u : Use} (h : Use.IsOne u) : Use.IsName u := by cases u <;> first | trivial | exact h.elim

theorem hover_once (he : EnvOK env) (hok : HistOK env h) (hs : run env root h = some s)
    (tbl : Imports.Table) (keyOf : Bytes → Bytes) (n ni : Nat) (u : Use) (hu : Use.IsOne u) (l : List Nat)
    (hl : hover (siteOf env s) tbl keyOf n ni u = some l) : l.Nodup := by
  have cls : ∀ t, (((worldOf env s).classesNamed t).map (·.decl)).Nodup := by
    intro t
    have := (nums_once kCla he hok hs (by simp [kCla])).1
    refine List.Sublist.nodup ?_ this
    rw [show ((scanAll s kCla.coll kCla.read).map fun a => num s (kCla.con a)) = (worldOf env s).classes.map (·.decl) by
      simp only [worldOf, List.map_map]; rfl]
    exact List.Sublist.map _ List.filter_sublist
  have int : ∀ t, (((worldOf env s).interfacesNamed t).map (·.decl)).Nodup := by
    intro t
    have := (nums_once kInt he hok hs (by simp [kInt])).1
    refine List.Sublist.nodup ?_ this
    rw [show ((scanAll s kInt.coll kInt.read).map fun a => num s (kInt.con a)) = (worldOf env s).interfaces.map (·.decl) by
      simp only [worldOf, List.map_map]; rfl]
    exact List.Sublist.map _ List.filter_sublist
  have trt : ∀ t, (((worldOf env s).traitsNamed t).map (·.decl)).Nodup := by
    intro t
    have := (nums_once kTra he hok hs (by simp [kTra])).1
    refine List.Sublist.nodup ?_ this
    rw [show ((scanAll s kTra.coll kTra.read).map fun a => num s (kTra.con a)) = (worldOf env s).traits.map (·.decl) by
      simp only [worldOf, List.map_map]; rfl]
    exact List.Sublist.map _ List.filter_sublist
  have inCla : ∀ t, ∀ d ∈ ((worldOf env s).classesNamed t).map (·.decl), ∃ c, Sym.cla c ∈ decls s ∧ d = num s (.cla c) := by
    intro t d hd
    obtain ⟨c, hc, rfl⟩ := List.mem_map.mp hd
    obtain ⟨x, hx, rfl⟩ := (mem_classes he hok hs _).mp ((mem_classesNamed _ _ _).mp hc).1
    exact ⟨x, (mem_decls he hok hs _).mpr ⟨_, hx, rfl, by simp⟩, rfl⟩
  have inInt : ∀ t, ∀ d ∈ ((worldOf env s).interfacesNamed t).map (·.decl), ∃ c, Sym.int c ∈ decls s ∧ d = num s (.int c) := by
    intro t d hd
    obtain ⟨c, hc, rfl⟩ := List.mem_map.mp hd
    obtain ⟨x, hx, rfl⟩ := (mem_interfaces he hok hs _).mp (List.mem_filter.mp hc).1
    exact ⟨_, (mem_decls he hok hs _).mpr ⟨_, hx, rfl, by simp⟩, rfl⟩
  have both : ∀ t, (((worldOf env s).classesNamed t).map (·.decl) ++ ((worldOf env s).interfacesNamed t).map (·.decl)).Nodup := by
    intro t
    refine List.Nodup.append (cls t) (int t) fun d h1 h2 => ?_
    obtain ⟨c, hc, rfl⟩ := inCla t d h1
    obtain ⟨i, hi, e⟩ := inInt t _ h2
    cases num_inj hc hi e
  cases u with
  | new_ _ => exact hu.elim
  | member _ _ _ _ => exact hu.elim
  | cls ts =>
    obtain ⟨t, rfl⟩ := hu
    simp only [hover, List.flatMap_cons, List.flatMap_nil, List.append_nil, Option.some.injEq] at hl
    rw [← hl]; exact both _
  | typ ts =>
    obtain ⟨t, rfl⟩ := hu
    simp only [hover, List.flatMap_cons, List.flatMap_nil, List.append_nil, Option.some.injEq] at hl
    rw [← hl]; exact both _
  | intf ts =>
    obtain ⟨t, rfl⟩ := hu
    simp only [hover, List.flatMap_cons, List.flatMap_nil, List.append_nil, Option.some.injEq] at hl
    rw [← hl]; exact int _
  | trt ts =>
    obtain ⟨t, rfl⟩ := hu
    simp only [hover, List.flatMap_cons, List.flatMap_nil, List.append_nil, Option.some.injEq] at hl
    rw [← hl]; exact trt _
  | function t =>
    simp only [hover, Option.some.injEq] at hl
    rw [← hl]
    exact (nums_once kFn he hok hs (by simp [kFn])).2 _
  | constant t =>
    simp only [hover, Option.some.injEq] at hl
    rw [← hl]
    refine List.Nodup.append ((nums_once kCon he hok hs (by simp [kCon])).2 _)
      ((nums_once kDef he hok hs (by simp [kDef])).2 _) fun d h1 h2 => ?_
    obtain ⟨c, hc, -, e1⟩ := (const_nums he hok hs _ _).mp h1
    obtain ⟨i, hi, -, e2⟩ := (define_nums he hok hs _ _).mp h2
    cases num_inj ((mem_decls he hok hs (.con c)).mpr ⟨_, hc, rfl, by simp⟩)
      ((mem_decls he hok hs (.def_ i)).mpr ⟨_, hi, rfl, by simp⟩) (e1.trans e2.symm)

/-- A declaration that is the only one a name stands for: what is shown is its text alone. -/
theorem text_alone (he : EnvOK env) (hsl : env.LowerSlash) (hok : HistOK env h) (hs : run env root h = some s)
    (md : Bytes → Option Bytes) (tbl : Imports.Table) (keyOf : Bytes → Bytes) (n ni : Nat) (u : Use) (hu : Use.IsOne u)
    (x : Sym) (hx : Live env (latest h) x) (hsh : Shown env (latest h) tbl u x)
    (honly : ∀ y, Live env (latest h) y → Shown env (latest h) tbl u y → y = x) :
    hoverTextIn env s md tbl keyOf n ni u = some (showText md x) := by
  obtain ⟨l, hl, hd⟩ := hover_names he hsl hok hs tbl keyOf n ni u hu.isName
  have hnd := hover_once he hok hs tbl keyOf n ni u hu l hl
  have hg : ∀ g, x ≠ .gloVar g := by rintro g rfl; cases hsh
  have : l = [num s x.stored] := by
    have h5 : ∀ d ∈ l, d = num s x.stored := fun d hd' => by
      obtain ⟨y, h1, h2, rfl⟩ := (hd d).mp hd'
      rw [honly y h1 h2]
    have h6 := (hd _).mpr ⟨x, hx, hsh, rfl⟩
    rw [List.eq_replicate_iff.mpr ⟨rfl, h5⟩] at hnd h6 ⊢
    have h7 := List.nodup_replicate.mp hnd
    cases hl : l.length with
    | zero => rw [hl] at h6; cases h6
    | succ k =>
      have : k = 0 := by omega
      subst this
      rfl
  rw [hoverTextIn, hoverIn, hl, this]
  simp only [Option.map_some, List.filterMap_cons, List.filterMap_nil, get_num_live he hok hs hx hg, List.flatMap_cons,
    List.flatMap_nil, List.append_nil, showText_stored]

/-- The current version of the file `uri` declares `x`, which no other declaration after it in the file replaces. -/
def DeclaredIn (env : Env) (L : Bytes → Option Doc) (uri : Bytes) (x : Sym) : Prop :=
  ∃ d pre post, L uri = some d ∧ d.symbols = pre ++ x :: post ∧ ∀ y ∈ post, ¬ SameDecl env x y

theorem DeclaredIn.live {L : Bytes → Option Doc} {uri : Bytes} {x : Sym} (hd : DeclaredIn env L uri x) (hi : x.Indexed) :
    Live env L x := by
  obtain ⟨d, pre, post, h1, h2, h3⟩ := hd
  exact ⟨uri, d, pre, post, h1, h2, hi, fun y hy hc => h3 y hy hc.2⟩

/-- C126: the current version of a file declares a class, and the name under the cursor stands for nothing else. Whatever
the history of the index, hovering shows `class Name extends \Parent implements I, J` with the declared name, the full name
of the parent if it has one, and the interfaces as they are written; below it the description. -/
theorem C126_class_shown (he : EnvOK env) (hsl : env.LowerSlash) (hok : HistOK env h) (hs : run env root h = some s)
    (md : Bytes → Option Bytes) (uri : Bytes) (denv : Decl.Env) (ks hd es : List Analyser.Node) (name : Analyser.Tok)
    (parent doc : Option Analyser.Node)
    (hh : Decl.OnlyPhrase .classDeclarationHeader ks (.phr .classDeclarationHeader hd)) (hn : Decl.OnlyToken .name hd name)
    (hpl : Show.PlainName (denv.ctx.tokText name)) (hp : Show.ParentWritten hd parent)
    (hpn : ∀ x, parent = some x → Show.PlainName (denv.ctx.nodeText x)) (hi : Show.InterfacesWritten hd es)
    (hin : ∀ e ∈ es, Show.PlainName (denv.ctx.nodeText e)) (hdoc : Decl.DocApplies denv (.phr .classDeclaration ks) doc)
    (hx : DeclaredIn env (latest h) uri (.cla (Show.newClassSymbol uri denv (.phr .classDeclaration ks))))
    (tbl : Imports.Table) (keyOf : Bytes → Bytes) (n ni : Nat) (u : Use) (hu : Use.IsOne u)
    (hsh : Shown env (latest h) tbl u (.cla (Show.newClassSymbol uri denv (.phr .classDeclaration ks))))
    (honly : ∀ y, Live env (latest h) y → Shown env (latest h) tbl u y →
      y = .cla (Show.newClassSymbol uri denv (.phr .classDeclaration ks))) :
    ∃ text ext impl desc, hoverTextIn env s md tbl keyOf n ni u = some text ∧
      Show.ParentShown denv parent ext ∧ Show.ListShown denv b!" implements " es impl ∧ Show.DescriptionIs denv doc desc ∧
      Show.HoverText md (b!"class " ++ denv.ctx.tokText name ++ ext ++ impl) [] desc text := by
  have hlive := hx.live trivial
  obtain ⟨_, -, hsok⟩ := live_ok he hok hlive
  obtain ⟨c, ext, impl, desc, hr, h1, h2, h3, h4⟩ := Show.C119_class md uri denv ks hd es name parent doc [] hh hn hpl hp hpn
    hi hin hdoc hsok.wf
  rw [C02_class_round_trip _ hsok.wf] at hr
  cases hr
  exact ⟨_, ext, impl, desc, text_alone he hsl hok hs md tbl keyOf n ni u hu _ hlive hsh honly, h1, h2, h3, h4⟩

/-- C126: an interface is shown as `interface Name extends I, J`. -/
theorem C126_interface_shown (he : EnvOK env) (hsl : env.LowerSlash) (hok : HistOK env h) (hs : run env root h = some s)
    (md : Bytes → Option Bytes) (uri : Bytes) (denv : Decl.Env) (ks hd es : List Analyser.Node) (name : Analyser.Tok)
    (doc : Option Analyser.Node)
    (hh : Decl.OnlyPhrase .interfaceDeclarationHeader ks (.phr .interfaceDeclarationHeader hd))
    (hn : Decl.OnlyToken .name hd name)
    (hpl : Show.PlainName (denv.ctx.tokText name)) (hi : Show.BasesWritten hd es)
    (hin : ∀ e ∈ es, Show.PlainName (denv.ctx.nodeText e) ∧ denv.ctx.nodeText e ≠ b!"\\")
    (hdoc : Decl.DocApplies denv (.phr .interfaceDeclaration ks) doc)
    (hx : DeclaredIn env (latest h) uri (.int (Show.newInterfaceSymbol uri denv (.phr .interfaceDeclaration ks))))
    (tbl : Imports.Table) (keyOf : Bytes → Bytes) (n ni : Nat) (u : Use) (hu : Use.IsOne u)
    (hsh : Shown env (latest h) tbl u (.int (Show.newInterfaceSymbol uri denv (.phr .interfaceDeclaration ks))))
    (honly : ∀ y, Live env (latest h) y → Shown env (latest h) tbl u y →
      y = .int (Show.newInterfaceSymbol uri denv (.phr .interfaceDeclaration ks))) :
    ∃ text ext desc, hoverTextIn env s md tbl keyOf n ni u = some text ∧
      Show.ListShown denv b!" extends " es ext ∧ Show.DescriptionIs denv doc desc ∧
      Show.HoverText md (b!"interface " ++ denv.ctx.tokText name ++ ext) [] desc text := by
  have hlive := hx.live trivial
  obtain ⟨_, -, hsok⟩ := live_ok he hok hlive
  obtain ⟨c, ext, desc, hr, h1, h2, h3⟩ := Show.C119_interface md uri denv ks hd es name doc [] hh hn hpl hi hin hdoc hsok.wf
  rw [C02_interface_round_trip _ hsok.wf] at hr
  cases hr
  exact ⟨_, ext, desc, text_alone he hsl hok hs md tbl keyOf n ni u hu _ hlive hsh honly, h1, h2, h3⟩

/-- C126: a trait is shown as `trait Name`. -/
theorem C126_trait_shown (he : EnvOK env) (hsl : env.LowerSlash) (hok : HistOK env h) (hs : run env root h = some s)
    (md : Bytes → Option Bytes) (uri : Bytes) (denv : Decl.Env) (ks hd : List Analyser.Node) (name : Analyser.Tok)
    (hh : Decl.OnlyPhrase .traitDeclarationHeader ks (.phr .traitDeclarationHeader hd)) (hn : Decl.OnlyToken .name hd name)
    (hpl : Show.PlainName (denv.ctx.tokText name))
    (hx : DeclaredIn env (latest h) uri (.tra (Show.newTraitSymbol uri denv (.phr .traitDeclaration ks))))
    (tbl : Imports.Table) (keyOf : Bytes → Bytes) (n ni : Nat) (u : Use) (hu : Use.IsOne u)
    (hsh : Shown env (latest h) tbl u (.tra (Show.newTraitSymbol uri denv (.phr .traitDeclaration ks))))
    (honly : ∀ y, Live env (latest h) y → Shown env (latest h) tbl u y →
      y = .tra (Show.newTraitSymbol uri denv (.phr .traitDeclaration ks))) :
    ∃ text, hoverTextIn env s md tbl keyOf n ni u = some text ∧
      Show.HoverText some (b!"trait " ++ denv.ctx.tokText name) [] [] text := by
  have hlive := hx.live trivial
  obtain ⟨_, -, hsok⟩ := live_ok he hok hlive
  obtain ⟨c, hr, h1⟩ := Show.C119_trait uri denv ks hd name [] hh hn hpl hsok.wf
  rw [C02_trait_round_trip _ hsok.wf] at hr
  cases hr
  exact ⟨_, text_alone he hsl hok hs md tbl keyOf n ni u hu _ hlive hsh honly, h1⟩

/-- C126: a constant is shown as `const NAME = value`, and below it `\Full\NAME = value; description`. -/
theorem C126_constant_shown (he : EnvOK env) (hsl : env.LowerSlash) (hok : HistOK env h) (hs : run env root h = some s)
    (md : Bytes → Option Bytes) (uri : Bytes) (denv : Decl.Env) (e : Analyser.Node) (before : List Analyser.Node)
    (value : Option (List Analyser.Node)) (name : Analyser.Tok) (doc : Option Analyser.Node)
    (hv : Decl.HasValue (e.kids.filter fun k => Decl.tokType? k ≠ some .name) before value)
    (hn : Decl.OnlyToken .name e.kids name) (ho : Decl.Ordinary (denv.ctx.tokText name)) (hdoc : Decl.DocApplies denv e doc)
    (hx : DeclaredIn env (latest h) uri (.con (Show.toConst uri (Decl.newConst denv e))))
    (tbl : Imports.Table) (keyOf : Bytes → Bytes) (n ni : Nat) (u : Use) (hu : Use.IsOne u)
    (hsh : Shown env (latest h) tbl u (.con (Show.toConst uri (Decl.newConst denv e))))
    (honly : ∀ y, Live env (latest h) y → Shown env (latest h) tbl u y → y = .con (Show.toConst uri (Decl.newConst denv e))) :
    ∃ text desc, hoverTextIn env s md tbl keyOf n ni u = some text ∧ Show.DescriptionIs denv doc desc ∧
      Show.HoverText md (b!"const " ++ denv.ctx.tokText name ++ Show.valueShown (Decl.textOf denv.ctx (value.getD []))) []
        (Imports.inNamespace denv.table.getNamespace (denv.ctx.tokText name) ++ b!" = " ++
          Decl.textOf denv.ctx (value.getD []) ++ b!"; " ++ desc) text := by
  have hlive := hx.live trivial
  obtain ⟨_, -, hsok⟩ := live_ok he hok hlive
  obtain ⟨c, desc, hr, h1, h2⟩ := Show.C119_constant md uri denv e before value name doc [] hv hn ho hdoc hsok.wf
  rw [C02_const_round_trip _ hsok.wf] at hr
  cases hr
  exact ⟨_, desc, text_alone he hsl hok hs md tbl keyOf n ni u hu _ hlive hsh honly, h1, h2⟩

/-- C126: a constant of `define` is shown as `define('\Full\NAME', value)`, and below it `\Full\NAME = value;
description`. -/
theorem C126_define_shown (he : EnvOK env) (hsl : env.LowerSlash) (hok : HistOK env h) (hs : run env root h = some s)
    (md : Bytes → Option Bytes) (uri : Bytes) (denv : Decl.Env) (e args : Analyser.Node) (name : Bytes)
    (value doc : Option Analyser.Node)
    (ha : Decl.OnlyPhrase .argumentExpressionList e.kids args) (hw : Show.DefineWritten denv.ctx args.kids name value)
    (ho : Decl.Ordinary name) (hdoc : Decl.DocApplies denv e doc) (r : Decl.ConstRec) (hr : Show.newDefine denv e = some r)
    (hx : DeclaredIn env (latest h) uri (.def_ (Show.toConst uri r)))
    (tbl : Imports.Table) (keyOf : Bytes → Bytes) (n ni : Nat) (u : Use) (hu : Use.IsOne u)
    (hsh : Shown env (latest h) tbl u (.def_ (Show.toConst uri r)))
    (honly : ∀ y, Live env (latest h) y → Shown env (latest h) tbl u y → y = .def_ (Show.toConst uri r)) :
    ∃ text desc, hoverTextIn env s md tbl keyOf n ni u = some text ∧ Show.DescriptionIs denv doc desc ∧
      Show.HoverText md (b!"define('" ++ Imports.inNamespace denv.table.getNamespace name ++ b!"'" ++
          Show.argumentShown ((value.map denv.ctx.nodeText).getD []) ++ b!")") []
        (Imports.inNamespace denv.table.getNamespace name ++ b!" = " ++ (value.map denv.ctx.nodeText).getD [] ++ b!"; " ++
          desc) text := by
  have hlive := hx.live trivial
  obtain ⟨_, -, hsok⟩ := live_ok he hok hlive
  obtain ⟨r', hr', hall⟩ := Show.C119_define md uri denv e args name value doc [] ha hw ho hdoc
  rw [hr] at hr'
  cases hr'
  obtain ⟨c, desc, hrd, h1, h2⟩ := hall hsok.wf
  rw [C02_const_round_trip _ hsok.wf] at hrd
  cases hrd
  exact ⟨_, desc, text_alone he hsl hok hs md tbl keyOf n ni u hu _ hlive hsh honly, h1, h2⟩

/-! ### examples -/

namespace Demo

open Verif.Show (hEnv hPart dEnv dPart)

/-- An older version of `a.php`, and then this one. -/
def oneHist (d : Doc) : List HOp := [.upgrade b!"v0.0.16", .index Store.Demo.a1, .index d]

theorem oneHist_ok {d : Doc} (hd : DocOK Store.Demo.env d) (hc : ∀ c, Sym.claCon c ∉ d.symbols) :
    HistOK Store.Demo.env (oneHist d) where
  docs := by
    rw [show docs (oneHist d) = [Store.Demo.a1, d] from rfl]
    simp [Store.Demo.a1_ok, hd]
  consts := by
    intro d1 h1 d2 h2 c1 c2 m1 m2 _ _
    rw [show docs (oneHist d) = [Store.Demo.a1, d] from rfl] at h1 h2
    simp only [List.mem_cons, List.not_mem_nil, or_false] at h1 h2
    rcases h1 with rfl | rfl
    · rcases h2 with rfl | rfl
      · rfl
      · exact absurd m2 (hc _)
    · exact absurd m1 (hc _)
  crashes := by simp [Store.Keeps, oneHist]

theorem one_mem {d : Doc} (hd : d.uri = Store.Demo.uA) {x : Sym} (hx : Live Store.Demo.env (latest (oneHist d)) x) :
    x ∈ d.symbols := by
  obtain ⟨u, d', pre, post, hu, he, -⟩ := hx
  have : d' = d := by
    simp only [latest, oneHist, List.foldl_cons, List.foldl_nil, latestStep, hd] at hu
    split at hu
    · exact (Option.some.inj hu).symm
    · rename_i h1
      rw [if_neg (show ¬ u = Store.Demo.a1.uri from h1)] at hu
      cases hu
  subst this
  rw [he]; simp

theorem one_at {d : Doc} (hd : d.uri = Store.Demo.uA) : latest (oneHist d) Store.Demo.uA = some d := by
  simp [latest, oneHist, latestStep, hd]

/-- `class B extends Foo implements I, \J`, `interface K extends I, J`, `trait T` and `const MAX = 7` in `namespace App`. -/
def showDoc : Doc := ⟨Store.Demo.uA, b!"9",
  [.cla (Show.newClassSymbol Store.Demo.uA hEnv (hPart 4)), .int (Show.newInterfaceSymbol Store.Demo.uA hEnv (hPart 5)),
   .tra (Show.newTraitSymbol Store.Demo.uA hEnv (hPart 6)),
   .con (Show.toConst Store.Demo.uA (Decl.newConst hEnv (hPart 8)))], [], []⟩

theorem showDoc_ok : DocOK Store.Demo.env showDoc :=
  Store.Demo.doc_ok Store.Demo.uA_ok (by simp [Str, Store.Demo.uA]) _ _ (by decide) (by
    intro x hx
    simp only [List.mem_cons, List.not_mem_nil, or_false] at hx
    rcases hx with rfl | rfl | rfl | rfl
    · exact Store.Demo.sym_ok (show (Show.newClassSymbol Store.Demo.uA hEnv (hPart 4)).WF by decide +kernel)
        (by decide +kernel) rfl (by decide +kernel)
    · exact Store.Demo.sym_ok (show (Show.newInterfaceSymbol Store.Demo.uA hEnv (hPart 5)).WF by decide +kernel)
        (by decide +kernel) rfl (by decide +kernel)
    · exact Store.Demo.sym_ok (show (Show.newTraitSymbol Store.Demo.uA hEnv (hPart 6)).WF by decide +kernel)
        (by decide +kernel) rfl (by decide +kernel)
    · exact Store.Demo.sym_ok (show (Show.toConst Store.Demo.uA (Decl.newConst hEnv (hPart 8))).WF by decide +kernel)
        (by decide +kernel) rfl (by decide +kernel))

theorem showHist_ok : HistOK Store.Demo.env (oneHist showDoc) := oneHist_ok showDoc_ok (by simp [showDoc])

/-- What `define('MAX', 7)` in `namespace App` declares. -/
def max : Decl.ConstRec := (Show.newDefine dEnv (dPart 3)).getD ⟨⟨⟨0, 0⟩, ⟨0, 0⟩⟩, ⟨[], [], 0⟩, [], [], none⟩

def defDoc : Doc := ⟨Store.Demo.uA, b!"9", [.def_ (Show.toConst Store.Demo.uA max)], [], []⟩

theorem defDoc_ok : DocOK Store.Demo.env defDoc :=
  Store.Demo.doc_ok Store.Demo.uA_ok (by simp [Str, Store.Demo.uA]) _ _ (by decide) (by
    intro x hx
    rw [List.mem_singleton.mp hx]
    exact Store.Demo.sym_ok (show (Show.toConst Store.Demo.uA max).WF by decide +kernel) (by decide +kernel) rfl
      (by decide +kernel))

theorem defHist_ok : HistOK Store.Demo.env (oneHist defDoc) := oneHist_ok defDoc_ok (by simp [defDoc])

theorem const_name (L : Bytes → Option Doc) : (Imports.newTable ⟨0, 0⟩).getConstReferenceFQN
      (fun q => @decide (ConstExists Store.Demo.env L q) (Classical.propDecidable _))
      (fun q => @decide (DefineExists Store.Demo.env L q) (Classical.propDecidable _))
      ⟨b!"\\App\\MAX", b!"\\App\\MAX", 0⟩ = b!"\\App\\MAX" := by
  have gen : ∀ a b : Bool, (if a then b!"\\App\\MAX" else if b then b!"\\App\\MAX" else b!"\\App\\MAX") = b!"\\App\\MAX" := by
    decide +kernel
  exact gen _ _

end Demo

open Verif.Show in
open Verif.Decl in
/-- Non-vacuity of `C126_class_shown`: the class, by its name. -/
example : HistOK Store.Demo.env (Demo.oneHist Demo.showDoc) ∧
    DeclaredIn Store.Demo.env (latest (Demo.oneHist Demo.showDoc)) Store.Demo.uA
      (.cla (newClassSymbol Store.Demo.uA hEnv (hPart 4))) ∧
    Shown Store.Demo.env (latest (Demo.oneHist Demo.showDoc)) (Imports.newTable ⟨0, 0⟩) (.cls [⟨b!"\\App\\B", b!"B", 0⟩])
      (.cla (newClassSymbol Store.Demo.uA hEnv (hPart 4))) ∧
    (∀ y, Live Store.Demo.env (latest (Demo.oneHist Demo.showDoc)) y →
      Shown Store.Demo.env (latest (Demo.oneHist Demo.showDoc)) (Imports.newTable ⟨0, 0⟩) (.cls [⟨b!"\\App\\B", b!"B", 0⟩]) y →
      y = .cla (newClassSymbol Store.Demo.uA hEnv (hPart 4))) ∧
    ∃ s, run Store.Demo.env Store.Demo.root (Demo.oneHist Demo.showDoc) = some s ∧
      hoverTextIn Store.Demo.env s some (Imports.newTable ⟨0, 0⟩) id 0 0 (.cls [⟨b!"\\App\\B", b!"B", 0⟩]) =
        some b!"```php\n<?php\nclass B extends \\Lib\\Foo implements I, \\J\n```\n\n____\nOld.\n____\n" := by
  have h1 : DeclaredIn Store.Demo.env (latest (Demo.oneHist Demo.showDoc)) Store.Demo.uA
      (.cla (newClassSymbol Store.Demo.uA hEnv (hPart 4))) :=
    ⟨Demo.showDoc, [], _, Demo.one_at rfl, rfl, by simp [SameDecl, Sym.kind]⟩
  have h2 : Shown Store.Demo.env (latest (Demo.oneHist Demo.showDoc)) (Imports.newTable ⟨0, 0⟩)
      (.cls [⟨b!"\\App\\B", b!"B", 0⟩]) (.cla (newClassSymbol Store.Demo.uA hEnv (hPart 4))) :=
    ⟨_, .inl rfl, _, List.mem_singleton.mpr rfl, (classFQNLower_eq_iff Store.Demo.lower_slash _ _).mp (by decide +kernel)⟩
  have h3 : ∀ y, Live Store.Demo.env (latest (Demo.oneHist Demo.showDoc)) y →
      Shown Store.Demo.env (latest (Demo.oneHist Demo.showDoc)) (Imports.newTable ⟨0, 0⟩) (.cls [⟨b!"\\App\\B", b!"B", 0⟩]) y →
      y = .cla (newClassSymbol Store.Demo.uA hEnv (hPart 4)) := by
    intro y hy hsh
    have := Demo.one_mem rfl hy
    simp only [Demo.showDoc, List.mem_cons, List.not_mem_nil, or_false] at this
    rcases this with rfl | rfl | rfl | rfl
    · rfl
    · obtain ⟨ts, hts, t, ht, e⟩ := hsh
      have : ts = [⟨b!"\\App\\B", b!"B", 0⟩] := by rcases hts with e | e | e <;> cases e; rfl
      subst this
      rw [List.mem_singleton.mp ht] at e
      exact absurd e (by decide +kernel)
    · obtain ⟨ts, e, -⟩ := hsh; cases e
    · obtain ⟨ts, e, -⟩ := hsh; cases e
  refine ⟨Demo.showHist_ok, h1, h2, h3, ?_⟩
  obtain ⟨s, hs, -⟩ := run_inv Store.Demo.env_ok Demo.showHist_ok (root := Store.Demo.root)
  refine ⟨s, hs, ?_⟩
  rw [text_alone Store.Demo.env_ok Store.Demo.lower_slash Demo.showHist_ok hs _ _ _ _ _ _
      (show Use.IsOne (.cls [⟨b!"\\App\\B", b!"B", 0⟩]) from ⟨_, rfl⟩) _ (h1.live trivial) h2 h3]
  exact congrArg some (by decide +kernel)

open Verif.Show in
open Verif.Decl in
/-- Non-vacuity of `C126_define_shown` and `C126_constant_shown`: the same name declared with `define` in one history and
with `const` in another. The conditions on the tree are those of the examples of C119. -/
example : HistOK Store.Demo.env (Demo.oneHist Demo.defDoc) ∧ newDefine dEnv (dPart 3) = some Demo.max ∧
    DeclaredIn Store.Demo.env (latest (Demo.oneHist Demo.defDoc)) Store.Demo.uA (.def_ (toConst Store.Demo.uA Demo.max)) ∧
    DeclaredIn Store.Demo.env (latest (Demo.oneHist Demo.showDoc)) Store.Demo.uA
      (.con (toConst Store.Demo.uA (newConst hEnv (hPart 8)))) ∧
    Shown Store.Demo.env (latest (Demo.oneHist Demo.defDoc)) (Imports.newTable ⟨0, 0⟩)
      (.constant ⟨b!"\\App\\MAX", b!"\\App\\MAX", 0⟩) (.def_ (toConst Store.Demo.uA Demo.max)) ∧
    Shown Store.Demo.env (latest (Demo.oneHist Demo.showDoc)) (Imports.newTable ⟨0, 0⟩)
      (.constant ⟨b!"\\App\\MAX", b!"\\App\\MAX", 0⟩) (.con (toConst Store.Demo.uA (newConst hEnv (hPart 8)))) ∧
    (∃ s, run Store.Demo.env Store.Demo.root (Demo.oneHist Demo.defDoc) = some s ∧
      hoverTextIn Store.Demo.env s some (Imports.newTable ⟨0, 0⟩) id 0 0 (.constant ⟨b!"\\App\\MAX", b!"\\App\\MAX", 0⟩) =
        some b!"```php\n<?php\ndefine('\\App\\MAX', 7)\n```\n\n____\n\\App\\MAX = 7; Old.\n____\n") ∧
    (∃ s, run Store.Demo.env Store.Demo.root (Demo.oneHist Demo.showDoc) = some s ∧
      hoverTextIn Store.Demo.env s some (Imports.newTable ⟨0, 0⟩) id 0 0 (.constant ⟨b!"\\App\\MAX", b!"\\App\\MAX", 0⟩) =
        some b!"```php\n<?php\nconst MAX = 7\n```\n\n____\n\\App\\MAX = 7; Old.\n____\n") := by
  have h1 : DeclaredIn Store.Demo.env (latest (Demo.oneHist Demo.defDoc)) Store.Demo.uA
      (.def_ (toConst Store.Demo.uA Demo.max)) := ⟨Demo.defDoc, [], [], Demo.one_at rfl, rfl, by simp⟩
  have h2 : DeclaredIn Store.Demo.env (latest (Demo.oneHist Demo.showDoc)) Store.Demo.uA
      (.con (toConst Store.Demo.uA (newConst hEnv (hPart 8)))) := ⟨Demo.showDoc, [_, _, _], [], Demo.one_at rfl, rfl, by simp⟩
  have h3 : Shown Store.Demo.env (latest (Demo.oneHist Demo.defDoc)) (Imports.newTable ⟨0, 0⟩)
      (.constant ⟨b!"\\App\\MAX", b!"\\App\\MAX", 0⟩) (.def_ (toConst Store.Demo.uA Demo.max)) :=
    ⟨_, rfl, (show (toConst Store.Demo.uA Demo.max).name.fqn = b!"\\App\\MAX" by decide +kernel).trans (Demo.const_name _).symm⟩
  have h4 : Shown Store.Demo.env (latest (Demo.oneHist Demo.showDoc)) (Imports.newTable ⟨0, 0⟩)
      (.constant ⟨b!"\\App\\MAX", b!"\\App\\MAX", 0⟩) (.con (toConst Store.Demo.uA (newConst hEnv (hPart 8)))) :=
    ⟨_, rfl, (show (toConst Store.Demo.uA (newConst hEnv (hPart 8))).name.fqn = b!"\\App\\MAX" by decide +kernel).trans
      (Demo.const_name _).symm⟩
  refine ⟨Demo.defHist_ok, by decide +kernel, h1, h2, h3, h4, ?_, ?_⟩
  · obtain ⟨s, hs, -⟩ := run_inv Store.Demo.env_ok Demo.defHist_ok (root := Store.Demo.root)
    refine ⟨s, hs, ?_⟩
    rw [text_alone Store.Demo.env_ok Store.Demo.lower_slash Demo.defHist_ok hs _ _ _ _ _ _
      (show Use.IsOne (.constant ⟨b!"\\App\\MAX", b!"\\App\\MAX", 0⟩) from trivial) _ (h1.live trivial) h3 fun y hy _ => by
      simpa [Demo.defDoc] using Demo.one_mem rfl hy]
    exact congrArg some (by decide +kernel)
  · obtain ⟨s, hs, -⟩ := run_inv Store.Demo.env_ok Demo.showHist_ok (root := Store.Demo.root)
    refine ⟨s, hs, ?_⟩
    rw [text_alone Store.Demo.env_ok Store.Demo.lower_slash Demo.showHist_ok hs _ _ _ _ _ _
      (show Use.IsOne (.constant ⟨b!"\\App\\MAX", b!"\\App\\MAX", 0⟩) from trivial) _ (h2.live trivial) h4 ?_]
    · exact congrArg some (by decide +kernel)
    · intro y hy hsh
      have := Demo.one_mem rfl hy
      simp only [Demo.showDoc, List.mem_cons, List.not_mem_nil, or_false] at this
      rcases this with rfl | rfl | rfl | rfl
      · obtain ⟨ts, e, -⟩ := hsh; rcases e with e | e <;> cases e
      · obtain ⟨ts, e, -⟩ := hsh; rcases e with e | e | e <;> cases e
      · obtain ⟨ts, e, -⟩ := hsh; cases e
      · rfl

end Verif.Whole
