import Verif.Query.Hover
import Verif.Query.PropsRefer

/-! C88, C89: hovering and signature help show the declarations that a use refers to. -/

namespace Verif.Query

open Verif.Types Verif.Imports

/-- C88: hovering over the name of a class, interface or trait (other than after `new`), over a function call or a
constant shows exactly the declarations it refers to. Missing: names of interfaces and traits in another case
(`C88_false_case`). -/
theorem C88_names_partial (s : Site) (tbl : Table) (keyOf : Bytes → Bytes) (n ni : Nat) (u : Use)
    (hu : match u with
      | .new_ _ => False
      | .member _ _ _ _ => False
      | _ => True)
    (hd : ∀ t ∈ u.names, AsDeclared s.world t.fqn) :
    ∃ r, hover s tbl keyOf n ni u = some r ∧ ∀ d, d ∈ r ↔ Refers s tbl d u := by
  have maps : ∀ {α : Type} (f : Ty → List α) (g : α → Nat) (ts : List Ty),
      (ts.flatMap f).map g = ts.flatMap fun t => (f t).map g := fun f g ts => List.map_flatMap
  cases u with
  | new_ _ => cases hu
  | member _ _ _ _ => cases hu
  | cls ts =>
    refine ⟨_, rfl, fun d => ?_⟩
    simp only [maps, List.mem_append, List.mem_flatMap, class_decls, Refers, ← exists_or, ← and_or_left]
    exact exists_congr fun t => and_congr_right fun ht => by rw [interface_decls _ _ (hd t ht)]
  | typ ts =>
    refine ⟨_, rfl, fun d => ?_⟩
    simp only [maps, List.mem_append, List.mem_flatMap, class_decls, Refers, ← exists_or, ← and_or_left]
    exact exists_congr fun t => and_congr_right fun ht => by rw [interface_decls _ _ (hd t ht)]
  | intf ts =>
    refine ⟨_, rfl, fun d => ?_⟩
    simp only [maps, List.mem_flatMap, Refers]
    exact exists_congr fun t => and_congr_right fun ht => by rw [interface_decls _ _ (hd t ht)]
  | trt ts =>
    refine ⟨_, rfl, fun d => ?_⟩
    simp only [maps, List.mem_flatMap, Refers]
    exact exists_congr fun t => and_congr_right fun ht => by rw [trait_decls _ _ (hd t ht)]
  | function name => exact ⟨_, rfl, fun d => Iff.rfl⟩
  | constant name => exact ⟨_, rfl, fun d => by simp only [List.mem_append, Refers]⟩

/-- C88: for accesses of members, function calls, constants and traits, go to definition leads exactly to what hovering
shows, apart from declarations in files that cannot be opened. So what C78 says about members holds for hovering. -/
theorem C88_same (s : Site) (tbl : Table) (keyOf : Bytes → Bytes) (n ni : Nat) (u : Use)
    (hu : match u with
      | .trt _ => True
      | .constant _ => True
      | .function _ => True
      | .member _ _ _ _ => True
      | _ => False) :
    definition s tbl keyOf n ni u = (hover s tbl keyOf n ni u).map fun r => r.filter s.navigable := by
  cases u with
  | trt ts => simp only [definition, locations, hover, Option.map_some, List.map_flatMap]
  | constant _ => rfl
  | function _ => rfl
  | member _ _ _ _ => rfl
  | new_ _ => cases hu
  | cls _ => cases hu
  | intf _ => cases hu
  | typ _ => cases hu

/-- The public constructor that an object of the class `c` gets: that of the nearest class of the lineage that has one
itself or from a trait, or one that an interface asks for if no class has one. -/
def ConstructorOf (w : World) (l : List Cls) (m : Member) : Prop :=
  m.vis = .pub ∧
    ((∃ near d far, l = near ++ d :: far ∧ Own w .method b!"__construct" d m ∧
        ∀ e ∈ near, ∀ x, Own w .method b!"__construct" e x → x.vis ≠ .pub) ∨
      ((∃ d ∈ l, OfInterface w .method b!"__construct" d m) ∧
        ∀ e ∈ l, ∀ x, Own w .method b!"__construct" e x → x.vis ≠ .pub))

/-- There is no public constructor. -/
def NoConstructor (w : World) (l : List Cls) : Prop :=
  ∀ d ∈ l, ∀ x, Own w .method b!"__construct" d x ∨ OfInterface w .method b!"__construct" d x → x.vis ≠ .pub

theorem constructors_single (w : World) (hw : Distinct w) (hap : Apart w) (n ni : Nat) (c : Cls) (hc : c ∈ w.classes)
    (p : List Found × St) (h : constructors w n ni [c] St.new = some p) :
    ∃ l, Lineage w c l ∧ ((p.1 = [] ∧ NoConstructor w l) ∨ ∃ f, p.1 = [f] ∧ ConstructorOf w l f.member) := by
  simp only [constructors] at h
  cases hl : getClassMethods w n ni c b!"__construct" none St.new with
  | none => rw [hl] at h; cases h
  | some q =>
    rw [hl] at h
    simp only [Option.map_some, List.append_nil] at h
    injection h with h
    have hl' : classLookup w n ni .method b!"__construct" c none St.new = some q := by
      rw [← hl]; rfl
    obtain ⟨-, l, I, hlin, hm, hI⟩ := classLookup_order hw hap hc (u := .method) (by decide) hl'
    refine ⟨l, hlin, ?_⟩
    have hp : p.1 = q.1.reduceFirst.toList := by rw [← h]
    rw [hp]
    cases hf : q.1.reduceFirst with
    | none =>
      left
      refine ⟨rfl, fun d hd x hx hpub => ?_⟩
      have hno : ∀ f ∈ q.1.members, f.member.vis ≠ .pub := by
        intro f hf'
        unfold Inherited.reduceFirst at hf
        rw [List.find?_eq_none] at hf
        simpa using hf f hf'
      rcases hx with ho | hi
      · obtain ⟨f, hf', rfl⟩ := found_of_own ho
        exact hno f (by rw [hm]; exact List.mem_append_left _ (List.mem_flatMap.2 ⟨d, hd, hf'⟩)) hpub
      · obtain ⟨f, hf', rfl⟩ := (hI x).2 ⟨d, hd, hi⟩
        exact hno f (by rw [hm]; exact List.mem_append_right _ hf') hpub
    | some f =>
      right
      obtain ⟨pre, post, h1, h2, h3⟩ := (C32_first q.1 f).1 hf
      refine ⟨f, rfl, h2, ?_⟩
      have hno : ∀ l1 : List Cls, (∀ e ∈ l1, ∀ x ∈ ownFound w .method b!"__construct" e, ¬ x.member.vis = .pub) →
          ∀ e ∈ l1, ∀ x, Own w .method b!"__construct" e x → x.vis ≠ .pub := by
        intro l1 hl1 e he x hx
        obtain ⟨g, hg, rfl⟩ := found_of_own hx
        exact hl1 e he g hg
      rcases first_ok (ownFound w .method b!"__construct") (fun x => x.member.vis = .pub) l I pre post f
        (by rw [← hm, h1]) h3 with ⟨l1, d, l2, e, hg, hl1⟩ | ⟨hg, hl1⟩
      · exact .inl ⟨l1, d, l2, e, own_of_found hg, hno l1 hl1⟩
      · exact .inr ⟨(hI _).1 ⟨f, hg, rfl⟩, hno l hl1⟩

/-- C88: hovering over the class after `new` shows the public constructor that an object of it gets, also an inherited
one, and the class if there is none. -/
theorem C88_new (s : Site) (hw : Distinct s.world) (hap : Apart s.world) (tbl : Table) (keyOf : Bytes → Bytes) (n ni : Nat)
    (c : Cls) (hc : c ∈ s.world.classes) (t : Ty) (ht : s.world.key c.name = s.world.key t.fqn) (r : List Nat)
    (h : hover s tbl keyOf n ni (.new_ [t]) = some r) :
    ∃ l, Lineage s.world c l ∧
      ((r = [c.decl] ∧ NoConstructor s.world l) ∨ ∃ m, r = [m.decl] ∧ ConstructorOf s.world l m) := by
  simp only [hover, List.flatMap_cons, List.flatMap_nil, List.append_nil, named_single hw hc ht] at h
  cases hp : constructors s.world n ni [c] St.new with
  | none => rw [hp] at h; cases h
  | some p =>
    rw [hp] at h
    simp only [Option.map_some] at h
    injection h with h
    obtain ⟨l, hl, ⟨h1, h2⟩ | ⟨f, h1, h2⟩⟩ := constructors_single s.world hw hap n ni c hc p hp
    · exact ⟨l, hl, .inl ⟨by rw [← h, h1]; rfl, h2⟩⟩
    · exact ⟨l, hl, .inr ⟨f.member, by rw [← h, h1]; rfl, h2⟩⟩

/-- C89: signature help inside `new C(…)` describes the public constructor that an object of the class gets, and nothing if
there is none. -/
theorem C89_new (s : Site) (hw : Distinct s.world) (hap : Apart s.world) (last : Table) (n ni : Nat) (c : Cls)
    (hc : c ∈ s.world.classes) (t : Ty) (ht : s.world.key c.name = s.world.key t.fqn) (r : List Nat)
    (h : signatures s last n ni (.new_ [t]) = some r) :
    ∃ l, Lineage s.world c l ∧
      ((r = [] ∧ NoConstructor s.world l) ∨ ∃ m, r = [m.decl] ∧ ConstructorOf s.world l m) := by
  simp only [signatures, List.flatMap_cons, List.flatMap_nil, List.append_nil, named_single hw hc ht] at h
  cases hp : constructors s.world n ni [c] St.new with
  | none => rw [hp] at h; cases h
  | some p =>
    rw [hp] at h
    simp only [Option.map_some] at h
    injection h with h
    obtain ⟨l, hl, ⟨h1, h2⟩ | ⟨f, h1, h2⟩⟩ := constructors_single s.world hw hap n ni c hc p hp
    · exact ⟨l, hl, .inl ⟨by rw [← h, h1]; rfl, h2⟩⟩
    · exact ⟨l, hl, .inr ⟨f.member, by rw [← h, h1]; rfl, h2⟩⟩

/-- C89: signature help inside `$x->name(…)` or `C::name(…)`, for an object or class of one class, describes exactly the
method that go to definition and hovering find (see `C78_nearest_partial`). -/
theorem C89_methods_partial (s : Site) (hw : Distinct s.world) (tbl last : Table)
    (keyOf : Bytes → Bytes) (n ni : Nat) (c : Cls) (hc : c ∈ s.world.classes) (hal : Alone s.world c) (t : Bytes)
    (ht : s.world.key c.name = s.world.key t) (u : MemberUse) (hu : u = .method ∨ u = .staticMethod) (a : Access)
    (ha : a.types = [t]) (name cur : Bytes) (hx : AsNamed s.world u name) :
    signatures s last n ni (.member u a name cur) = hover s tbl keyOf n ni (.member u a name cur) := by
  have hh : hover s tbl keyOf n ni (.member u a name cur) = locations s tbl keyOf n ni (.member u a name cur) := rfl
  rw [hh, locations_single s hw tbl keyOf n ni c hc hal t ht u a ha name cur hx]
  have hi : s.world.interfacesNamed t = [] := by
    unfold World.interfacesNamed
    rw [List.filter_eq_nil_iff]
    intro i hi he
    exact hal.1 i hi (by rw [of_decide_eq_true he, ht])
  rcases hu with rfl | rfl
  all_goals
    simp only [signatures, ha, List.flatMap_cons, List.flatMap_nil, List.append_nil, callLookups,
      named_single hw hc ht, hi, List.map_cons, List.map_nil, callLoop]
  · rw [show classLookup s.world n ni .method name c none St.new = getClassMethods s.world n ni c name none St.new from rfl]
    cases getClassMethods s.world n ni c name none St.new <;> simp
  · rw [show classLookup s.world n ni .staticMethod name c none St.new =
      getClassMethods s.world n ni c name none St.new from rfl]
    cases getClassMethods s.world n ni c name none St.new <;> simp

/-- C89: the same for an object whose type is an interface: signature help inside `$x->name(…)` describes exactly the method
that hovering shows. Missing: objects of traits (`C89_false_trait`) and of several types (`C89_false_twice`). -/
theorem C89_interface_methods_partial (s : Site) (hw : Distinct s.world) (tbl last : Table)
    (keyOf : Bytes → Bytes) (n ni : Nat) (i : Intf) (hi : i ∈ s.world.interfaces)
    (hc : ∀ c ∈ s.world.classes, s.world.key c.name ≠ s.world.key i.name)
    (ht : ∀ x ∈ s.world.traits, x.name ≠ i.name) (a : Access) (ha : a.types = [i.name]) (name cur : Bytes)
    (hx : AsNamed s.world .method name) :
    signatures s last n ni (.member .method a name cur) = hover s tbl keyOf n ni (.member .method a name cur) := by
  have e1 : s.world.classesNamed i.name = [] := by
    unfold World.classesNamed
    rw [List.filter_eq_nil_iff]
    intro c hcm he
    exact hc c hcm (of_decide_eq_true he)
  have e2 : s.world.traitsNamed i.name = [] := by
    unfold World.traitsNamed
    rw [List.filter_eq_nil_iff]
    intro x hxm he
    exact ht x hxm (of_decide_eq_true he)
  have e3 : s.world.interfacesNamed i.name = [i] := by
    unfold World.interfacesNamed
    have : ∀ l : List Intf, (l.map (·.name)).Nodup → i ∈ l → l.filter (fun c => c.name = i.name) = [i] := by
      intro l
      induction l with
      | nil => intro _ h; cases h
      | cons x l ih =>
        intro hnd hm
        rw [List.map_cons, List.nodup_cons] at hnd
        rcases List.mem_cons.1 hm with rfl | hm
        · have : l.filter (fun c => c.name = i.name) = [] := by
            rw [List.filter_eq_nil_iff]
            intro y hy he
            exact hnd.1 (by rw [← of_decide_eq_true he]; exact List.mem_map_of_mem hy)
          simp [this]
        · have hne : x.name ≠ i.name := fun e => hnd.1 (by rw [e]; exact List.mem_map_of_mem hm)
          rw [List.filter_cons, if_neg (by simpa using hne)]
          exact ih hnd.2 hm
    exact this _ hw.interfaces hi
  have el : lookups s.world n ni .method name i.name = [getInterface s.world .methods ni i name] := by
    simp only [lookups, e1, e2, e3, List.map_nil, List.map_cons, List.nil_append, List.append_nil]
    rfl
  simp only [signatures, hover, memberLoop, ha, List.flatMap_cons, List.flatMap_nil, List.append_nil, callLookups, e1, e3,
    List.map_cons, List.map_nil, List.nil_append, callLoop, el, gather]
  have e : getInterface s.world .methods ni i name (some St.new.newSet.1) St.new.newSet.2 =
      getInterface s.world .methods ni i name none St.new := rfl
  rw [e]
  cases h : getInterface s.world .methods ni i name none St.new with
  | none => rfl
  | some r =>
    obtain ⟨r, st⟩ := r
    have hmem := (lookup_sound (n := n) (ni := ni) (u := .method) (name := name) (t := i.name) hw
      (by rw [el]; simp) .new h).2
    have hr : MemberUse.reduce .method cur a { members := [] ++ r.members, rel := [] ++ r.rel, searched := St.new.newSet.1 } =
        MemberUse.reduce .method cur a r := rfl
    simp only [merge, Option.map_some]
    rw [hr, merge_short]
    · simp
    refine short (nm := name) (reduce_names .method cur a r) fun f hf => ?_
    obtain ⟨g, hg, e1, _⟩ := mem_reduce hf
    obtain ⟨scope, _, hm⟩ := hmem g hg
    rw [e1]
    exact hx _ _ hm

/-- C89: signature help in a function call describes the functions that the name refers to, if the import table in force at
the cursor is the last one of the document. -/
theorem C89_functions_partial (s : Site) (tbl : Table) (n ni : Nat) (name : Ty) :
    ∃ r, signatures s tbl n ni (.function name) = some r ∧ ∀ d, d ∈ r ↔ Refers s tbl d (.function name) :=
  ⟨_, rfl, fun _ => Iff.rfl⟩

/-! ### examples -/

/-- `class P { function __construct() }` (1, 11), `class Q extends P { function run() }` (2, 12),
`trait T { function help() }` (3, 13), `interface I` (4), function `\App\f` (22). -/
def office : Site where
  world :=
    { classes := [⟨b!"\\P", [], [], [], 1⟩, ⟨b!"\\Q", b!"\\P", [], [], 2⟩]
      interfaces := [⟨b!"\\I", [], 4⟩], traits := [⟨b!"\\T", [], 3⟩], key := asciiLower
      members := fun k scope name =>
        (if k = .methods then
          [⟨b!"__construct", b!"\\P", .pub, false, 11⟩, ⟨b!"stop", b!"\\P", .pub, false, 14⟩,
           ⟨b!"run", b!"\\Q", .pub, false, 12⟩, ⟨b!"help", b!"\\T", .pub, false, 13⟩,
           ⟨b!"send", b!"\\I", .pub, false, 15⟩]
          else []).filter fun m => m.scope = scope && m.name == name }
  functions := fun n => if n = b!"\\App\\f" then [22] else []
  consts := fun _ => []
  defines := fun _ => []
  navigable := fun _ => true
  deprecated := fun _ => false

theorem office_distinct : Distinct office.world := ⟨by decide +kernel, by decide +kernel⟩

theorem office_apart : Apart office.world := by
  have h : ∀ c ∈ office.world.classes, ∀ i ∈ office.world.interfaces, asciiLower c.name ≠ asciiLower i.name := by
    decide +kernel
  exact h

theorem office_exact (u : MemberUse) (name : Bytes) : AsNamed office.world u name := by
  intro scope m hm
  obtain ⟨_, h⟩ := List.mem_filter.1 hm
  simp only [Bool.and_eq_true, beq_iff_eq] at h
  exact h.2

/-- `namespace App;` -/
def inApp : Table := { newTable ⟨0, 0⟩ with ns := b!"App" }

/-- `new Q` shows the inherited constructor, go to definition leads to the class. -/
example : hover office noImports asciiLower 9 9 (.new_ [ty b!"\\Q"]) = some [11] ∧
    signatures office noImports 9 9 (.new_ [ty b!"\\Q"]) = some [11] ∧
    definition office noImports asciiLower 9 9 (.new_ [ty b!"\\Q"]) = some [2] ∧
    hover shop noImports asciiLower 9 9 (.new_ [ty b!"\\A"]) = some [1] := by decide +kernel

example : hover office noImports asciiLower 9 9 (.cls [ty b!"\\I"]) = some [4] ∧
    AsDeclared office.world b!"\\I" ∧
    hover office inApp asciiLower 9 9 (.function (ty b!"f")) = some [22] ∧
    hover office noImports asciiLower 9 9 (.trt [ty b!"\\T"]) = some [3] :=
  ⟨by decide +kernel, ⟨by decide +kernel, by decide +kernel⟩, by decide +kernel, by decide +kernel⟩

example : hover office noImports asciiLower 9 9 (.member .method ⟨b!"$q", [b!"\\Q"]⟩ b!"stop" []) = some [14] ∧
    signatures office noImports 9 9 (.member .method ⟨b!"$q", [b!"\\Q"]⟩ b!"stop" []) = some [14] ∧
    Alone office.world ⟨b!"\\Q", b!"\\P", [], [], 2⟩ :=
  ⟨by decide +kernel, by decide +kernel, by
    have h : ∀ i ∈ office.world.interfaces, asciiLower i.name ≠ asciiLower b!"\\Q" := by decide +kernel
    exact h, by
    have h : ∀ i ∈ office.world.traits, asciiLower i.name ≠ asciiLower b!"\\Q" := by decide +kernel
    exact h⟩

/-- `C89_interface_methods_partial`: an object of the interface `I`. -/
example : hover office noImports asciiLower 9 9 (.member .method ⟨b!"$i", [b!"\\I"]⟩ b!"send" []) = some [15] ∧
    signatures office noImports 9 9 (.member .method ⟨b!"$i", [b!"\\I"]⟩ b!"send" []) = some [15] ∧
    (∀ c ∈ office.world.classes, office.world.key c.name ≠ office.world.key b!"\\I") ∧
    ∀ x ∈ office.world.traits, x.name ≠ b!"\\I" :=
  ⟨by decide +kernel, by decide +kernel, by
    have h : ∀ c ∈ office.world.classes, asciiLower c.name ≠ asciiLower b!"\\I" := by decide +kernel
    exact h, by decide +kernel⟩

/-- C88 is false: `implements i` does not show `interface I`. -/
theorem C88_false_case : Refers office noImports 4 (.intf [ty b!"\\i"]) ∧
    hover office noImports asciiLower 9 9 (.intf [ty b!"\\i"]) = some [] :=
  ⟨⟨_, List.mem_singleton.2 rfl, ⟨⟨b!"\\I", [], 4⟩, by decide +kernel, rfl, rfl⟩⟩, by decide +kernel⟩

/-- C89 is false: in `namespace App { f(|); } namespace { }` signature help does not describe `\App\f`, since it always
takes the last import table of the document. -/
theorem C89_false_namespace : hover office inApp asciiLower 9 9 (.function (ty b!"f")) = some [22] ∧
    signatures office noImports 9 9 (.function (ty b!"f")) = some [] := by decide +kernel

/-- C89 is false: in a trait, the call `$this->help(|)` is not described, although hovering shows the method. -/
theorem C89_false_trait :
    hover office noImports asciiLower 9 9 (.member .method ⟨b!"$this", [b!"\\T"]⟩ b!"help" b!"\\T") = some [13] ∧
    signatures office noImports 9 9 (.member .method ⟨b!"$this", [b!"\\T"]⟩ b!"help" b!"\\T") = some [] := by
  decide +kernel

/-- C89 is false: for an object of the types `P` and `Q` the method `stop` is described twice. -/
theorem C89_false_twice :
    hover office noImports asciiLower 9 9 (.member .method ⟨b!"$x", [b!"\\P", b!"\\Q"]⟩ b!"stop" []) = some [14] ∧
    signatures office noImports 9 9 (.member .method ⟨b!"$x", [b!"\\P", b!"\\Q"]⟩ b!"stop" []) = some [14, 14] := by
  decide +kernel

end Verif.Query
