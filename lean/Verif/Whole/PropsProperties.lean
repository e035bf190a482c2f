import Verif.Whole.PropsHoverMembers

/-! C125 and C138 for properties: go to definition and hovering find the property of the nearest class. -/

namespace Verif.Whole

open Verif.Encoding Verif.Storage Verif.Store Verif.Query

variable {env : Env} {root : Bytes} {h : List HOp} {s : Store}

/-- The properties of a name. -/
theorem mem_properties (he : EnvOK env) (hok : HistOK env h) (hs : run env root h = some s) {scope name : Bytes}
    (hn : name ≠ []) (m : Member) : m ∈ (worldOf env s).members .props scope name ↔
      ∃ a, Live env (latest h) (.pro a) ∧ (a.scope.fqn = scope ∧ a.name = name) ∧ proOf s (kPro.st a) = m := by
  have := mem_lookup kPro he hok hs (scope ++ sep :: (name ++ [sep]))
    (fun a => a.scope.fqn = scope ∧ a.name = name) (fun a ha => by
      have hno := live_nosep he hok ha
      refine two_prefix (hno.1 _ (by simp [kPro, Sym.names])) (hno.1 _ (by simp [kPro, Sym.names])) ?_
      rw [List.mem_append, not_or]
      exact ⟨hno.2, range_nosep _⟩)
  simp only [worldOf, membersOf, if_pos hn, List.mem_map]
  constructor
  · rintro ⟨y, hy, rfl⟩
    obtain ⟨a, h1, h2, rfl⟩ := (this y).mp hy
    exact ⟨a, h1, h2, rfl⟩
  · rintro ⟨a, h1, h2, rfl⟩
    exact ⟨_, (this _).mpr ⟨a, h1, h2, rfl⟩, rfl⟩

/-- An access of a property: after `->` the name is written without the dollar sign, after `::` with it. -/
def propName : Bool → Bytes → Bytes
  | false, name => 36 :: name
  | true, name => name

def propUse : Bool → MemberUse
  | false => .prop
  | true => .staticProp

theorem propUse_key (st : Bool) (name : Bytes) : (propUse st).key name = propName st name := by cases st <;> rfl

theorem propUse_kind (st : Bool) : (propUse st).kind = .props := by cases st <;> rfl

/-- What the access finds is the property that `k` declares. -/
theorem prop_found (he : EnvOK env) (hsl : env.LowerSlash) (hok : HistOK env h) (hs : run env root h = some s)
    (ho : OneEach env (latest h)) (hac : Acyclic env (latest h))
    (hap : ∀ d, Live env (latest h) (.cla d) → ∀ i, Live env (latest h) (.int i) → ¬ SameClassName env d.name.fqn i.name.fqn)
    (c : Class) (hc : Live env (latest h) (.cla c)) (hal : Unmistakable env (latest h) c)
    (ds : List Class) (k : Class) (hk : (c :: ds).getLast? = some k) (hch : (c :: ds).IsChain (Extends env (latest h)))
    (hnd : (c :: ds).Nodup) (st : Bool) (name : Bytes) (hn : name ≠ [])
    (hla : ∀ d ∈ (c :: ds).dropLast, ∀ x, Live env (latest h) (.pro x) → x.scope.fqn = d.name.fqn → x.name ≠ propName st name)
    (p : Property) (hp : Live env (latest h) (.pro p)) (hpk : p.scope.fqn = k.name.fqn) (hpn : p.name = propName st name)
    (hpub : p.visibility = 0)
    (hone : ∀ x, Live env (latest h) (.pro x) → x.scope.fqn = k.name.fqn → x.name = propName st name → x = p)
    (t : Bytes) (ht : SameClassName env c.name.fqn t) (a : Access) (ha : a.types = [t]) (cur : Bytes)
    (hst : st = true → p.isStatic = true ∧ (a.scopeName = b!"parent" → k.name.fqn ≠ cur))
    (tbl : Imports.Table) (keyOf : Bytes → Bytes) :
    ∃ N, ∀ n ni, N ≤ n → N ≤ ni →
      locations (siteOf env s) tbl keyOf n ni (.member (propUse st) a name cur) = some [num s (Sym.pro p).stored] := by
  have hw := distinct he hsl hok hs ho
  have hap' := apart_of he hsl hok hs hap
  have hcw : clsOf s c ∈ (worldOf env s).classes := (mem_classes he hok hs _).mpr ⟨c, hc, rfl⟩
  have hal' := alone_of he hsl hok hs hal
  have hkey : (worldOf env s).key (clsOf s c).name = (worldOf env s).key t := (key_iff hsl _ _).mpr ht
  have hne' : propName st name ≠ [] := by cases st <;> simp [propName, hn]
  have hmem := fun scope => mem_properties he hok hs (scope := scope) hne'
  have hnamed : AsNamed (worldOf env s) (propUse st) name := fun scope y hy => by
    rw [propUse_kind, propUse_key] at hy
    obtain ⟨x, h3, ⟨-, h4⟩, rfl⟩ := (hmem scope y).mp hy
    rw [propUse_key, ← h4]
    rfl
  have hlive := chain_live ds c hc hch
  obtain ⟨N, hN⟩ := C132_history he hsl hok hs hac
  obtain ⟨def_, _, hdef⟩ := hN tbl keyOf (.member (propUse st) a name cur)
  refine ⟨N, fun n ni h1 h2 => ?_⟩
  have hloc := locations_single (siteOf env s) hw tbl keyOf n ni (clsOf s c) hcw hal' t hkey (propUse st) a ha name cur hnamed
  rw [show (siteOf env s).world = worldOf env s from rfl] at hloc
  cases hcl : classLookup (worldOf env s) n ni (propUse st) name (clsOf s c) none St.new with
  | none =>
    have := (hdef n ni h1 h2).1
    rw [definition, hloc, hcl] at this
    cases this
  | some q =>
    rw [hcl, Option.map_some] at hloc
    obtain ⟨hrel, l, I, hlin, hmemb, -⟩ := classLookup_order hw hap' hcw (by cases st <;> decide) hcl
    have hpre : clsOf s c :: ds.map (clsOf s) <+: l := by
      refine lineage_prefix hw hlin _ ?_ ?_
      · rw [← List.map_cons, List.isChain_map]
        have : ∀ (l : List Class), l.IsChain (Extends env (latest h)) →
            l.IsChain (fun a b => ParentOf (worldOf env s) (clsOf s a) (clsOf s b)) := fun l hl =>
          hl.imp fun a b hab => ⟨hab.1, (mem_classes he hok hs _).mpr ⟨b, hab.2.1, rfl⟩, (key_iff hsl _ _).mpr hab.2.2⟩
        exact this _ hch
      · rw [← List.map_cons]
        exact List.Nodup.map_on (fun x hx y hy e => clsOf_inj he hok hs (hlive x hx) (hlive y hy) e) hnd
    obtain ⟨rest, rfl⟩ := hpre
    have hne : c :: ds ≠ [] := by simp
    have hsplit : c :: ds = (c :: ds).dropLast ++ [k] := by
      rw [List.getLast?_eq_some_getLast hne] at hk
      rw [← Option.some.inj hk, List.dropLast_append_getLast hne]
    have hown : ∀ d : Class, ownFound (worldOf env s) (propUse st) name (clsOf s d) =
        (worldOf env s).found .props d.name.fqn (propName st name) := by
      intro d
      cases st <;> exact List.append_nil _
    -- nothing before `k`
    have hnone : ((c :: ds).dropLast.map (clsOf s)).flatMap (ownFound (worldOf env s) (propUse st) name) = [] := by
      rw [List.flatMap_eq_nil_iff]
      intro x hx
      obtain ⟨d, hd, rfl⟩ := List.mem_map.mp hx
      rw [hown, List.eq_nil_iff_forall_not_mem]
      intro f hf
      obtain ⟨x, h3, ⟨h4, h5⟩, -⟩ := (hmem _ _).mp (mem_found hf)
      exact hla d hd x h3 h4 h5
    -- all that `k` has
    have hof : ∀ y, y ∈ (worldOf env s).members .props k.name.fqn (propName st name) ↔ y = proOf s (kPro.st p) := fun y => by
      rw [hmem]
      constructor
      · rintro ⟨x, h3, ⟨h4, h5⟩, rfl⟩
        rw [hone x h3 h4 h5]
      · rintro rfl
        exact ⟨p, hp, ⟨hpk, hpn⟩, rfl⟩
    obtain ⟨f0, fs, hfs, hf0⟩ : ∃ f0 fs, (worldOf env s).found .props k.name.fqn (propName st name) = f0 :: fs ∧
        f0.member = proOf s (kPro.st p) := by
      have : (⟨proOf s (kPro.st p), k.name.fqn, 0⟩ : Found) ∈
          (worldOf env s).found .props k.name.fqn (propName st name) := found_of_mem ((hof _).mpr rfl)
      cases hf : (worldOf env s).found .props k.name.fqn (propName st name) with
      | nil => rw [hf] at this; cases this
      | cons f0 fs => exact ⟨f0, fs, rfl, (hof _).mp (mem_found (by rw [hf]; simp))⟩
    have hmem' : q.1.members = f0 :: (fs ++ (rest.flatMap (ownFound (worldOf env s) (propUse st) name) ++ I)) := by
      rw [hmemb, ← List.map_cons, hsplit, List.map_append, List.flatMap_append, List.flatMap_append, hnone]
      simp [hown, hfs]
    have hall : ∀ f ∈ q.1.members, f.member.name = propName st name := fun f hf => by
      obtain ⟨scope, -, h4⟩ := classLookup_mem hw hcw hal' hcl f hf
      rw [← propUse_key]
      exact hnamed scope _ h4
    have hvis : f0.member.vis = .pub := by
      rw [hf0]
      show visOf p.visibility = _
      rw [hpub]; decide
    have huse : Usable (propUse st) cur a f0.member := by
      have hpubl := C31_public cur a [] f0.member hvis
      cases st with
      | false => exact hpubl.1
      | true =>
        obtain ⟨hs1, hs2⟩ := hst rfl
        by_cases e1 : a.scopeName = b!"parent"
        · refine (hpubl.2.2.2 e1).mpr ?_
          rw [hf0]
          show p.scope.fqn ≠ cur
          rw [hpk]
          exact hs2 e1
        · by_cases e2 : a.scopeName ∈ [b!"self", b!"static", b!"$this"]
          · exact hpubl.2.2.1 e2
          · refine (hpubl.2.1 e1 e2).mpr ?_
            rw [hf0]
            exact hs1
    have hred : ((propUse st).reduce cur a q.1).map (·.member.decl) = [num s (Sym.pro p).stored] := by
      rcases reduce_first (propUse st) cur a q.1 hrel _ hall with ⟨-, h3⟩ | ⟨pre, g, post, f, h3, h4, h5, h6, h7⟩
      · exact absurd huse (h3 f0 (by rw [hmem']; simp))
      · rw [h4]
        cases pre with
        | nil =>
          rw [hmem', List.nil_append] at h3
          injection h3 with h3 _
          simp only [List.map_cons, List.map_nil, h5, ← h3, hf0]
          rfl
        | cons x pre =>
          rw [hmem', List.cons_append] at h3
          injection h3 with h3 _
          exact absurd huse (by rw [← h3] at h7; exact h7 f0 (by simp))
    rw [hloc, hred]

/-- C125: for an object of the class `c` (or `c` itself, after `::`), the access of a property leads to exactly the property
of the nearest class: if neither `c` nor the classes between it and `k` declare a property of this name, and `k` declares a
public one (for `::` a static one, and after `parent` not in the class of the code itself), the access leads there and
nowhere else. No class extends itself, directly or not. -/
theorem C125_properties (he : EnvOK env) (hsl : env.LowerSlash) (hok : HistOK env h) (hs : run env root h = some s)
    (ho : OneEach env (latest h)) (hac : Acyclic env (latest h))
    (hap : ∀ d, Live env (latest h) (.cla d) → ∀ i, Live env (latest h) (.int i) → ¬ SameClassName env d.name.fqn i.name.fqn)
    (c : Class) (hc : Live env (latest h) (.cla c)) (hal : Unmistakable env (latest h) c)
    (ds : List Class) (k : Class) (hk : (c :: ds).getLast? = some k) (hch : (c :: ds).IsChain (Extends env (latest h)))
    (hnd : (c :: ds).Nodup) (st : Bool) (name : Bytes) (hn : name ≠ [])
    (hla : ∀ d ∈ (c :: ds).dropLast, ∀ x, Live env (latest h) (.pro x) → x.scope.fqn = d.name.fqn → x.name ≠ propName st name)
    (p : Property) (hp : Live env (latest h) (.pro p)) (hpk : p.scope.fqn = k.name.fqn) (hpn : p.name = propName st name)
    (hpub : p.visibility = 0)
    (hone : ∀ x, Live env (latest h) (.pro x) → x.scope.fqn = k.name.fqn → x.name = propName st name → x = p)
    (hopen : Openable (.pro p))
    (t : Bytes) (ht : SameClassName env c.name.fqn t) (a : Access) (ha : a.types = [t]) (cur : Bytes)
    (hst : st = true → p.isStatic = true ∧ (a.scopeName = b!"parent" → k.name.fqn ≠ cur))
    (tbl : Imports.Table) (keyOf : Bytes → Bytes) :
    ∃ N, ∀ n ni, N ≤ n → N ≤ ni →
      definitionIn env s tbl keyOf n ni (.member (propUse st) a name cur) = some [(Sym.pro p).stored] := by
  have hnav : (siteOf env s).navigable (num s (Sym.pro p).stored) = true := by
    simpa only [siteOf, get_num_live he hok hs hp (by simp), Option.elim_some, navigatable, hasPrefix_iff, locationOf_eq,
      stored_location, Openable] using hopen
  obtain ⟨N, hN⟩ := prop_found he hsl hok hs ho hac hap c hc hal ds k hk hch hnd st name hn hla p hp hpk hpn hpub hone t ht a
    ha cur hst tbl keyOf
  refine ⟨N, fun n ni h1 h2 => ?_⟩
  unfold definitionIn definition
  rw [hN n ni h1 h2]
  simp [hnav, get_num_live he hok hs hp (by simp)]

/-- C138: hovering over the access of a property shows exactly the property of the nearest class, with the name of that
class. -/
theorem C138_properties (he : EnvOK env) (hsl : env.LowerSlash) (hok : HistOK env h) (hs : run env root h = some s)
    (ho : OneEach env (latest h)) (hac : Acyclic env (latest h))
    (hap : ∀ d, Live env (latest h) (.cla d) → ∀ i, Live env (latest h) (.int i) → ¬ SameClassName env d.name.fqn i.name.fqn)
    (c : Class) (hc : Live env (latest h) (.cla c)) (hal : Unmistakable env (latest h) c)
    (ds : List Class) (k : Class) (hk : (c :: ds).getLast? = some k) (hch : (c :: ds).IsChain (Extends env (latest h)))
    (hnd : (c :: ds).Nodup) (st : Bool) (name : Bytes) (hn : name ≠ [])
    (hla : ∀ d ∈ (c :: ds).dropLast, ∀ x, Live env (latest h) (.pro x) → x.scope.fqn = d.name.fqn → x.name ≠ propName st name)
    (p : Property) (hp : Live env (latest h) (.pro p)) (hpk : p.scope.fqn = k.name.fqn) (hpn : p.name = propName st name)
    (hpub : p.visibility = 0)
    (hone : ∀ x, Live env (latest h) (.pro x) → x.scope.fqn = k.name.fqn → x.name = propName st name → x = p)
    (t : Bytes) (ht : SameClassName env c.name.fqn t) (a : Access) (ha : a.types = [t]) (cur : Bytes)
    (hst : st = true → p.isStatic = true ∧ (a.scopeName = b!"parent" → k.name.fqn ≠ cur))
    (md : Bytes → Option Bytes) (keyOf : Bytes → Bytes) :
    ∃ N, ∀ n ni, N ≤ n → N ≤ ni →
      memberHoverIn env s md keyOf n ni (propUse st) a name cur = some (Show.propertyHover md (.cls k.name.fqn) p) := by
  obtain ⟨N, hN⟩ := prop_found he hsl hok hs ho hac hap c hc hal ds k hk hch hnd st name hn hla p hp hpk hpn hpub hone t ht a
    ha cur hst (Imports.newTable ⟨0, 0⟩) keyOf
  have hkl : Live env (latest h) (.cla k) := last_live hc hch hk
  refine ⟨N, fun n ni h1 h2 => ?_⟩
  obtain ⟨l, hl, e⟩ := Option.map_eq_some_iff.mp (hN n ni h1 h2)
  have hl : memberLoop (worldOf env s) keyOf n ni (propUse st) a name cur a.types [] St.new = some l := hl
  cases l with
  | nil => cases e
  | cons f l =>
    injection e with e e'
    obtain rfl := List.map_eq_nil_iff.mp e'
    obtain ⟨⟨t', -, hf⟩, -⟩ := memberLoop_at (distinct he hsl hok hs ho) keyOf n ni (propUse st) a name cur a.types a.types
      (fun _ h => h) [] St.new .new (by simp) [f] hl f (by simp)
    obtain ⟨x, hx, hdx, -, hnum, -, htext, -⟩ := found_at he hsl hok hs md hn hf
    have hxg : ∀ g, x ≠ .gloVar g := by rintro g rfl; exact hdx
    have e : x = .pro p := stored_inj he hok hx hp (num_inj ((mem_decls he hok hs _).mpr ⟨_, hx, rfl, hxg⟩)
      ((mem_decls he hok hs _).mpr ⟨_, hp, rfl, by simp⟩) (hnum.trans e))
    subst e
    rw [memberHoverIn, hl, Option.map_some, List.flatMap_cons, List.flatMap_nil, List.append_nil, htext,
      ← declares_scope hdx, show scopeOf (.pro p) = k.name.fqn from hpk, scopeNamed_class he hok hs hkl]
    rfl

/-- C138: the text for a property, from the text of the file that declares it: `modifiers name: types` with the declared
modifiers, the name and the types of its `@var` tag; below it `class` and the full name of the class that declares it, and the
description. `p` is the property that the file declares, as it is indexed (C79). -/
theorem C138_property_text (he : EnvOK env) (hok : HistOK env h) (md : Bytes → Option Bytes) (uri : Bytes) (scope : Types.Ty)
    (denv : Decl.Env) (ks mods els es : List Analyser.Node) (i : Nat) (e : Analyser.Node) (name : Analyser.Tok)
    (doc tag : Option Analyser.Node)
    (hd : Decl.DeclaresMembers .propertyElementList ks mods (.phr .propertyElementList els)) (hv : Decl.OneVisibility mods)
    (hes : Decl.Listed .propertyElement els es) (hi : es[i]? = some e) (hn : Decl.OnlyToken .variableName e.kids name)
    (hdoc : Decl.DocApplies denv e doc) (ht : Show.FirstTag denv.ctx b!"@var" doc tag) (k : Bytes) :
    ∃ r, (Decl.newPropertyDeclaration denv (.phr .propertyDeclaration ks))[i]? = some r ∧
      ((∀ t ∈ r.types, Show.LevelFits t) → Live env (latest h) (.pro (Show.toProperty uri scope r)) →
        ∃ mod types desc, Show.ModifiersShown mods mod ∧ Show.ReturnShown (Show.VarNamed denv tag) types ∧
          Show.DescriptionIs denv tag desc ∧
          Show.HoverText md (mod ++ b!" " ++ denv.ctx.tokText name ++ types) (b!"\n____\n\n`class " ++ k ++ b!"`") desc
            (Show.propertyHover md (.cls k) (Show.toProperty uri scope r))) := by
  obtain ⟨r, hr, hr2⟩ := Show.C119_property md uri scope (.cls k) denv ks mods els es i e name doc tag [] hd hv hes hi hn hdoc ht
  refine ⟨r, hr, fun hf hl => ?_⟩
  obtain ⟨_, -, hsok⟩ := live_ok he hok hl
  obtain ⟨p, mod, types, desc, h1, h2, h3, h4, h5⟩ := hr2 hf hsok.wf
  rw [C02_property_round_trip _ hsok.wf] at h1
  cases h1
  exact ⟨mod, types, desc, h2, h3, h4, h5⟩

/-- Non-vacuity of C125_properties and C138_properties: `Foo::$s`, where `Foo` in `a.php` extends `Base` in `b.php`, which
declares the static property. (`Foo` has the property `$p`; the histories and the other conditions are those of C131.) -/
example : Acyclic Store.Demo.env (latest Demo.membersHist) ∧ Unmistakable Store.Demo.env (latest Demo.membersHist) Demo.foo ∧
    [Demo.foo, Demo.top].IsChain (Extends Store.Demo.env (latest Demo.membersHist)) ∧ [Demo.foo, Demo.top].Nodup ∧
    (∀ d ∈ [Demo.foo], ∀ x, Live Store.Demo.env (latest Demo.membersHist) (.pro x) → x.scope.fqn = d.name.fqn →
      x.name ≠ propName true b!"$s") ∧
    Live Store.Demo.env (latest Demo.membersHist) (.pro Demo.stat) ∧ Demo.stat.scope.fqn = Demo.top.name.fqn ∧
    Demo.stat.visibility = 0 ∧ Demo.stat.isStatic = true ∧ Openable (.pro Demo.stat) ∧
    (∀ x, Live Store.Demo.env (latest Demo.membersHist) (.pro x) → x.scope.fqn = Demo.top.name.fqn →
      x.name = propName true b!"$s" → x = Demo.stat) ∧
    ∃ s, run Store.Demo.env Store.Demo.root Demo.membersHist = some s ∧
      (definitionIn Store.Demo.env s (Imports.newTable ⟨0, 0⟩) id 9 9 (.member .staticProp ⟨b!"Foo", [b!"\\N\\Foo"]⟩ b!"$s" []),
       memberHoverIn Store.Demo.env s some id 9 9 .staticProp ⟨b!"Foo", [b!"\\N\\Foo"]⟩ b!"$s" []) =
      (some [(Sym.pro Demo.stat).stored],
       some b!"```php\n<?php\npublic static $s\n```\n\n____\n\n`class \\Base`\n____\n") := by
  have hpro : ∀ x, Live Store.Demo.env (latest Demo.membersHist) (.pro x) →
      Sym.pro x = Store.Demo.pro Store.Demo.uA b!"N\\Foo" b!"$p" ∨ x = Demo.stat := by
    intro x hx
    have := Demo.members_mem hx
    simpa [Store.Demo.a2, Demo.b4, Store.Demo.cla, Store.Demo.met, Store.Demo.pro, Store.Demo.claCon] using this
  refine ⟨Demo.members_acyclic, ⟨fun _ h => (Demo.members_int h).elim, fun x hx => ?_⟩, ?_, by decide +kernel, ?_, ?_, rfl, rfl,
    rfl, ⟨b!"/w/b.php", by decide +kernel⟩, ?_, Store.Demo.observe _ _ (by decide +kernel)⟩
  · have := Demo.members_mem hx
    simp [Store.Demo.a2, Demo.b4, Store.Demo.cla, Store.Demo.met, Store.Demo.pro, Store.Demo.claCon] at this
  · rw [List.isChain_pair]
    refine ⟨by decide, ⟨Store.Demo.uB, Demo.b4, [], _, rfl, rfl, trivial, ?_⟩, .inl rfl⟩
    simp [Store.Demo.claCon, SameDecl, Sym.kind]
  · intro d hd x hx hsc
    rcases hpro x hx with e | rfl
    · injection e with e; rw [e]; decide
    · rw [List.mem_singleton.mp hd] at hsc
      exact absurd hsc (by decide +kernel)
  · exact ⟨Store.Demo.uB, Demo.b4, [.cla Demo.top, .met Demo.bar, .met Demo.ctor, .met Demo.hid], _, rfl, rfl, trivial,
      by simp [Store.Demo.claCon, SameDecl, Sym.kind]⟩
  · intro x hx _ hn
    rcases hpro x hx with e | rfl
    · injection e with e; rw [e] at hn; exact absurd hn (by decide)
    · rfl

end Verif.Whole
