import Verif.Whole.Lemmas
import Verif.Query.PropsHover

/-! The relations of the queries, read off the current files. -/

namespace Verif.Whole

open Verif.Encoding Verif.Storage Verif.Store Verif.Query

variable {env : Env} {root : Bytes} {h : List HOp} {s : Store}

/-- A lookup by name is a part of the collection. -/
theorem lookup_part {α} (K : KindSpec α) (he : EnvOK env) (hok : HistOK env h) (hs : run env root h = some s) (q : Bytes)
    (P : α → Bool) (hP : ∀ a, Live env (latest h) (K.con a) → (q <+: (K.con a).key env ↔ P (K.st a) = true)) :
    scanDecode s.db (entryKey K.coll q) K.read = some ((scanAll s K.coll K.read).filter P) := by
  obtain ⟨xs, h1, -, h3, h4⟩ := scan_all K he hok hs
  rw [h4, h1, List.filter_map]
  congr 2
  refine List.filter_congr fun a ha => ?_
  rw [Bool.eq_iff_iff, hasPrefix_iff]
  exact hP a ((h3 a).mp ha)

theorem mem_lookup {α} (K : KindSpec α) (he : EnvOK env) (hok : HistOK env h) (hs : run env root h = some s) (q : Bytes)
    (P : α → Prop) (hP : ∀ a, Live env (latest h) (K.con a) → (q <+: (K.con a).key env ↔ P a)) (y : α) :
    y ∈ (scanDecode s.db (entryKey K.coll q) K.read).getD [] ↔ ∃ a, Live env (latest h) (K.con a) ∧ P a ∧ K.st a = y := by
  obtain ⟨xs, -, -, h3, h4⟩ := scan_all K he hok hs
  rw [h4]
  simp only [Option.getD_some, List.mem_map, List.mem_filter, hasPrefix_iff, h3]
  constructor
  · rintro ⟨a, ⟨h1, h2⟩, rfl⟩; exact ⟨a, h1, (hP a h1).mp h2, rfl⟩
  · rintro ⟨a, h1, h2, rfl⟩; exact ⟨a, ⟨h1, (hP a h1).mpr h2⟩, rfl⟩

theorem fqn_key (he : EnvOK env) (hok : HistOK env h) {x : Sym} (hx : Live env (latest h) x) {n : Bytes}
    (hn : n ∈ x.names) (q : Bytes) : q ++ [sep] <+: n ++ sep :: x.location.uri ↔ n = q :=
  one_prefix ((live_nosep he hok hx).1 n hn) (live_nosep he hok hx).2

theorem queryClasses_eq (he : EnvOK env) (hok : HistOK env h) (hs : run env root h = some s) (fqn : Bytes) :
    s.queryClasses env fqn =
      some ((scanAll s cCla readClass).filter fun c => classFQNLower env c.name.fqn = classFQNLower env fqn) :=
  lookup_part kCla he hok hs _ _ fun a ha => by
    have := live_nosep he hok ha
    rw [decide_eq_true_eq]
    exact one_prefix (classFQNLower_nosep he.lower (this.1 _ (by simp [kCla, Sym.names]))) this.2

theorem getInterfaces_eq (he : EnvOK env) (hok : HistOK env h) (hs : run env root h = some s) (fqn : Bytes) :
    s.getInterfaces fqn = some ((scanAll s cInt readInterface).filter fun c => c.name.fqn = fqn) :=
  lookup_part kInt he hok hs _ _ fun a ha => by
    rw [decide_eq_true_eq]; exact fqn_key he hok ha (by simp [kInt, Sym.names]) _

theorem getTraits_eq (he : EnvOK env) (hok : HistOK env h) (hs : run env root h = some s) (fqn : Bytes) :
    s.getTraits fqn = some ((scanAll s cTra readTrait).filter fun c => c.name.fqn = fqn) :=
  lookup_part kTra he hok hs _ _ fun a ha => by
    rw [decide_eq_true_eq]; exact fqn_key he hok ha (by simp [kTra, Sym.names]) _

theorem mem_functions (he : EnvOK env) (hok : HistOK env h) (hs : run env root h = some s) (n : Bytes) (y : Function) :
    y ∈ (s.getFunctions n).getD [] ↔ ∃ f, Live env (latest h) (.fn f) ∧ f.name.fqn = n ∧ kFn.st f = y :=
  mem_lookup kFn he hok hs _ _ (fun _ ha => fqn_key he hok ha (by simp [kFn, Sym.names]) _) y

theorem mem_consts (he : EnvOK env) (hok : HistOK env h) (hs : run env root h = some s) (n : Bytes) (y : Const) :
    y ∈ (s.getConsts n).getD [] ↔ ∃ f, Live env (latest h) (.con f) ∧ f.name.fqn = n ∧ f = y :=
  mem_lookup kCon he hok hs _ _ (fun _ ha => fqn_key he hok ha (by simp [kCon, Sym.names]) _) y

theorem mem_defines (he : EnvOK env) (hok : HistOK env h) (hs : run env root h = some s) (n : Bytes) (y : Const) :
    y ∈ (s.getDefines n).getD [] ↔ ∃ f, Live env (latest h) (.def_ f) ∧ f.name.fqn = n ∧ f = y :=
  mem_lookup kDef he hok hs _ _ (fun _ ha => fqn_key he hok ha (by simp [kDef, Sym.names]) _) y

/-- A declaration of the world and the declaration of a file. -/
theorem mem_classes (he : EnvOK env) (hok : HistOK env h) (hs : run env root h = some s) (c : Cls) :
    c ∈ (worldOf env s).classes ↔ ∃ x, Live env (latest h) (.cla x) ∧ clsOf s x = c := by
  simp only [worldOf, List.mem_map]
  have := mem_scanAll kCla he hok hs
  simp only [kCla, id] at this
  simp only [this, exists_eq_right]

theorem mem_interfaces (he : EnvOK env) (hok : HistOK env h) (hs : run env root h = some s) (c : Intf) :
    c ∈ (worldOf env s).interfaces ↔ ∃ x, Live env (latest h) (.int x) ∧ intfOf s (kInt.st x) = c := by
  have := mem_scanAll kInt he hok hs
  simp only [worldOf, List.mem_map]
  constructor
  · rintro ⟨a, ha, rfl⟩
    obtain ⟨x, hx, rfl⟩ := (this a).mp ha
    exact ⟨x, hx, rfl⟩
  · rintro ⟨x, hx, rfl⟩
    exact ⟨_, (this _).mpr ⟨x, hx, rfl⟩, rfl⟩

theorem mem_traits (he : EnvOK env) (hok : HistOK env h) (hs : run env root h = some s) (c : Trt) :
    c ∈ (worldOf env s).traits ↔ ∃ x, Live env (latest h) (.tra x) ∧ trtOf s x = c := by
  simp only [worldOf, List.mem_map]
  have := mem_scanAll kTra he hok hs
  simp only [kTra, id] at this
  simp only [this, exists_eq_right]

theorem key_iff (hsl : env.LowerSlash) (a b : Bytes) :
    (worldOf env s).key a = (worldOf env s).key b ↔ SameClassName env a b := classFQNLower_eq_iff hsl a b

theorem distinct (he : EnvOK env) (hsl : env.LowerSlash) (hok : HistOK env h) (hs : run env root h = some s)
    (ho : OneEach env (latest h)) : Distinct (worldOf env s) := by
  constructor
  · obtain ⟨xs, h1, h2, h3, -⟩ := scan_all kCla he hok hs
    have h1 : scanAll s cCla readClass = xs := by rw [show kCla.st = id from rfl, List.map_id] at h1; exact h1
    simp only [worldOf, h1, List.map_map]
    refine List.pairwise_map.mpr (h2.imp_of_mem fun {a b} ha hb hne e => hne ?_)
    exact ho.classes _ _ ((h3 a).mp ha) ((h3 b).mp hb) ((classFQNLower_eq_iff hsl _ _).mp e)
  · obtain ⟨xs, h1, h2, h3, -⟩ := scan_all kInt he hok hs
    have h1 : scanAll s cInt readInterface = xs.map kInt.st := h1
    simp only [worldOf, h1, List.map_map]
    refine List.pairwise_map.mpr (h2.imp_of_mem fun {a b} ha hb hne e => hne ?_)
    exact ho.interfaces _ _ ((h3 a).mp ha) ((h3 b).mp hb) e

/-- What a class extends. -/
theorem above_of (he : EnvOK env) (hsl : env.LowerSlash) (hok : HistOK env h) (hs : run env root h = some s) {c : Class}
    {d : Cls} (ha : Ancestor (worldOf env s) (clsOf s c) d) : ∃ x, Above env (latest h) c x ∧ clsOf s x = d := by
  induction ha with
  | self => exact ⟨c, .self, rfl⟩
  | parent _ hne hm hk ih =>
    obtain ⟨x, hx, rfl⟩ := ih
    obtain ⟨y, hy, rfl⟩ := (mem_classes he hok hs _).mp hm
    exact ⟨y, .parent hx hne hy ((key_iff hsl _ _).mp hk), rfl⟩

theorem intfAbove_of (he : EnvOK env) (hok : HistOK env h) (hs : run env root h = some s) {c : Interface}
    {d : Intf} (ha : IntfAncestor (worldOf env s) (intfOf s (kInt.st c)) d) :
    ∃ x, IntfAbove env (latest h) c x ∧ intfOf s (kInt.st x) = d := by
  induction ha with
  | self => exact ⟨c, .self, rfl⟩
  | parent _ hm hne hi ih =>
    obtain ⟨x, hx, rfl⟩ := ih
    obtain ⟨y, hy, rfl⟩ := (mem_interfaces he hok hs _).mp hi
    obtain ⟨t, ht, e⟩ := List.mem_map.mp hm
    exact ⟨y, .parent hx ⟨t, ht, e⟩ hne hy, rfl⟩

theorem trait_self {w : World} {t u : Trt} (hu : t.uses = []) (ha : TraitAncestor w t u) : u = t := by
  induction ha with
  | self => rfl
  | parent _ hm _ _ ih => rw [ih, hu] at hm; cases hm

theorem classHas_of (he : EnvOK env) (hsl : env.LowerSlash) (hok : HistOK env h) (hs : run env root h = some s)
    {c : Class} {scope : Bytes} (hp : Provides (worldOf env s) (clsOf s c) scope) : ClassHas env (latest h) c scope := by
  obtain ⟨d, hd, hcase⟩ := hp
  obtain ⟨x, hx, rfl⟩ := above_of he hsl hok hs hd
  refine ⟨x, hx, ?_⟩
  rcases hcase with rfl | ⟨t, ht, hm, hne, u, hu, rfl⟩ | ⟨i, hi, hm, hne, j, hj, rfl⟩
  · exact .inl rfl
  · obtain ⟨y, hy, rfl⟩ := (mem_traits he hok hs _).mp ht
    obtain ⟨t, ht, e⟩ := List.mem_map.mp hm
    rw [trait_self rfl hu]
    exact .inr (.inl ⟨y, hy, ⟨t, ht, e⟩, hne, rfl⟩)
  · obtain ⟨y, hy, rfl⟩ := (mem_interfaces he hok hs _).mp hi
    obtain ⟨t, ht, e⟩ := List.mem_map.mp hm
    obtain ⟨z, hz, rfl⟩ := intfAbove_of he hok hs hj
    exact .inr (.inr ⟨y, hy, ⟨t, ht, e⟩, hne, z, hz, rfl⟩)

theorem has_of (he : EnvOK env) (hsl : env.LowerSlash) (hok : HistOK env h) (hs : run env root h = some s)
    {t scope : Bytes} (hp : HasFrom (worldOf env s) t scope) : Has env (latest h) t scope := by
  rcases hp with ⟨c, hc, hk, hp⟩ | ⟨i, hi, hk, j, hj, rfl⟩ | ⟨x, hx, hk, rfl⟩
  · obtain ⟨x, hx, rfl⟩ := (mem_classes he hok hs _).mp hc
    exact .inl ⟨x, hx, (key_iff hsl _ _).mp hk, classHas_of he hsl hok hs hp⟩
  · obtain ⟨y, hy, rfl⟩ := (mem_interfaces he hok hs _).mp hi
    obtain ⟨z, hz, rfl⟩ := intfAbove_of he hok hs hj
    exact .inr (.inl ⟨y, hy, (key_iff hsl _ _).mp hk, z, hz, rfl⟩)
  · obtain ⟨y, hy, rfl⟩ := (mem_traits he hok hs _).mp hx
    exact .inr (.inr ⟨y, hy, (key_iff hsl _ _).mp hk, rfl⟩)

/-- The names of declarations contain no separator. -/
theorem has_nosep (he : EnvOK env) (hok : HistOK env h) {t scope : Bytes} (hh : Has env (latest h) t scope) :
    sep ∉ scope := by
  have above : ∀ {c d : Class}, Live env (latest h) (.cla c) → Above env (latest h) c d → Live env (latest h) (.cla d) := by
    intro c d hc hd
    cases hd with
    | self => exact hc
    | parent _ _ h _ => exact h
  have above' : ∀ {c d : Interface}, Live env (latest h) (.int c) → IntfAbove env (latest h) c d →
      Live env (latest h) (.int d) := by
    intro c d hc hd
    cases hd with
    | self => exact hc
    | parent _ _ _ h => exact h
  have intf : ∀ {i : Interface}, Live env (latest h) (.int i) → sep ∉ i.name.fqn := fun hi =>
    (live_nosep he hok hi).1 _ (by simp [Sym.names])
  have trt : ∀ {i : Trait}, Live env (latest h) (.tra i) → sep ∉ i.name.fqn := fun hi =>
    (live_nosep he hok hi).1 _ (by simp [Sym.names])
  rcases hh with ⟨c, hc, -, d, hd, rfl | ⟨x, hx, -, -, rfl⟩ | ⟨i, hi, -, -, j, hj, rfl⟩⟩ | ⟨i, hi, -, j, hj, rfl⟩ |
    ⟨x, hx, -, rfl⟩
  · exact (live_nosep he hok (above hc hd)).1 _ (by simp [Sym.names])
  · exact trt hx
  · exact intf (above' hi hj)
  · exact intf (above' hi hj)
  · exact trt hx

theorem range_nosep (r : Range) : sep ∉ rangeString r := fun hc => by
  have := rangeString_chars r _ hc
  have h0 : sep.toNat = 0 := rfl
  rcases this with e | e | ⟨e, -⟩ <;> omega

/-- The methods of a name. -/
theorem mem_methods (he : EnvOK env) (hok : HistOK env h) (hs : run env root h = some s) {scope name : Bytes}
    (hn : name ≠ []) (m : Member) : m ∈ (worldOf env s).members .methods scope name ↔
      ∃ a, Live env (latest h) (.met a) ∧ (a.scope.fqn = scope ∧ env.lower a.name = env.lower name) ∧
        metOf s (kMet.st a) = m := by
  have := mem_lookup kMet he hok hs (scope ++ sep :: (env.lower name ++ [sep]))
    (fun a => a.scope.fqn = scope ∧ env.lower a.name = env.lower name) (fun a ha => by
      have hno := live_nosep he hok ha
      exact two_prefix (hno.1 _ (by simp [kMet, Sym.names]))
        (he.lower _ (hno.1 _ (by simp [kMet, Sym.names]))) hno.2)
  simp only [worldOf, membersOf, if_pos hn, List.mem_map]
  constructor
  · rintro ⟨y, hy, rfl⟩
    obtain ⟨a, h1, h2, rfl⟩ := (this y).mp hy
    exact ⟨a, h1, h2, rfl⟩
  · rintro ⟨a, h1, h2, rfl⟩
    exact ⟨_, (this _).mpr ⟨a, h1, h2, rfl⟩, rfl⟩

/-- Members that the lookups find are declared in the current files. -/
theorem member_of (he : EnvOK env) (hok : HistOK env h) (hs : run env root h = some s) {u : MemberUse} {scope name : Bytes}
    (hsc : sep ∉ scope) (hn : name ≠ []) {m : Member} (hm : m ∈ (worldOf env s).members u.kind scope (u.key name)) :
    ∃ x, Live env (latest h) x ∧ Declares env u scope name x ∧ num s x.stored = m.decl ∧ m.scope = scope ∧ (∀ g, x ≠ .gloVar g) ∧
      ((u = .prop ∨ u = .method) → (m.vis = .private_ ↔ Private x)) ∧ (m.isStatic = true ↔ Static x) := by
  have vis : ∀ v : GoInt, visOf v = .private_ ↔ v = 2 := by
    intro v
    unfold visOf
    split
    · rename_i h; subst h; decide
    · split <;> simp_all
  have hk : u.key name ≠ [] := by unfold MemberUse.key; split <;> simp [hn]
  have met : u.kind = .methods → u.key name = name → (u = .method ∨ u = .staticMethod) →
      m ∈ (worldOf env s).members .methods scope name → ∃ x, Live env (latest h) x ∧ Declares env u scope name x ∧
      num s x.stored = m.decl ∧ m.scope = scope ∧ (∀ g, x ≠ .gloVar g) ∧
      ((u = .prop ∨ u = .method) → (m.vis = .private_ ↔ Private x)) ∧ (m.isStatic = true ↔ Static x) := by
    intro _ _ hu hm
    simp only [worldOf, membersOf, if_pos hn, List.mem_map] at hm
    obtain ⟨y, hy, rfl⟩ := hm
    have := (mem_lookup kMet he hok hs _ (fun a => a.scope.fqn = scope ∧ env.lower a.name = env.lower name) (fun a ha => by
      have hno := live_nosep he hok ha
      exact two_prefix (hno.1 _ (by simp [kMet, Sym.names]))
        (he.lower _ (hno.1 _ (by simp [kMet, Sym.names]))) hno.2) y).mp hy
    obtain ⟨a, ha, ⟨h1, h2⟩, rfl⟩ := this
    exact ⟨.met a, ha, ⟨hu, h1, h2⟩, rfl, h1, by simp, fun _ => vis _, Iff.rfl⟩
  have pro : ∀ key, key ≠ [] → m ∈ (worldOf env s).members .props scope key → ∃ a : Property,
      Live env (latest h) (.pro a) ∧ a.scope.fqn = scope ∧ a.name = key ∧ num s (Sym.pro a).stored = m.decl ∧ m.scope = scope ∧
      (m.vis = .private_ ↔ Private (.pro a)) ∧ (m.isStatic = true ↔ Static (.pro a)) := by
    intro key hkey hm
    simp only [worldOf, membersOf, if_pos hkey, List.mem_map] at hm
    obtain ⟨y, hy, rfl⟩ := hm
    have := (mem_lookup kPro he hok hs _ (fun a => a.scope.fqn = scope ∧ a.name = key) (fun a ha => by
      have hno := live_nosep he hok ha
      refine two_prefix (hno.1 _ (by simp [kPro, Sym.names]))
        (hno.1 _ (by simp [kPro, Sym.names])) ?_
      rw [List.mem_append, not_or]
      exact ⟨hno.2, range_nosep _⟩) y).mp hy
    obtain ⟨a, ha, ⟨h1, h2⟩, rfl⟩ := this
    exact ⟨a, ha, h1, h2, rfl, h1, vis _, Iff.rfl⟩
  cases u with
  | method => exact met rfl rfl (.inl rfl) hm
  | staticMethod => exact met rfl rfl (.inr rfl) hm
  | prop =>
    obtain ⟨a, h1, h2, h3, h4, h7, h5, h6⟩ := pro (36 :: name) (by simp) hm
    exact ⟨.pro a, h1, .inl ⟨rfl, h2, h3⟩, h4, h7, by simp, fun _ => h5, h6⟩
  | staticProp =>
    obtain ⟨a, h1, h2, h3, h4, h7, h5, h6⟩ := pro name hn hm
    exact ⟨.pro a, h1, .inr ⟨rfl, h2, h3⟩, h4, h7, by simp, fun _ => h5, h6⟩
  | const =>
    have hm : m ∈ (worldOf env s).members .consts scope name := hm
    simp only [worldOf, membersOf, if_pos hn, List.mem_map] at hm
    obtain ⟨y, hy, rfl⟩ := hm
    have := (mem_lookup kClaCon he hok hs _ (fun a => a.scope.fqn = scope ∧ name <+: a.name) (fun a ha => by
      have hno := live_nosep he hok ha
      have := sep_prefix (a := scope) (a' := a.scope.fqn) (b' := a.name) (r := name) hsc
        (hno.1 _ (by simp [kClaCon, Sym.names]))
      exact this.trans (by rw [eq_comm])) y).mp hy
    obtain ⟨a, ha, ⟨h1, h2⟩, rfl⟩ := this
    exact ⟨.claCon a, ha, ⟨rfl, h1, h2⟩, rfl, h1, by simp, by simp, by simp [conOf, Static]⟩

/-- The classes that a class extends, one after the other, are the beginning of every search. -/
theorem lineage_prefix {w : World} (hw : Distinct w) {c : Cls} {l : List Cls} (hl : Lineage w c l) (ds : List Cls)
    (hc : (c :: ds).IsChain (ParentOf w)) (hn : (c :: ds).Nodup) : c :: ds <+: l := by
  induction ds using List.reverseRecOn with
  | nil =>
    have := hl.head
    cases l with
    | nil => cases this
    | cons x l => simp only [List.head?_cons, Option.some.injEq] at this; subst this; exact ⟨l, rfl⟩
  | append_singleton ds e ih =>
    rw [← List.cons_append] at hc hn
    obtain ⟨h1, -, h3⟩ := List.isChain_append.mp hc
    obtain ⟨rest, rfl⟩ := ih h1 (List.nodup_append.mp hn).1
    have hne : c :: ds ≠ [] := by simp
    have hlast : (c :: ds).getLast? = some ((c :: ds).getLast hne) := List.getLast?_eq_some_getLast hne
    have hp := h3 _ hlast e rfl
    cases rest with
    | nil =>
      exfalso
      have := hl.last _ (by rw [List.append_nil]; exact hlast) e hp
      rw [List.append_nil] at this
      exact (List.nodup_append.mp hn).2.2 _ this e (by simp) rfl
    | cons e' rest =>
      have hp' := (List.isChain_append.mp hl.chain).2.2 _ hlast e' rfl
      have : e' = e := by
        have hs := named_single hw hp.2.1 hp.2.2
        have hs' := named_single hw hp'.2.1 hp'.2.2
        rw [hs] at hs'
        injection hs' with e _
        exact e.symm
      subst this
      exact ⟨rest, by simp⟩

theorem clsOf_inj (he : EnvOK env) (hok : HistOK env h) (hs : run env root h = some s) {c d : Class}
    (hc : Live env (latest h) (.cla c)) (hd : Live env (latest h) (.cla d)) (e : clsOf s c = clsOf s d) : c = d := by
  have h1 := get_num_live he hok hs hc (by simp)
  have h2 := get_num_live he hok hs hd (by simp)
  have e : num s (.cla c) = num s (.cla d) := congrArg Cls.decl e
  rw [show (Sym.cla c).stored = .cla c from rfl] at h1
  rw [show (Sym.cla d).stored = .cla d from rfl] at h2
  rw [e, h2] at h1
  injection h1 with h1
  injection h1 with h1
  exact h1.symm

end Verif.Whole
