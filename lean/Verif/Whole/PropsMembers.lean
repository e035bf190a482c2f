import Verif.Whole.Members
import Verif.Whole.MembersSpec
import Verif.Whole.PropsSignatures
import Verif.Complete.PropsEnds

/-! C131: completion of members after any history of the index. -/

namespace Verif.Whole

open Verif.Encoding Verif.Storage Verif.Store Verif.Query

variable {env : Env} {root : Bytes} {h : List HOp} {s : Store}

/-- What the queries see of a stored member. -/
def memberOf (s : Store) : Sym → Member
  | .met m => metOf s m
  | .pro p => proOf s p
  | .claCon c => conOf s c
  | _ => ⟨[], [], .pub, false, 0⟩

theorem kindOf_stored (x : Sym) : kindOf x.stored = kindOf x := by cases x <;> rfl

theorem nameOf_stored (x : Sym) : nameOf x.stored = nameOf x := by cases x <;> rfl

theorem kindOf_nog {x : Sym} {k : Query.Kind} (hk : kindOf x = some k) (g) : x ≠ .gloVar g := by
  rintro rfl; cases hk

theorem memberOf_name {x : Sym} {k : Query.Kind} (hk : kindOf x = some k) (s : Store) :
    (memberOf s x.stored).name = nameOf x := by
  cases x <;> first | rfl | cases hk

theorem memberOf_scope {x : Sym} {k : Query.Kind} (hk : kindOf x = some k) (s : Store) :
    (memberOf s x.stored).scope = scopeOf x := by
  cases x <;> first | rfl | cases hk

theorem memberOf_decl {x : Sym} {k : Query.Kind} (hk : kindOf x = some k) (s : Store) :
    (memberOf s x.stored).decl = num s x.stored := by
  cases x <;> first | rfl | cases hk

theorem memberOf_static {x : Sym} {k : Query.Kind} (hk : kindOf x = some k) (s : Store) :
    (memberOf s x.stored).isStatic = true ↔ Static x := by
  cases x with
  | met m => exact Iff.rfl
  | pro m => exact Iff.rfl
  | claCon m => exact ⟨fun _ => trivial, fun _ => rfl⟩
  | _ => cases hk

theorem visOf_private (v : GoInt) : visOf v = .private_ ↔ v = 2 := by
  unfold visOf
  split
  · rename_i h; subst h; decide
  · split <;> simp_all

theorem visOf_pub (v : GoInt) : visOf v = .pub ↔ ¬ v = 1 ∧ ¬ v = 2 := by
  unfold visOf
  split
  · simp_all
  · split <;> simp_all

theorem memberOf_private {x : Sym} {k : Query.Kind} (hk : kindOf x = some k) (s : Store) :
    (memberOf s x.stored).vis = .private_ ↔ Private x := by
  cases x with
  | met m => exact visOf_private _
  | pro m => exact visOf_private _
  | claCon m => exact ⟨fun h => absurd (show Visibility.pub = .private_ from h) (by decide), fun h => h.elim⟩
  | _ => cases hk

theorem memberOf_public {x : Sym} {k : Query.Kind} (hk : kindOf x = some k) (s : Store) :
    (memberOf s x.stored).vis = .pub ↔ Public x := by
  cases x with
  | met m => exact visOf_pub _
  | pro m => exact visOf_pub _
  | claCon m => exact ⟨fun _ => ⟨id, id⟩, fun _ => rfl⟩
  | _ => cases hk

theorem openArrow_iff {x : Sym} {k : Query.Kind} (hk : kindOf x = some k) (s : Store) (cur : Bytes) (a : Access) :
    Complete.OpenArrow cur a (memberOf s x.stored) ↔ MayArrow cur a x := by
  simp only [Complete.OpenArrow, MayArrow, memberOf_public hk, memberOf_scope hk, ne_eq, memberOf_private hk]

theorem openScope_iff {x : Sym} {k : Query.Kind} (hk : kindOf x = some k) (s : Store) (cur : Bytes) (a : Access) :
    Complete.OpenScope cur a (memberOf s x.stored) ↔ MayScope cur a x := by
  simp only [Complete.OpenScope, MayScope, memberOf_public hk, memberOf_scope hk, ne_eq, memberOf_private hk,
    memberOf_static hk]

/-- Constants are stored as public ones. -/
theorem const_public {x : Sym} (hk : kindOf x = some .consts) (s : Store) : (memberOf s x.stored).vis = .pub := by
  cases x <;> first | rfl | cases hk

/-- All members of one kind that a declaration has. -/
theorem mem_all (he : EnvOK env) (hok : HistOK env h) (hs : run env root h = some s) (k : Query.Kind) {scope : Bytes}
    (hsc : sep ∉ scope) (m : Member) : m ∈ (worldOf env s).members k scope [] ↔
      ∃ x, Live env (latest h) x ∧ kindOf x = some k ∧ scopeOf x = scope ∧ memberOf s x.stored = m := by
  have sc : ∀ {x : Sym} {c r : Bytes}, Live env (latest h) x → c ∈ x.names → (scope ++ [sep] <+: c ++ sep :: r ↔
      c = scope) := by
    intro x c r hx hc
    have := sep_prefix (a := scope) (a' := c) (r := []) (b' := r) hsc ((live_nosep he hok hx).1 c hc)
    simp only [List.nil_prefix, and_true] at this
    rw [show scope ++ [sep] = scope ++ sep :: [] from rfl, this, eq_comm]
  cases k with
  | methods =>
    have := mem_lookup kMet he hok hs (scope ++ [sep]) (fun a => a.scope.fqn = scope)
      (fun a ha => sc ha (by simp [kMet, Sym.names]))
    simp only [worldOf, membersOf, ne_eq, not_true_eq_false, if_false, List.mem_map]
    constructor
    · rintro ⟨y, hy, rfl⟩
      obtain ⟨a, h1, h2, rfl⟩ := (this y).mp hy
      exact ⟨.met a, h1, rfl, h2, rfl⟩
    · rintro ⟨x, h1, h2, h3, rfl⟩
      cases x with
      | met a => exact ⟨_, (this _).mpr ⟨a, h1, h3, rfl⟩, rfl⟩
      | _ => cases h2
  | props =>
    have := mem_lookup kPro he hok hs (scope ++ [sep]) (fun a => a.scope.fqn = scope)
      (fun a ha => sc ha (by simp [kPro, Sym.names]))
    simp only [worldOf, membersOf, ne_eq, not_true_eq_false, if_false, List.mem_map]
    constructor
    · rintro ⟨y, hy, rfl⟩
      obtain ⟨a, h1, h2, rfl⟩ := (this y).mp hy
      exact ⟨.pro a, h1, rfl, h2, rfl⟩
    · rintro ⟨x, h1, h2, h3, rfl⟩
      cases x with
      | pro a => exact ⟨_, (this _).mpr ⟨a, h1, h3, rfl⟩, rfl⟩
      | _ => cases h2
  | consts =>
    have := mem_lookup kClaCon he hok hs (scope ++ [sep]) (fun a => a.scope.fqn = scope)
      (fun a ha => sc ha (by simp [kClaCon, Sym.names]))
    simp only [worldOf, membersOf, ne_eq, not_true_eq_false, if_false, List.mem_map]
    constructor
    · rintro ⟨y, hy, rfl⟩
      obtain ⟨a, h1, h2, rfl⟩ := (this y).mp hy
      exact ⟨.claCon a, h1, rfl, h2, rfl⟩
    · rintro ⟨x, h1, h2, h3, rfl⟩
      cases x with
      | claCon a => exact ⟨_, (this _).mpr ⟨a, h1, h3, rfl⟩, rfl⟩
      | _ => cases h2

/-- Whatever a lookup of members finds is declared in the current files. -/
theorem mem_any (he : EnvOK env) (hok : HistOK env h) (hs : run env root h = some s) (k : Query.Kind) {scope name : Bytes}
    {m : Member} (hm : m ∈ (worldOf env s).members k scope name) :
    ∃ x, Live env (latest h) x ∧ kindOf x = some k ∧ memberOf s x.stored = m := by
  have any : ∀ {α} (K : KindSpec α) (q : Bytes) (y : α), y ∈ (scanDecode s.db (entryKey K.coll q) K.read).getD [] →
      ∃ a, Live env (latest h) (K.con a) ∧ K.st a = y := by
    intro α K q y hy
    obtain ⟨xs, -, -, h3, h4⟩ := scan_all K he hok hs
    rw [h4, Option.getD_some, List.mem_map] at hy
    obtain ⟨a, ha, rfl⟩ := hy
    exact ⟨a, (h3 a).mp (List.mem_of_mem_filter ha), rfl⟩
  cases k with
  | methods =>
    simp only [worldOf, membersOf, List.mem_map] at hm
    obtain ⟨y, hy, rfl⟩ := hm
    split at hy
    all_goals
      obtain ⟨a, h1, rfl⟩ := any kMet _ y hy
      exact ⟨.met a, h1, rfl, rfl⟩
  | props =>
    simp only [worldOf, membersOf, List.mem_map] at hm
    obtain ⟨y, hy, rfl⟩ := hm
    split at hy
    all_goals
      obtain ⟨a, h1, rfl⟩ := any kPro _ y hy
      exact ⟨.pro a, h1, rfl, rfl⟩
  | consts =>
    simp only [worldOf, membersOf, List.mem_map] at hm
    obtain ⟨y, hy, rfl⟩ := hm
    split at hy
    all_goals
      obtain ⟨a, h1, rfl⟩ := any kClaCon _ y hy
      exact ⟨.claCon a, h1, rfl, rfl⟩

/-- The names of members contain no colon. -/
def NoColons (env : Env) (L : Bytes → Option Doc) : Prop :=
  ∀ x, Live env L x → kindOf x ≠ none → (58 : UInt8) ∉ nameOf x

theorem names_of (he : EnvOK env) (hok : HistOK env h) (hs : run env root h = some s) (hcol : NoColons env (latest h))
    {keyOf : Bytes → Bytes} (hkey : ∀ x, ∃ p, keyOf x = p ++ b!"::") : Complete.Names (worldOf env s) keyOf where
  keys := hkey
  plain k scope name m hm := by
    obtain ⟨x, hx, hk, rfl⟩ := mem_any he hok hs k hm
    rw [memberOf_name hk]
    exact hcol x hx (by rw [hk]; simp)

theorem ancestor_of (he : EnvOK env) (hsl : env.LowerSlash) (hok : HistOK env h) (hs : run env root h = some s)
    {c d : Class} (ha : Above env (latest h) c d) : Ancestor (worldOf env s) (clsOf s c) (clsOf s d) := by
  induction ha with
  | self => exact .self
  | parent _ hne hl hk ih =>
    exact .parent ih hne ((mem_classes he hok hs _).mpr ⟨_, hl, rfl⟩) ((key_iff hsl _ _).mpr hk)

theorem intfAncestor_of (he : EnvOK env) (hok : HistOK env h) (hs : run env root h = some s)
    {i j : Interface} (ha : IntfAbove env (latest h) i j) :
    IntfAncestor (worldOf env s) (intfOf s (kInt.st i)) (intfOf s (kInt.st j)) := by
  induction ha with
  | self => exact .self
  | parent _ hm hne hl ih =>
    obtain ⟨t, ht, e⟩ := hm
    exact .parent ih (List.mem_map.mpr ⟨t, ht, e⟩) hne ((mem_interfaces he hok hs _).mpr ⟨_, hl, rfl⟩)

theorem above_live {c d : Class} {L : Bytes → Option Doc} (hc : Live env L (.cla c)) (hd : Above env L c d) :
    Live env L (.cla d) := by
  cases hd with
  | self => exact hc
  | parent _ _ h _ => exact h

theorem intfAbove_live {c d : Interface} {L : Bytes → Option Doc} (hc : Live env L (.int c)) (hd : IntfAbove env L c d) :
    Live env L (.int d) := by
  cases hd with
  | self => exact hc
  | parent _ _ _ h => exact h

theorem has_own (he : EnvOK env) (hok : HistOK env h) (hs : run env root h = some s) {k : Query.Kind} {d : Class}
    (hd : Live env (latest h) (.cla d)) {m : Member} :
    Complete.Has (worldOf env s) k (clsOf s d) m ↔
      ∃ x, Live env (latest h) x ∧ kindOf x = some k ∧ Own env (latest h) d x ∧ memberOf s x.stored = m := by
  have h1 := mem_all he hok hs k (scope := d.name.fqn) ((live_nosep he hok hd).1 _ (by simp [Sym.names])) m
  constructor
  · rintro (hm | ⟨rfl, t, ht, hu, hne, hm⟩)
    · obtain ⟨x, h2, h3, h4, h5⟩ := h1.mp hm
      exact ⟨x, h2, h3, .inl h4, h5⟩
    · obtain ⟨y, hy, rfl⟩ := (mem_traits he hok hs _).mp ht
      obtain ⟨x, h2, h3, h4, h5⟩ := (mem_all he hok hs .methods
        ((live_nosep he hok hy).1 _ (by simp [Sym.names, trtOf])) m).mp hm
      obtain ⟨u, hu, e⟩ := List.mem_map.mp hu
      exact ⟨x, h2, h3, .inr ⟨h3, y, hy, ⟨u, hu, e⟩, hne, h4⟩, h5⟩
  · rintro ⟨x, h2, h3, h4 | ⟨h4, y, hy, ⟨u, hu, e⟩, hne, h6⟩, h5⟩
    · exact .inl (h1.mpr ⟨x, h2, h3, h4, h5⟩)
    · have : k = .methods := by rw [h3] at h4; exact Option.some.inj h4
      subst this
      exact .inr ⟨rfl, trtOf s y, (mem_traits he hok hs _).mpr ⟨y, hy, rfl⟩, List.mem_map.mpr ⟨u, hu, e⟩, hne,
        (mem_all he hok hs .methods ((live_nosep he hok hy).1 _ (by simp [Sym.names, trtOf])) m).mpr ⟨x, h2, h3, h6, h5⟩⟩

theorem has_asked (he : EnvOK env) (hok : HistOK env h) (hs : run env root h = some s) {k : Query.Kind} {d : Class}
    {m : Member} : Complete.HasByInterface (worldOf env s) k (clsOf s d) m ↔
      ∃ x, Live env (latest h) x ∧ kindOf x = some k ∧ Asked env (latest h) d x ∧ memberOf s x.stored = m := by
  constructor
  · rintro ⟨i, hi, hu, hne, scope, ⟨j, hj, rfl⟩, hm⟩
    obtain ⟨y, hy, rfl⟩ := (mem_interfaces he hok hs _).mp hi
    obtain ⟨z, hz, rfl⟩ := intfAbove_of he hok hs hj
    obtain ⟨u, hu, e⟩ := List.mem_map.mp hu
    obtain ⟨x, h2, h3, h4, h5⟩ := (mem_all he hok hs k
      ((live_nosep he hok (intfAbove_live hy hz)).1 _ (by simp [Sym.names, intfOf, kInt])) m).mp hm
    exact ⟨x, h2, h3, ⟨y, hy, ⟨u, hu, e⟩, hne, z, hz, h4⟩, h5⟩
  · rintro ⟨x, h2, h3, ⟨y, hy, ⟨u, hu, e⟩, hne, z, hz, h4⟩, h5⟩
    exact ⟨_, (mem_interfaces he hok hs _).mpr ⟨y, hy, rfl⟩, List.mem_map.mpr ⟨u, hu, e⟩, hne, _,
      ⟨_, intfAncestor_of he hok hs hz, rfl⟩, (mem_all he hok hs k
      ((live_nosep he hok (intfAbove_live hy hz)).1 _ (by simp [Sym.names, intfOf, kInt])) m).mpr ⟨x, h2, h3, h4, h5⟩⟩

theorem memberOf_inj (he : EnvOK env) (hok : HistOK env h) (hs : run env root h = some s) {x y : Sym} {k k' : Query.Kind}
    (hx : Live env (latest h) x) (hkx : kindOf x = some k) (hy : Live env (latest h) y) (hky : kindOf y = some k')
    (e : memberOf s x.stored = memberOf s y.stored) : x.stored = y.stored := by
  have h1 := get_num_live he hok hs hx (kindOf_nog hkx)
  have h2 := get_num_live he hok hs hy (kindOf_nog hky)
  rw [← memberOf_decl hkx, e, memberOf_decl hky, h2] at h1
  exact (Option.some.inj h1).symm

/-- The classes on the way up are declared. -/
theorem chain_live {L : Bytes → Option Doc} : ∀ (l : List Class) (d : Class), Live env L (.cla d) →
    (d :: l).IsChain (Extends env L) → ∀ e ∈ d :: l, Live env L (.cla e) := by
  intro l
  induction l with
  | nil => intro d hd _ e he; rw [List.mem_singleton.mp he]; exact hd
  | cons x l ih =>
    intro d hd hch e he
    rw [List.isChain_cons_cons] at hch
    rcases List.mem_cons.mp he with rfl | he
    · exact hd
    · exact ih x hch.1.2.1 hch.2 e he

/-- What is right by the lookups is right by the files. -/
theorem right_of (he : EnvOK env) (hsl : env.LowerSlash) (hok : HistOK env h) (hs : run env root h = some s)
    (ho : OneEach env (latest h)) {c : Class} (hc : Live env (latest h) (.cla c)) {k : Query.Kind} {mayUse : Member → Prop}
    {may : Sym → Prop} {fits : Bytes → Prop}
    (hmay : ∀ x, kindOf x = some k → (mayUse (memberOf s x.stored) ↔ may x))
    {l : List Cls} (hlin : Lineage (worldOf env s) (clsOf s c) l) {out : List Sym}
    (hout : ∀ y ∈ out, ∃ x, Live env (latest h) x ∧ kindOf x = some k ∧ x.stored = y)
    (hr : Complete.OffersFor (worldOf env s) k l mayUse fits (out.map (memberOf s))) :
    RightFor env (latest h) k c may fits out := by
  have hw := distinct he hsl hok hs ho
  have live : ∀ d ∈ l, ∃ x, Live env (latest h) (.cla x) ∧ Above env (latest h) c x ∧ clsOf s x = d := by
    intro d hd
    obtain ⟨x, hx, rfl⟩ := above_of he hsl hok hs ((lineage_ancestor hw hlin d).mp hd)
    exact ⟨x, above_live hc hx, hx, rfl⟩
  have inl : ∀ d, Above env (latest h) c d → clsOf s d ∈ l := fun d hd =>
    (lineage_ancestor hw hlin _).mpr (ancestor_of he hsl hok hs hd)
  have name : ∀ y ∈ out, (memberOf s y).name = nameOf y := by
    intro y hy
    obtain ⟨x, -, hk, rfl⟩ := hout y hy
    rw [memberOf_name hk, nameOf_stored]
  constructor
  · intro y hy
    obtain ⟨z, hz, hkz, rfl⟩ := hout y hy
    obtain ⟨h1, h2, h3⟩ := hr.right _ (List.mem_map_of_mem hy)
    have key : ∀ x, Live env (latest h) x → kindOf x = some k → memberOf s x.stored = memberOf s z.stored →
        ∀ d, Above env (latest h) c d → Own env (latest h) d x ∨ Asked env (latest h) d x →
        ∃ x, Live env (latest h) x ∧ x.stored = z.stored ∧ kindOf x = some k ∧ may x ∧ fits (nameOf x) ∧
          ∃ d, Above env (latest h) c d ∧ (Own env (latest h) d x ∨ Asked env (latest h) d x) := by
      intro x hx hk e d hd hcase
      rw [← e] at h1 h2
      exact ⟨x, hx, memberOf_inj he hok hs hx hk hz hkz e, hk, (hmay x hk).mp h1, memberOf_name hk s ▸ h2, d, hd, hcase⟩
    rcases h3 with ⟨near, d, far, hl, hhas, -⟩ | ⟨⟨d, hd, hhas⟩, -⟩
    · obtain ⟨d, hdl, hd, rfl⟩ := live d (by rw [hl]; simp)
      obtain ⟨x, hx, hk, ho, e⟩ := (has_own he hok hs hdl).mp hhas
      exact key x hx hk e d hd (.inl ho)
    · obtain ⟨d, -, hd', rfl⟩ := live d hd
      obtain ⟨x, hx, hk, ho, e⟩ := (has_asked he hok hs).mp hhas
      exact key x hx hk e d hd' (.inr ho)
  · intro x hx hk ⟨d, hd, hcase⟩ hm hf
    have hdl := above_live hc hd
    obtain ⟨m', h1, h2⟩ := hr.all _ (inl d hd) (memberOf s x.stored)
      (hcase.imp (fun h => (has_own he hok hs hdl).mpr ⟨x, hx, hk, h, rfl⟩)
        (fun h => (has_asked he hok hs).mpr ⟨x, hx, hk, h, rfl⟩)) ((hmay x hk).mpr hm) (by rwa [memberOf_name hk])
    obtain ⟨y, hy, rfl⟩ := List.mem_map.mp h1
    exact ⟨y, hy, by rw [← name y hy, h2, memberOf_name hk]⟩
  · have := hr.once
    rw [List.map_map] at this
    rwa [List.map_congr_left (f := nameOf) (g := (fun m : Member => m.name) ∘ memberOf s) (fun y hy => (name y hy).symm)]
  · intro ds e hlast hch hnd x hx hk hsc hm hf hone
    have hlive := chain_live ds c hc hch
    have hne : c :: ds ≠ [] := by simp
    have hsplit : c :: ds = (c :: ds).dropLast ++ [e] := by
      rw [List.getLast?_eq_some_getLast hne] at hlast
      rw [← Option.some.inj hlast, List.dropLast_append_getLast hne]
    have hel : Live env (latest h) (.cla e) := hlive e (by rw [hsplit]; simp)
    have hpre : clsOf s c :: ds.map (clsOf s) <+: l := by
      refine lineage_prefix hw hlin _ ?_ ?_
      · rw [← List.map_cons, List.isChain_map]
        have : ∀ (l : List Class), l.IsChain (Extends env (latest h)) →
            l.IsChain (fun a b => ParentOf (worldOf env s) (clsOf s a) (clsOf s b)) := fun l hl =>
          hl.imp fun a b hab => ⟨hab.1, (mem_classes he hok hs _).mpr ⟨b, hab.2.1, rfl⟩, (key_iff hsl _ _).mpr hab.2.2⟩
        exact this _ hch
      · rw [← List.map_cons]
        exact List.Nodup.map_on (fun x hx y hy e => clsOf_inj he hok hs (hlive x hx) (hlive y hy) e) hnd
    obtain ⟨rest, hrest⟩ := hpre
    rw [← List.map_cons, hsplit, List.map_append, List.append_assoc] at hrest
    have hown : Complete.Has (worldOf env s) k (clsOf s e) (memberOf s x.stored) :=
      (has_own he hok hs hel).mpr ⟨x, hx, hk, .inl hsc, rfl⟩
    have hmx := (hmay x hk).mpr hm
    obtain ⟨m', h1, h2⟩ := hr.all (clsOf s e) (by rw [← hrest]; simp) _ (.inl hown) hmx (by rwa [memberOf_name hk])
    obtain ⟨h3, -, hcase⟩ := hr.right m' h1
    -- the member that is there is one of `e`
    have hfrom : ∀ d, Live env (latest h) (.cla d) → Complete.Has (worldOf env s) k (clsOf s d) m' →
        ∃ y, Live env (latest h) y ∧ kindOf y = some k ∧ nameOf y = nameOf x ∧ may y ∧ Own env (latest h) d y ∧
          memberOf s y.stored = m' := by
      intro d hd hh
      obtain ⟨y, hy, hky, ho, rfl⟩ := (has_own he hok hs hd).mp hh
      refine ⟨y, hy, hky, ?_, (hmay y hky).mp h3, ho, rfl⟩
      rw [← memberOf_name hky s, h2, memberOf_name hk]
    have hthere : m' = memberOf s x.stored := by
      rcases hcase with ⟨near, d, far, hl, hhas, hnear⟩ | ⟨-, hnone⟩
      · rw [hl] at hrest
        have hde : d = clsOf s e ∨ d ∈ (c :: ds).dropLast.map (clsOf s) := by
          rcases List.append_eq_append_iff.mp hrest with ⟨a, h4, h5⟩ | ⟨a, h4, h5⟩
          · cases a with
            | nil => simp at h5; exact .inl h5.1.symm
            | cons z a =>
              simp only [List.map_cons, List.map_nil, List.cons_append, List.nil_append, List.cons.injEq] at h5
              refine absurd hmx (hnear (clsOf s e) ?_ _ hown h2.symm)
              rw [h4, h5.1]; simp
          · cases a with
            | nil => simp at h5; exact .inl h5.1
            | cons z a =>
              simp only [List.cons_append, List.cons.injEq] at h5
              right; rw [h4, h5.1]; simp
        rcases hde with rfl | hd
        · obtain ⟨y, hy, hky, h4, h5, h6, rfl⟩ := hfrom e hel hhas
          rw [(hone y hy hky h4 h5).1 h6]
        · obtain ⟨d', hd', rfl⟩ := List.mem_map.mp hd
          obtain ⟨y, hy, hky, h4, h5, h6, -⟩ := hfrom d' (hlive d' (by rw [hsplit]; exact List.mem_append_left _ hd')) hhas
          exact absurd h6 ((hone y hy hky h4 h5).2 d' hd')
      · exact absurd hmx (hnone (clsOf s e) (by rw [← hrest]; simp) _ hown h2.symm)
    rw [hthere] at h1
    obtain ⟨y, hy, hym⟩ := List.mem_map.mp h1
    obtain ⟨z, hz, hkz, rfl⟩ := hout y hy
    rw [← memberOf_inj he hok hs hz hkz hx hk hym]
    exact hy

/-! ### From items to offers -/

theorem offersOf_ofKind (he : EnvOK env) (hok : HistOK env h) (hs : run env root h = some s) (k : Query.Kind)
    {items : List Complete.MItem} (hit : ∀ it ∈ items, ∃ x, Live env (latest h) x ∧ kindOf x = some it.kind ∧
      memberOf s x.stored = it.found.member) :
    Complete.offered k items = (ofKind k (offersOf s items)).map (memberOf s) ∧
    ∀ y ∈ ofKind k (offersOf s items), ∃ x, Live env (latest h) x ∧ kindOf x = some k ∧ x.stored = y := by
  induction items with
  | nil => exact ⟨rfl, by simp [ofKind, offersOf]⟩
  | cons it items ih =>
    obtain ⟨ih1, ih2⟩ := ih fun i hi => hit i (List.mem_cons_of_mem _ hi)
    obtain ⟨x, hx, hk, e⟩ := hit it (by simp)
    have hget : (decls s)[it.found.member.decl]? = some x.stored := by
      rw [← e, memberOf_decl hk, get_num_live he hok hs hx (kindOf_nog hk)]
    have hcons : offersOf s (it :: items) = ⟨x.stored, it.label, it.insert⟩ :: offersOf s items := by
      simp [offersOf, hget]
    by_cases hkk : it.kind = k
    · have h1 : ofKind k (offersOf s (it :: items)) = x.stored :: ofKind k (offersOf s items) := by
        rw [hcons]; simp [ofKind, kindOf_stored, hk, hkk]
      have h2 : Complete.offered k (it :: items) = it.found.member :: Complete.offered k items := by
        simp [Complete.offered, hkk]
      rw [h1, h2, List.map_cons, ih1, e]
      refine ⟨rfl, fun y hy => ?_⟩
      rcases List.mem_cons.mp hy with rfl | hy
      · exact ⟨x, hx, hkk ▸ hk, rfl⟩
      · exact ih2 y hy
    · have h1 : ofKind k (offersOf s (it :: items)) = ofKind k (offersOf s items) := by
        rw [hcons]; simp [ofKind, kindOf_stored, hk, hkk]
      have h2 : Complete.offered k (it :: items) = Complete.offered k items := by
        simp [Complete.offered, hkk]
      rw [h1, h2]
      exact ⟨ih1, ih2⟩

/-- What an item of the lookups is made from. -/
theorem item_live (he : EnvOK env) (hsl : env.LowerSlash) (hok : HistOK env h) (hs : run env root h = some s)
    {k : Query.Kind} {t : Bytes} {m : Member} (hm : Complete.MemberOfType (worldOf env s) k t m) :
    ∃ x, Live env (latest h) x ∧ kindOf x = some k ∧ Has env (latest h) t (scopeOf x) ∧ memberOf s x.stored = m := by
  obtain ⟨scope, hsc, hm⟩ := hm
  have hh := has_of he hsl hok hs hsc
  obtain ⟨x, hx, hk, rfl, e⟩ := (mem_all he hok hs k (has_nosep he hok hh) m).mp hm
  exact ⟨x, hx, hk, hh, e⟩

theorem takesParams_met (he : EnvOK env) (hok : HistOK env h) (hs : run env root h = some s) {m : Method}
    (hm : Live env (latest h) (.met m)) : takesParams s (num s (Sym.met m).stored) = !m.params.isEmpty := by
  unfold takesParams
  rw [get_num_live he hok hs hm (by simp)]
  simp [Sym.stored]

/-- C131: every proposal after `->` is a method or a property of the current files. It belongs to what is called like one of
the types of the expression, its name fits what was typed, and it may be used there. The label is the name, of a property
without its first character (the dollar sign); a method is inserted with parentheses, and with the cursor between them if it
takes parameters. -/
theorem C131_arrow_right (he : EnvOK env) (hsl : env.LowerSlash) (hok : HistOK env h) (hs : run env root h = some s)
    (ho : OneEach env (latest h)) (keyOf : Bytes → Bytes) (n ni : Nat) (isMatch : Bytes → Option Int) (word : Bytes)
    (a : Access) (cur : Bytes) (offers : List Offer) (hr : arrowIn env s keyOf n ni isMatch word a cur = some offers)
    (o : Offer) (hoff : o ∈ offers) :
    ∃ x, Live env (latest h) x ∧ x.stored = o.decl ∧ (∃ t ∈ a.types, Has env (latest h) t (scopeOf x)) ∧
      Complete.Suits isMatch word (nameOf x) ∧ MayArrow cur a x ∧ ArrowText x o.label o.insert := by
  obtain ⟨items, hi, rfl⟩ := Option.map_eq_some_iff.mp hr
  obtain ⟨it, hit, ho'⟩ := List.mem_filterMap.mp hoff
  obtain ⟨hk, ⟨t, ht, hty⟩, hsuit, hopen, hmet, hpro⟩ := Complete.C92_right (worldOf env s) (distinct he hsl hok hs ho)
    keyOf n ni (takesParams s) isMatch word a cur items hi it hit
  obtain ⟨x, hx, hkx, hh, e⟩ := item_live he hsl hok hs hty
  rw [← e, memberOf_decl hkx, get_num_live he hok hs hx (kindOf_nog hkx), Option.map_some, Option.some.injEq] at ho'
  subst ho'
  rw [← e, memberOf_name hkx] at hsuit
  refine ⟨x, hx, rfl, ⟨t, ht, hh⟩, hsuit, (openArrow_iff hkx s cur a).mp (e ▸ hopen), ?_⟩
  rw [← e, memberOf_name hkx, memberOf_decl hkx] at hmet
  rw [← e, memberOf_name hkx] at hpro
  cases x with
  | met m =>
    obtain ⟨h1, h2⟩ := hmet (Option.some.inj hkx).symm
    rw [takesParams_met he hok hs hx] at h2
    refine ⟨h1, h2.trans ?_⟩
    cases m.params <;> rfl
  | pro p => exact hpro (Option.some.inj hkx).symm
  | claCon c =>
    have := (Option.some.inj hkx).symm
    rcases hk with h | h <;> rw [this] at h <;> cases h
  | _ => cases hkx

/-- C131: for an expression of one class the methods and properties after `->` are right and complete. -/
theorem C131_arrow_class (he : EnvOK env) (hsl : env.LowerSlash) (hok : HistOK env h) (hs : run env root h = some s)
    (ho : OneEach env (latest h)) (hap : ∀ d, Live env (latest h) (.cla d) → ∀ i, Live env (latest h) (.int i) →
      ¬ SameClassName env d.name.fqn i.name.fqn)
    (hcol : NoColons env (latest h)) (keyOf : Bytes → Bytes) (hkey : ∀ x, ∃ p, keyOf x = p ++ b!"::") (n ni : Nat)
    (isMatch : Bytes → Option Int) (word : Bytes) (a : Access) (cur : Bytes) (c : Class) (hc : Live env (latest h) (.cla c))
    (t : Bytes) (ht : a.types = [t]) (hct : SameClassName env c.name.fqn t) (offers : List Offer)
    (hr : arrowIn env s keyOf n ni isMatch word a cur = some offers) (k : Query.Kind) (hk : k ≠ .consts) :
    RightFor env (latest h) k c (MayArrow cur a) (Complete.Suits isMatch word) (ofKind k offers) := by
  obtain ⟨items, hi, rfl⟩ := Option.map_eq_some_iff.mp hr
  have hw := distinct he hsl hok hs ho
  obtain ⟨l, hlin, hoff⟩ := Complete.C92_class (worldOf env s) hw (apart_of he hsl hok hs hap) keyOf
    (names_of he hok hs hcol hkey) n ni (takesParams s) isMatch word a cur (clsOf s c)
    ((mem_classes he hok hs _).mpr ⟨c, hc, rfl⟩) t ht ((key_iff hsl _ _).mpr hct) items hi k hk
  obtain ⟨h1, h2⟩ := offersOf_ofKind he hok hs k (items := items) fun it hit => by
    obtain ⟨-, ⟨t, -, hty⟩, -⟩ := Complete.C92_right (worldOf env s) hw keyOf n ni (takesParams s) isMatch word a cur
      items hi it hit
    obtain ⟨x, hx, hkx, -, e⟩ := item_live he hsl hok hs hty
    exact ⟨x, hx, hkx, e⟩
  rw [h1] at hoff
  exact right_of he hsl hok hs ho hc (fun x hx => openArrow_iff hx s cur a) hlin h2 hoff

/-- C131: every proposal after `::` is a member of the current files that belongs to what is called like one of the types
of the name; its name fits what was typed, and it may be used there. After `$` there are only properties. -/
theorem C131_scope_right (he : EnvOK env) (hsl : env.LowerSlash) (hok : HistOK env h) (hs : run env root h = some s)
    (ho : OneEach env (latest h)) (keyOf : Bytes → Bytes) (n ni : Nat) (isMatch : Bytes → Option Int) (word : Bytes)
    (dollar : Bool) (a : Access) (cur : Bytes) (offers : List Offer)
    (hr : scopeIn env s keyOf n ni isMatch word dollar a cur = some offers) (o : Offer) (hoff : o ∈ offers) :
    ∃ x, Live env (latest h) x ∧ x.stored = o.decl ∧ (dollar = true → kindOf x = some .props) ∧
      (∃ t ∈ a.types, Has env (latest h) t (scopeOf x)) ∧
      Complete.Suits isMatch word (nameOf x) ∧ MayScope cur a x ∧ ScopeText x o.label o.insert := by
  obtain ⟨items, hi, rfl⟩ := Option.map_eq_some_iff.mp hr
  obtain ⟨it, hit, ho'⟩ := List.mem_filterMap.mp hoff
  obtain ⟨hd, ⟨t, ht, hty⟩, hsuit, hopen, hlab⟩ := Complete.C93_right (worldOf env s) (distinct he hsl hok hs ho)
    keyOf n ni (takesParams s) isMatch word dollar a cur items hi it hit
  obtain ⟨hins, hins'⟩ := Complete.C94_text_partial (worldOf env s)
    keyOf n ni (takesParams s) isMatch word dollar a cur items hi it hit
  obtain ⟨x, hx, hkx, hh, e⟩ := item_live he hsl hok hs hty
  rw [← e, memberOf_decl hkx, get_num_live he hok hs hx (kindOf_nog hkx), Option.map_some, Option.some.injEq] at ho'
  subst ho'
  rw [← e, memberOf_name hkx] at hsuit hlab
  refine ⟨x, hx, rfl, fun h => hd h ▸ hkx, ⟨t, ht, hh⟩, hsuit, ?_, ?_⟩
  · rcases hopen with h | ⟨h, h', -⟩
    · exact (openScope_iff hkx s cur a).mp (e ▸ h)
    · rw [← e, const_public (h ▸ hkx) s] at h'
      cases h'
  · unfold Complete.Written at hins hins'
    rw [← e, memberOf_name hkx, memberOf_decl hkx] at hins hins'
    cases x with
    | met m =>
      have hki := (Option.some.inj hkx).symm
      rw [hki, takesParams_met he hok hs hx] at hins
      refine ⟨hlab, (hins (by decide)).trans ?_⟩
      cases m.params <;> rfl
    | pro p =>
      have hki := (Option.some.inj hkx).symm
      rw [hki] at hins'
      exact ⟨hlab, fun b rest h => hins' rfl b rest h⟩
    | claCon c =>
      have hki := (Option.some.inj hkx).symm
      rw [hki] at hins
      exact ⟨hlab, hins (by decide)⟩
    | _ => cases hkx

/-- C131: for a name of one class the members after `::` are right and complete. -/
theorem C131_scope_class (he : EnvOK env) (hsl : env.LowerSlash) (hok : HistOK env h) (hs : run env root h = some s)
    (ho : OneEach env (latest h)) (hap : ∀ d, Live env (latest h) (.cla d) → ∀ i, Live env (latest h) (.int i) →
      ¬ SameClassName env d.name.fqn i.name.fqn)
    (hcol : NoColons env (latest h)) (keyOf : Bytes → Bytes) (hkey : ∀ x, ∃ p, keyOf x = p ++ b!"::") (n ni : Nat)
    (isMatch : Bytes → Option Int) (word : Bytes) (dollar : Bool) (a : Access) (cur : Bytes) (c : Class)
    (hc : Live env (latest h) (.cla c)) (t : Bytes) (ht : a.types = [t]) (hct : SameClassName env c.name.fqn t)
    (offers : List Offer) (hr : scopeIn env s keyOf n ni isMatch word dollar a cur = some offers) (k : Query.Kind)
    (hk : dollar = true → k = .props) :
    RightFor env (latest h) k c (MayScope cur a) (Complete.Suits isMatch word) (ofKind k offers) := by
  obtain ⟨items, hi, rfl⟩ := Option.map_eq_some_iff.mp hr
  have hw := distinct he hsl hok hs ho
  obtain ⟨mayUse, l, hm1, hm2, hlin, hoff⟩ := Complete.C93_class (worldOf env s) hw (apart_of he hsl hok hs hap) keyOf
    (names_of he hok hs hcol hkey) n ni (takesParams s) isMatch word dollar a cur (clsOf s c)
    ((mem_classes he hok hs _).mpr ⟨c, hc, rfl⟩) t ht ((key_iff hsl _ _).mpr hct) items hi k hk
  obtain ⟨h1, h2⟩ := offersOf_ofKind he hok hs k (items := items) fun it hit => by
    obtain ⟨-, ⟨t, -, hty⟩, -⟩ := Complete.C93_right (worldOf env s) hw keyOf n ni (takesParams s) isMatch word dollar a cur
      items hi it hit
    obtain ⟨x, hx, hkx, -, e⟩ := item_live he hsl hok hs hty
    exact ⟨x, hx, hkx, e⟩
  rw [h1] at hoff
  refine right_of he hsl hok hs ho hc (fun x hx => ?_) hlin h2 hoff
  rw [← openScope_iff hx s cur a]
  constructor
  · intro h
    rcases hm1 _ h with h | ⟨rfl, h', -⟩
    · exact h
    · rw [const_public hx s] at h'
      cases h'
  · intro h
    refine hm2 _ h ?_
    by_cases hkk : k = .consts
    · subst hkk
      exact .inr (by rw [const_public hx s]; decide)
    · exact .inl hkk

theorem noCycle (he : EnvOK env) (hsl : env.LowerSlash) (hok : HistOK env h) (hs : run env root h = some s)
    (hac : Acyclic env (latest h)) : NoCycle (worldOf env s) := by
  have lift : ∀ c d, Relation.TransGen (ParentOf (worldOf env s)) (clsOf s c) d →
      ∃ e, Live env (latest h) (.cla e) ∧ Relation.TransGen (Extends env (latest h)) c e ∧ clsOf s e = d := by
    intro c d hd
    have step : ∀ c d, ParentOf (worldOf env s) (clsOf s c) d →
        ∃ e, Live env (latest h) (.cla e) ∧ Extends env (latest h) c e ∧ clsOf s e = d := by
      intro c d hp
      obtain ⟨e, he', rfl⟩ := (mem_classes he hok hs _).mp hp.2.1
      exact ⟨e, he', ⟨hp.1, he', (key_iff hsl _ _).mp hp.2.2⟩, rfl⟩
    induction hd with
    | single h => obtain ⟨e, h1, h2, h3⟩ := step _ _ h; exact ⟨e, h1, .single h2, h3⟩
    | tail _ h ih =>
      obtain ⟨e, -, h2, rfl⟩ := ih
      obtain ⟨f, h4, h5, h6⟩ := step _ _ h
      exact ⟨f, h4, .tail h2 h5, h6⟩
  intro c hc hcc
  obtain ⟨x, hx, rfl⟩ := (mem_classes he hok hs _).mp hc
  obtain ⟨y, hy, h1, h2⟩ := lift _ _ hcc
  rw [clsOf_inj he hok hs hy hx h2] at h1
  exact hac x hx h1

/-- C131: completion of members answers after every history in which no class extends itself; a number of rounds can be
given beforehand that is enough for every request. Properties have names. -/
theorem C131_ends (he : EnvOK env) (hsl : env.LowerSlash) (hok : HistOK env h) (hs : run env root h = some s)
    (ho : OneEach env (latest h)) (hac : Acyclic env (latest h))
    (hnm : ∀ p, Live env (latest h) (.pro p) → p.name ≠ []) :
    ∃ N, ∀ keyOf isMatch word dollar a cur, ∃ arrow scope, ∀ n ni, N ≤ n → N ≤ ni →
      arrowIn env s keyOf n ni isMatch word a cur = some arrow ∧
      scopeIn env s keyOf n ni isMatch word dollar a cur = some scope := by
  have hnc := noCycle he hsl hok hs hac
  obtain ⟨N1, h1⟩ := Complete.C132_arrow (worldOf env s) hnc (distinct he hsl hok hs ho) (fun scope m hm => by
    obtain ⟨x, hx, hk, rfl⟩ := mem_any he hok hs .props hm
    rw [memberOf_name hk]
    cases x with
    | pro p => exact hnm p hx
    | _ => cases hk)
  obtain ⟨N2, h2⟩ := Complete.C132_scope (worldOf env s) hnc
  refine ⟨N1 + N2, fun keyOf isMatch word dollar a cur => ?_⟩
  obtain ⟨r1, h1⟩ := h1 keyOf (takesParams s) isMatch word a cur
  obtain ⟨r2, h2⟩ := h2 keyOf (takesParams s) isMatch word dollar a cur
  refine ⟨offersOf s r1, offersOf s r2, fun n ni hn hni => ⟨?_, ?_⟩⟩
  · rw [arrowIn, h1 n ni (by omega) (by omega), Option.map_some]
  · rw [scopeIn, h2 n ni (by omega) (by omega), Option.map_some]

/-- C132, after any history: go to definition, hovering and the marks for deprecated uses answer every request. -/
theorem C132_history (he : EnvOK env) (hsl : env.LowerSlash) (hok : HistOK env h) (hs : run env root h = some s)
    (hac : Acyclic env (latest h)) :
    ∃ N, ∀ tbl keyOf u, ∃ def_ hov, ∀ n ni, N ≤ n → N ≤ ni →
      definition (siteOf env s) tbl keyOf n ni u = some def_ ∧ hover (siteOf env s) tbl keyOf n ni u = some hov := by
  have hnc := noCycle he hsl hok hs hac
  obtain ⟨N1, h1⟩ := C132_definition (siteOf env s) hnc
  obtain ⟨N2, h2⟩ := C132_hover (siteOf env s) hnc
  refine ⟨N1 + N2, fun tbl keyOf u => ?_⟩
  obtain ⟨r1, h1⟩ := h1 tbl keyOf u
  obtain ⟨r2, h2⟩ := h2 tbl keyOf u
  exact ⟨r1, r2, fun n ni hn hni => ⟨h1 n ni (by omega) (by omega), h2 n ni (by omega) (by omega)⟩⟩

namespace Demo

open Verif.Store.Demo (uA uB a1 a2 b1)

/-- `Base` without a parent -/
def top : Class := ⟨Store.Demo.loc uB 1, Store.Demo.loc uB 1, 0, [], Store.Demo.ty b!"Base", ⟨[], [], 0⟩, [], [], none⟩

/-- a method of `Base` that `Foo` has as well -/
def bar : Method := ⟨Store.Demo.loc uB 4, Store.Demo.loc uB 4, b!"setBar", [], [], [], Store.Demo.ty b!"Base", 0, false, 0, none⟩

/-- a private method of `Base` -/
def hid : Method := ⟨Store.Demo.loc uB 5, Store.Demo.loc uB 5, b!"hid", [], [], [], Store.Demo.ty b!"Base", 2, true, 0, none⟩

/-- a static property of `Base` -/
def stat : Property := ⟨Store.Demo.loc uB 6, Store.Demo.loc uB 6, [], none, b!"$s", Store.Demo.ty b!"Base", 0, true, []⟩

/-- fourth version of `b.php` -/
def b4 : Doc where
  uri := uB
  hash := b!"6"
  symbols := [.cla top, .met bar, .met ctor, .met hid, .pro stat, Store.Demo.claCon uB b!"Base" b!"K"]
  namespaces := []
  refs := []

def membersHist : List HOp := [.upgrade b!"v0.0.16", .index a1, .index b2, .index a2, .restart, .index b4]

theorem b4_ok : DocOK Store.Demo.env b4 where
  uri := Store.Demo.uB_ok
  len := by decide
  syms := by
    have : ∀ x ∈ b4.symbols, x.WF := by
      simp [b4, top, bar, hid, stat, ctor, Store.Demo.claCon, Sym.WF, Class.WF, Method.WF, Parameter.WF, Property.WF,
        ClassConst.WF, Location.WF, Store.Demo.loc, uB, Str, Store.Demo.ty, TypeString.WF, Types.WF, ListWF, DeprecatedWF]
    intro x hx
    exact Store.Demo.sym_ok (this x hx) ((by decide +kernel : ∀ x ∈ b4.symbols, ∀ n ∈ x.names, sep ∉ n) x hx)
      ((by decide +kernel : ∀ x ∈ b4.symbols, x.location.uri = uB) x hx)
      ((by decide +kernel : ∀ x ∈ b4.symbols, (x.key Store.Demo.env).length < 1000) x hx)
  refsLen := by decide
  refs := by simp [b4]

theorem membersHist_ok : HistOK Store.Demo.env membersHist where
  docs := by
    rw [show docs membersHist = [a1, b2, a2, b4] from rfl]
    simp [Store.Demo.a1_ok, Store.Demo.a2_ok, b2_ok, b4_ok]
  consts := by
    intro d1 h1 d2 h2 c1 c2 m1 m2 _ _
    rw [show docs membersHist = [a1, b2, a2, b4] from rfl] at h1 h2
    simp only [List.mem_cons, List.not_mem_nil, or_false] at h1 h2
    rcases h1 with rfl | rfl | rfl | rfl <;> rcases h2 with rfl | rfl | rfl | rfl <;>
      first
        | rfl
        | (simp [a1, a2, b2, b4, Store.Demo.cla, Store.Demo.met, Store.Demo.pro, Store.Demo.fn, Store.Demo.glo,
            Store.Demo.claCon] at m1 m2; done)
        | (simp [a1, a2, b2, b4, Store.Demo.cla, Store.Demo.met, Store.Demo.pro, Store.Demo.fn, Store.Demo.glo,
            Store.Demo.claCon] at m1 m2; subst m1; subst m2; simp_all)
  crashes := by simp [Store.Keeps, membersHist]

theorem members_mem {x : Sym} (hx : Live Store.Demo.env (latest membersHist) x) : x ∈ a2.symbols ++ b4.symbols := by
  obtain ⟨u, d, pre, post, hu, hd, -⟩ := hx
  have : d = a2 ∨ d = b4 := by
    simp only [latest, membersHist, List.foldl_cons, List.foldl_nil, latestStep] at hu
    split at hu
    · exact .inr (Option.some.inj hu).symm
    · split at hu
      · exact .inl (Option.some.inj hu).symm
      · rename_i h1 h2
        rw [if_neg (show ¬ u = b2.uri from h1), if_neg (show ¬ u = a1.uri from h2)] at hu
        cases hu
  rw [List.mem_append]
  rcases this with rfl | rfl
  · left; rw [hd]; simp
  · right; rw [hd]; simp

theorem members_cla {c : Class} (hc : Live Store.Demo.env (latest membersHist) (.cla c)) : c = foo ∨ c = top := by
  have := members_mem hc
  simpa [a2, b4, Store.Demo.cla, Store.Demo.met, Store.Demo.pro, Store.Demo.claCon, foo] using this

theorem members_int {c : Interface} (hc : Live Store.Demo.env (latest membersHist) (.int c)) : False := by
  have := members_mem hc
  simp [a2, b4, Store.Demo.cla, Store.Demo.met, Store.Demo.pro, Store.Demo.claCon] at this

theorem members_foo : Live Store.Demo.env (latest membersHist) (.cla foo) :=
  ⟨uA, a2, [], _, rfl, rfl, trivial, by simp [Store.Demo.met, Store.Demo.pro, SameDecl, Sym.kind]⟩

theorem members_each : OneEach Store.Demo.env (latest membersHist) where
  classes c d hc hd h := by
    rcases members_cla hc with rfl | rfl <;> rcases members_cla hd with rfl | rfl
    · rfl
    · exact absurd ((classFQNLower_eq_iff Store.Demo.lower_slash _ _).mpr h) (by decide +kernel)
    · exact absurd ((classFQNLower_eq_iff Store.Demo.lower_slash _ _).mpr h) (by decide +kernel)
    · rfl
  interfaces c _ hc := (members_int hc).elim

theorem members_acyclic : Acyclic Store.Demo.env (latest membersHist) := by
  have step : ∀ d e, Live Store.Demo.env (latest membersHist) (.cla d) → Extends Store.Demo.env (latest membersHist) d e →
      d = foo ∧ e = top := by
    intro d e hd h
    rcases members_cla hd with rfl | rfl
    · rcases members_cla h.2.1 with rfl | rfl
      · exact absurd ((classFQNLower_eq_iff Store.Demo.lower_slash _ _).mpr h.2.2) (by decide +kernel)
      · exact ⟨rfl, rfl⟩
    · exact absurd rfl h.1
  intro c hc h
  have key : ∀ e, Relation.TransGen (Extends Store.Demo.env (latest membersHist)) c e → c = foo ∧ e = top := by
    intro e h
    induction h with
    | single h => exact step _ _ hc h
    | tail _ h ih =>
      obtain ⟨rfl, rfl⟩ := ih
      exact absurd rfl h.1
  obtain ⟨h1, h2⟩ := key c h
  rw [h1] at h2
  exact absurd h2 (by decide +kernel)

end Demo

/-- The conditions of the theorems hold of a history, and the lists for an object of `Foo`, whose parent is in another
file: its own `setBar` and not the parent's, with the text of a method that takes parameters, without the private method. -/
example : HistOK Store.Demo.env Demo.membersHist ∧ OneEach Store.Demo.env (latest Demo.membersHist) ∧
    Acyclic Store.Demo.env (latest Demo.membersHist) ∧ NoColons Store.Demo.env (latest Demo.membersHist) ∧
    (∀ d, Live Store.Demo.env (latest Demo.membersHist) (.cla d) → ∀ i, Live Store.Demo.env (latest Demo.membersHist) (.int i) →
      ¬ SameClassName Store.Demo.env d.name.fqn i.name.fqn) ∧
    (∀ p, Live Store.Demo.env (latest Demo.membersHist) (.pro p) → p.name ≠ []) ∧
    (∃ s, run Store.Demo.env Store.Demo.root Demo.membersHist = some s ∧
      [arrowIn Store.Demo.env s (fun s => s ++ b!"::") 9 9 (fun _ => none) [] ⟨b!"$x", [b!"\\N\\FOO"]⟩ [],
       scopeIn Store.Demo.env s (fun s => s ++ b!"::") 9 9 (fun _ => none) [] false ⟨b!"Foo", [b!"\\N\\Foo"]⟩ []] =
      [some [⟨(Store.Demo.met Store.Demo.uA b!"N\\Foo" b!"setBar").stored, b!"setBar", b!"setBar()"⟩,
        ⟨(Sym.met Demo.ctor).stored, b!"__construct", b!"__construct($0)"⟩,
        ⟨(Store.Demo.pro Store.Demo.uA b!"N\\Foo" b!"$p").stored, b!"p", b!"p"⟩, ⟨(Sym.pro Demo.stat).stored, b!"s", b!"s"⟩],
       some [⟨(Sym.pro Demo.stat).stored, b!"$s", b!"s"⟩,
        ⟨(Store.Demo.claCon Store.Demo.uB b!"Base" b!"K").stored, b!"K", b!"K"⟩]]) := by
  refine ⟨Demo.membersHist_ok, Demo.members_each, Demo.members_acyclic, fun x hx _ => ?_,
    fun _ _ i hi => (Demo.members_int hi).elim, fun p hp => ?_, Store.Demo.observe _ _ (by decide +kernel)⟩
  · exact (by decide +kernel : ∀ x ∈ Store.Demo.a2.symbols ++ Demo.b4.symbols, (58 : UInt8) ∉ nameOf x) x (Demo.members_mem hx)
  · have := (by decide +kernel : ∀ x ∈ Store.Demo.a2.symbols ++ Demo.b4.symbols, kindOf x = some .props → nameOf x ≠ [])
      _ (Demo.members_mem hp) rfl
    exact this

end Verif.Whole
