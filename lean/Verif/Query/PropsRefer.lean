import Verif.Query.ReferSpec
import Verif.Query.PropsAccess
import Verif.Imports.Props

/-! C77: marks for uses of deprecated declarations. C78: go to definition. -/

namespace Verif.Query

open Verif.Types Verif.Imports

/-! ### lookups -/

theorem of_classesNamed {w : World} {t : Bytes} {c : Cls} (h : c ∈ w.classesNamed t) :
    c ∈ w.classes ∧ w.key c.name = w.key t := by
  simpa [World.classesNamed] using h

theorem of_interfacesNamed {w : World} {t : Bytes} {c : Intf} (h : c ∈ w.interfacesNamed t) :
    c ∈ w.interfaces ∧ c.name = t := by
  simpa [World.interfacesNamed] using h

theorem of_traitsNamed {w : World} {t : Bytes} {c : Trt} (h : c ∈ w.traitsNamed t) : c ∈ w.traits ∧ c.name = t := by
  simpa [World.traitsNamed] using h

/-- What a lookup may be. -/
theorem mem_lookups {w : World} {n ni : Nat} {u : MemberUse} {name t : Bytes} {l : Lookup}
    (h : l ∈ lookups w n ni u name t) :
    (∃ c ∈ w.classesNamed t, u.kind = .methods ∧ l = getClassMethods w n ni c (u.key name)) ∨
    (∃ c ∈ w.classesNamed t, u.kind ≠ .methods ∧ l = getClassPlain w u.kind n ni c (u.key name)) ∨
    (∃ i ∈ w.interfacesNamed t, l = getInterface w u.kind ni i (u.key name)) ∨
    (∃ x ∈ w.traitsNamed t, u = .method ∧ l = fun _ st => some (getTrait w x (u.key name) st)) := by
  have hc : l ∈ ((w.classesNamed t).map fun c =>
      if u.kind = .methods then getClassMethods w n ni c (u.key name) else getClassPlain w u.kind n ni c (u.key name)) →
      (∃ c ∈ w.classesNamed t, u.kind = .methods ∧ l = getClassMethods w n ni c (u.key name)) ∨
      (∃ c ∈ w.classesNamed t, u.kind ≠ .methods ∧ l = getClassPlain w u.kind n ni c (u.key name)) := by
    intro h
    obtain ⟨c, hc, rfl⟩ := List.mem_map.1 h
    by_cases hk : u.kind = .methods
    · exact .inl ⟨c, hc, hk, by rw [if_pos hk]⟩
    · exact .inr ⟨c, hc, hk, by rw [if_neg hk]⟩
  have hi : l ∈ ((w.interfacesNamed t).map fun i => getInterface w u.kind ni i (u.key name)) →
      (∃ i ∈ w.interfacesNamed t, l = getInterface w u.kind ni i (u.key name)) := by
    intro h
    obtain ⟨i, hi, rfl⟩ := List.mem_map.1 h
    exact ⟨i, hi, rfl⟩
  have hx : u = .method → l ∈ ((w.traitsNamed t).map fun x => fun (_ : Option Nat) st => some (getTrait w x (u.key name) st)) →
      (∃ x ∈ w.traitsNamed t, u = .method ∧ l = fun _ st => some (getTrait w x (u.key name) st)) := by
    intro hu h
    obtain ⟨x, hx, rfl⟩ := List.mem_map.1 h
    exact ⟨x, hx, hu, rfl⟩
  unfold lookups at h
  cases u
  case const =>
    rcases List.mem_append.1 h with h | h
    · rcases hc h with h | h
      · exact .inl h
      · exact .inr (.inl h)
    · exact .inr (.inr (.inl (hi h)))
  case method =>
    rcases List.mem_append.1 h with h | h
    · rcases List.mem_append.1 h with h | h
      · rcases hc h with h | h
        · exact .inl h
        · exact .inr (.inl h)
      · exact .inr (.inr (.inl (hi h)))
    · exact .inr (.inr (.inr (hx rfl h)))
  all_goals
    rcases hc h with h | h
    · exact .inl h
    · exact .inr (.inl h)

/-- Found in the scope that is recorded with it, from which `t` has members. -/
def MemberAt (w : World) (u : MemberUse) (name t : Bytes) (f : Found) : Prop :=
  HasFrom w t f.scope ∧ f.member ∈ w.members u.kind f.scope (u.key name)

theorem lookup_at {w : World} (hw : Distinct w) {n ni : Nat} {u : MemberUse} {name t : Bytes} {l : Lookup}
    (hl : l ∈ lookups w n ni u name t) {o : Option Nat} {st : St} (hst : Reachable w st) {r : Inherited × St}
    (h : l o st = some r) : Reachable w r.2 ∧ ∀ f ∈ r.1.members, MemberAt w u name t f := by
  have hf : ∀ {k : Kind} {f : Found}, f ∈ w.found k f.scope (u.key name) → f.member ∈ w.members k f.scope (u.key name) := by
    intro k f hf
    simp only [World.found, List.mem_map] at hf
    obtain ⟨m, hm, he⟩ := hf
    have : f.member = m := by rw [← he]
    rw [this]; exact hm
  rcases mem_lookups hl with ⟨c, hc, hk, rfl⟩ | ⟨c, hc, hk, rfl⟩ | ⟨i, hi, rfl⟩ | ⟨x, hx, hu, rfl⟩
  · obtain ⟨hc1, hc2⟩ := of_classesNamed hc
    refine ⟨.methods hst hc1 h, fun f hm => ?_⟩
    have := (C30_sound w hw st hst c hc1 _ o n ni r).1 h f hm
    exact ⟨.inl ⟨c, hc1, hc2, this.1⟩, by rw [hk]; exact hf this.2⟩
  · obtain ⟨hc1, hc2⟩ := of_classesNamed hc
    refine ⟨.plain hst hk hc1 h, fun f hm => ?_⟩
    have := (C30_sound w hw st hst c hc1 _ o n ni r).2 _ h f hm
    exact ⟨.inl ⟨c, hc1, hc2, this.1⟩, hf this.2⟩
  · obtain ⟨hi1, hi2⟩ := of_interfacesNamed hi
    refine ⟨.interface hst hi1 h, fun f hm => ?_⟩
    have := C30_sound_interfaces w hw st hst i hi1 _ _ o ni r h f hm
    exact ⟨.inr (.inl ⟨i, hi1, by rw [hi2], this.1⟩), hf this.2⟩
  · obtain ⟨hx1, hx2⟩ := of_traitsNamed hx
    injection h with h
    subst h
    refine ⟨.trait hst hx1, fun f hm => ?_⟩
    simp only [(getTrait_ok w x (u.key name) st (hst.cacheOk hw)).2, World.found, List.mem_map] at hm
    obtain ⟨m, hm, rfl⟩ := hm
    subst hu
    exact ⟨.inr (.inr ⟨x, hx1, by rw [hx2], rfl⟩), hm⟩

theorem gather_at {w : World} (hw : Distinct w) {n ni : Nat} {u : MemberUse} {name t : Bytes} (ls : List Lookup)
    (hls : ∀ l ∈ ls, l ∈ lookups w n ni u name t) (ms : Inherited) (st : St) (hst : Reachable w st) (r : Inherited × St)
    (hms : ∀ f ∈ ms.members, MemberAt w u name t f) (h : gather ls ms st = some r) :
    Reachable w r.2 ∧ ∀ f ∈ r.1.members, MemberAt w u name t f := by
  induction ls generalizing ms st with
  | nil => injection h with h; subst h; exact ⟨hst, hms⟩
  | cons l ls ih =>
    unfold gather at h
    split at h
    · cases h
    · rename_i r1 st1 h1
      obtain ⟨h2, h3⟩ := lookup_at hw (hls l List.mem_cons_self) hst h1
      refine ih (fun x hx => hls x (List.mem_cons_of_mem _ hx)) _ _ (.merged _ _ h2) ?_ h
      intro f hf
      rcases List.mem_append.1 hf with hf | hf
      · exact hms f hf
      · exact h3 f hf

theorem lookup_sound {w : World} (hw : Distinct w) {n ni : Nat} {u : MemberUse} {name t : Bytes} {l : Lookup}
    (hl : l ∈ lookups w n ni u name t) {o : Option Nat} {st : St} (hst : Reachable w st) {r : Inherited × St}
    (h : l o st = some r) : Reachable w r.2 ∧ ∀ f ∈ r.1.members, MemberOf w u name t f.member :=
  ⟨(lookup_at hw hl hst h).1, fun f hf => ⟨_, (lookup_at hw hl hst h).2 f hf⟩⟩

/-- What the rules let through. -/
theorem mem_reduce {u : MemberUse} {cur : Bytes} {a : Access} {m : Inherited} {f : Found} (h : f ∈ u.reduce cur a m) :
    ∃ g ∈ m.members, f.member = g.member ∧ f.scope = g.scope ∧
      ((u = .prop ∨ u = .method) → isInherited cur a m.rel g.member = true) ∧
      ((u ≠ .prop ∧ u ≠ .method) → isInheritedStatic cur a m.rel g.member = true) := by
  have h1 : f ∈ m.reduceAccess cur a → ∃ g ∈ m.members, f.member = g.member ∧ f.scope = g.scope ∧
      isInherited cur a m.rel g.member = true := by
    intro h
    obtain ⟨pre, g, post, e, h2, h3, h4, _⟩ := (C32_access m cur a).2.1 f h
    exact ⟨g, by rw [e]; simp, h2, h3, h4⟩
  have h2 : f ∈ m.reduceStatic cur a → ∃ g ∈ m.members, f.member = g.member ∧ f.scope = g.scope ∧
      isInheritedStatic cur a m.rel g.member = true := by
    intro h
    obtain ⟨pre, post, e, h2, _⟩ := (C32_static m cur a).2.1 f h
    exact ⟨f, by rw [e]; simp, rfl, rfl, h2⟩
  cases u
  case prop => obtain ⟨g, x, y, z, v⟩ := h1 h; exact ⟨g, x, y, z, fun _ => v, fun h => absurd rfl h.1⟩
  case method => obtain ⟨g, x, y, z, v⟩ := h1 h; exact ⟨g, x, y, z, fun _ => v, fun h => absurd rfl h.2⟩
  all_goals
    obtain ⟨g, x, y, z, v⟩ := h2 h
    exact ⟨g, x, y, z, (fun h => by rcases h with h | h <;> cases h), fun _ => v⟩

/-! ### C78, members -/

/-- What the access rules say of every member that is reported. -/
def Reported (u : MemberUse) (cur : Bytes) (a : Access) (m : Member) : Prop :=
  ((u = .prop ∨ u = .method) → m.vis = .private_ → a.scopeName = b!"$this" ∧ m.scope = cur ∨ cur ∈ a.types) ∧
  ((u ≠ .prop ∧ u ≠ .method) → a.scopeName ∉ [b!"parent", b!"self", b!"static", b!"$this"] → m.isStatic = true)

theorem memberLoop_at {w : World} (hw : Distinct w) (keyOf : Bytes → Bytes) (n ni : Nat) (u : MemberUse) (a : Access)
    (name cur : Bytes) (all ts : List Bytes) (hts : ∀ t ∈ ts, t ∈ all) (acc : List Found) (st : St) (hst : Reachable w st)
    (hacc : ∀ f ∈ acc, (∃ t ∈ all, MemberAt w u name t f) ∧ Reported u cur a f.member) (r : List Found)
    (h : memberLoop w keyOf n ni u a name cur ts acc st = some r) :
    ∀ f ∈ r, (∃ t ∈ all, MemberAt w u name t f) ∧ Reported u cur a f.member := by
  induction ts generalizing acc st with
  | nil => injection h with h; subst h; exact hacc
  | cons t ts ih =>
    unfold memberLoop at h
    simp only at h
    split at h
    · cases h
    · rename_i ms st1 h1
      obtain ⟨h2, h3⟩ := gather_at hw (n := n) (ni := ni) (u := u) (name := name) (t := t) _ (fun _ h => h) _ _
        (.newSet hst) _ (by simp) h1
      refine ih (fun t h => hts t (List.mem_cons_of_mem _ h)) _ _ h2 ?_ h
      intro f hf
      obtain ⟨l, hl, hfl⟩ := (C32_union keyOf [acc, u.reduce cur a ms]).2.1 f hf
      simp only [List.mem_cons, List.not_mem_nil, or_false] at hl
      rcases hl with rfl | rfl
      · exact hacc f hfl
      · obtain ⟨g, hg, e1, e2, e3, e4⟩ := mem_reduce hfl
        have hat : MemberAt w u name t f := by unfold MemberAt; rw [e1, e2]; exact h3 g hg
        rw [e1]
        refine ⟨⟨t, hts t List.mem_cons_self, hat⟩, fun hu hv => ?_, fun hu hn => ?_⟩
        · exact C31_private_needs_class cur a ms.rel g.member (e3 hu) hv
        · simp only [List.mem_cons, List.not_mem_nil, or_false, not_or] at hn
          exact C31_static_only cur a ms.rel g.member hn.1 (by simp [hn]) (e4 hu)

/-- C78: where an access of a member leads is, for some type of the object or class, a declaration of a member that is
looked up under this name in a class, interface or trait from which the type has members; in a file that can be opened.
It is private only if the code is in the class, and after `Name::` it is static. -/
theorem C78_member_sound (s : Site) (hw : Distinct s.world) (tbl : Table) (keyOf : Bytes → Bytes) (n ni : Nat)
    (u : MemberUse) (a : Access) (name cur : Bytes) (r : List Nat)
    (h : definition s tbl keyOf n ni (.member u a name cur) = some r) (d : Nat) (hd : d ∈ r) :
    s.navigable d = true ∧ ∃ t ∈ a.types, ∃ m, MemberOf s.world u name t m ∧ m.decl = d ∧
      ((u = .prop ∨ u = .method) → m.vis = .private_ → a.scopeName = b!"$this" ∧ m.scope = cur ∨ cur ∈ a.types) ∧
      ((u ≠ .prop ∧ u ≠ .method) → a.scopeName ∉ [b!"parent", b!"self", b!"static", b!"$this"] → m.isStatic = true) := by
  simp only [definition, locations] at h
  cases hl : memberLoop s.world keyOf n ni u a name cur a.types [] St.new with
  | none => rw [hl] at h; cases h
  | some l =>
    rw [hl] at h
    injection h with h
    subst h
    simp only [List.mem_filter, List.mem_map] at hd
    obtain ⟨⟨f, hf, rfl⟩, hn⟩ := hd
    obtain ⟨⟨t, ht, hm⟩, hr⟩ := memberLoop_at hw keyOf n ni u a name cur a.types a.types (fun _ h => h) [] St.new .new
      (by simp) l hl f hf
    exact ⟨hn, t, ht, f.member, ⟨_, hm⟩, rfl, hr⟩

theorem named_single {w : World} (hw : Distinct w) {c : Cls} (hc : c ∈ w.classes) {t : Bytes}
    (ht : w.key c.name = w.key t) : w.classesNamed t = [c] := by
  have hnd := hw.classes
  unfold World.classesNamed
  rw [← ht]
  clear ht hw
  revert hc hnd
  generalize w.classes = l
  intro hc hnd
  induction l with
  | nil => cases hc
  | cons x l ih =>
    simp only [List.map_cons, List.nodup_cons] at hnd
    rcases List.mem_cons.1 hc with rfl | hc
    · have : l.filter (fun d => w.key d.name = w.key c.name) = [] := by
        rw [List.filter_eq_nil_iff]
        intro d hd he
        exact hnd.1 (List.mem_map.2 ⟨d, hd, by simpa using he⟩)
      rw [List.filter_cons_of_pos (by simp), this]
    · have hx : w.key x.name ≠ w.key c.name := fun he => hnd.1 (List.mem_map.2 ⟨c, hc, he.symm⟩)
      rw [List.filter_cons_of_neg (by simpa using hx)]
      exact ih hc hnd.2

/-- The lookup of a class. -/
def classLookup (w : World) (n ni : Nat) (u : MemberUse) (name : Bytes) (c : Cls) : Lookup :=
  if u.kind = .methods then getClassMethods w n ni c (u.key name) else getClassPlain w u.kind n ni c (u.key name)

theorem lookups_single {w : World} (hw : Distinct w) {c : Cls} (hc : c ∈ w.classes) (hal : Alone w c) {t : Bytes}
    (ht : w.key c.name = w.key t) (n ni : Nat) (u : MemberUse) (name : Bytes) :
    lookups w n ni u name t = [classLookup w n ni u name c] := by
  have hi : w.interfacesNamed t = [] := by
    unfold World.interfacesNamed
    rw [List.filter_eq_nil_iff]
    intro i hi he
    exact hal.1 i hi (by rw [ht]; simp at he; rw [he])
  have hx : w.traitsNamed t = [] := by
    unfold World.traitsNamed
    rw [List.filter_eq_nil_iff]
    intro i hi he
    exact hal.2 i hi (by rw [ht]; simp at he; rw [he])
  unfold lookups
  rw [named_single hw hc ht, hi, hx]
  cases u <;> rfl

theorem classLookup_fresh (w : World) (n ni : Nat) (u : MemberUse) (name : Bytes) (c : Cls) :
    classLookup w n ni u name c (some 0) St.new.newSet.2 = classLookup w n ni u name c none St.new := by
  unfold classLookup
  split <;> rfl

/-- The names of what is reported are all different. -/
theorem reduce_names (u : MemberUse) (cur : Bytes) (a : Access) (m : Inherited) :
    ((u.reduce cur a m).map fun f => f.member.name).Nodup := by
  cases u
  case prop => exact (C32_access m cur a).1
  case method => exact (C32_access m cur a).1
  all_goals exact (C32_static m cur a).1

theorem short {nm : Bytes} {l : List Found} (hn : (l.map fun f => f.member.name).Nodup)
    (hall : ∀ f ∈ l, f.member.name = nm) : l = [] ∨ ∃ f, l = [f] := by
  cases l with
  | nil => exact .inl rfl
  | cons f l =>
    cases l with
    | nil => exact .inr ⟨f, rfl⟩
    | cons g l =>
      exfalso
      simp only [List.map_cons, List.nodup_cons, List.mem_cons, not_or] at hn
      exact hn.1.1 ((hall f (by simp)).trans (hall g (by simp)).symm)

theorem merge_short (keyOf : Bytes → Bytes) {l : List Found} (h : l = [] ∨ ∃ f, l = [f]) :
    mergeWithScope keyOf [[], l] = l := by
  rcases h with rfl | ⟨f, rfl⟩ <;> rfl

theorem classLookup_mem {w : World} (hw : Distinct w) {c : Cls} (hc : c ∈ w.classes) (hal : Alone w c) {n ni : Nat}
    {u : MemberUse} {name : Bytes} {r : Inherited × St} (h : classLookup w n ni u name c none St.new = some r) :
    ∀ f ∈ r.1.members, MemberOf w u name c.name f.member :=
  (lookup_sound (n := n) (ni := ni) hw (by rw [lookups_single hw hc hal rfl]; simp) .new h).2

/-- The declarations for an access of a member of one class are those that the rules leave of what a new query finds. -/
theorem locations_single (s : Site) (hw : Distinct s.world) (tbl : Table)
    (keyOf : Bytes → Bytes) (n ni : Nat) (c : Cls) (hc : c ∈ s.world.classes) (hal : Alone s.world c) (t : Bytes)
    (ht : s.world.key c.name = s.world.key t) (u : MemberUse) (a : Access) (ha : a.types = [t]) (name cur : Bytes)
    (hx : AsNamed s.world u name) :
    locations s tbl keyOf n ni (.member u a name cur) =
      (classLookup s.world n ni u name c none St.new).map fun r => (u.reduce cur a r.1).map (·.member.decl) := by
  simp only [locations, ha, memberLoop, lookups_single hw hc hal ht, gather]
  have e : classLookup s.world n ni u name c (some St.new.newSet.1) St.new.newSet.2 =
      classLookup s.world n ni u name c none St.new := classLookup_fresh ..
  rw [e]
  cases h : classLookup s.world n ni u name c none St.new with
  | none => rfl
  | some r =>
    obtain ⟨r, st⟩ := r
    have hmem := classLookup_mem hw hc hal h
    have hr : u.reduce cur a { members := [] ++ r.members, rel := [] ++ r.rel, searched := St.new.newSet.1 } =
        u.reduce cur a r := by cases u <;> rfl
    simp only [merge, Option.map_some]
    rw [hr, merge_short]
    refine short (nm := u.key name) (reduce_names u cur a r) fun f hf => ?_
    obtain ⟨g, hg, e1, _⟩ := mem_reduce hf
    obtain ⟨scope, _, hm⟩ := hmem g hg
    rw [e1]
    exact hx _ _ hm

/-- The elements of a list of which the first that passes is taken. -/
theorem first_ok {α : Type} (F : α → List Found) (ok : Found → Prop) (l : List α) (I pre post : List Found) (g : Found)
    (h : l.flatMap F ++ I = pre ++ g :: post) (hpre : ∀ x ∈ pre, ¬ ok x) :
    (∃ l1 d l2, l = l1 ++ d :: l2 ∧ g ∈ F d ∧ ∀ e ∈ l1, ∀ x ∈ F e, ¬ ok x) ∨
    (g ∈ I ∧ ∀ e ∈ l, ∀ x ∈ F e, ¬ ok x) := by
  induction l generalizing pre with
  | nil =>
    right
    simp only [List.flatMap_nil, List.nil_append] at h
    exact ⟨by rw [h]; simp, by simp⟩
  | cons d l ih =>
    rw [List.flatMap_cons, List.append_assoc] at h
    rcases List.append_eq_append_iff.mp h with ⟨p, h1, h2⟩ | ⟨p, h1, h2⟩
    · have hd : ∀ x ∈ F d, ¬ ok x := fun x hx => hpre x (by rw [h1]; exact List.mem_append_left _ hx)
      rcases ih p h2 (fun x hx => hpre x (by rw [h1]; exact List.mem_append_right _ hx)) with
        ⟨l1, e, l2, rfl, hg, hl1⟩ | ⟨hg, hl⟩
      · refine .inl ⟨d :: l1, e, l2, rfl, hg, fun e he x hx => ?_⟩
        rcases List.mem_cons.1 he with rfl | he
        · exact hd x hx
        · exact hl1 e he x hx
      · refine .inr ⟨hg, fun e he x hx => ?_⟩
        rcases List.mem_cons.1 he with rfl | he
        · exact hd x hx
        · exact hl e he x hx
    · cases p with
      | nil =>
        rw [List.append_nil] at h1
        simp only [List.nil_append] at h2
        rcases ih [] (by simpa using h2.symm) (by simp) with ⟨l1, e, l2, rfl, hg, hl1⟩ | ⟨hg, hl⟩
        · refine .inl ⟨d :: l1, e, l2, rfl, hg, fun e he x hx => ?_⟩
          rcases List.mem_cons.1 he with rfl | he
          · exact hpre x (h1 ▸ hx)
          · exact hl1 e he x hx
        · refine .inr ⟨hg, fun e he x hx => ?_⟩
          rcases List.mem_cons.1 he with rfl | he
          · exact hpre x (h1 ▸ hx)
          · exact hl e he x hx
      | cons y p =>
        injection h2 with h2 h3
        subst h2
        exact .inl ⟨[], d, l, rfl, by rw [h1]; simp, by simp⟩

/-- The rules without relations between classes. -/
def MemberUse.ok (u : MemberUse) (cur : Bytes) (a : Access) (f : Found) : Bool :=
  match u with
  | .prop => isInherited cur a [] f.member
  | .method => isInherited cur a [] f.member
  | _ => isInheritedStatic cur a [] f.member

theorem ok_iff (u : MemberUse) (cur : Bytes) (a : Access) (f : Found) :
    u.ok cur a f = true ↔ Usable u cur a f.member := by cases u <;> rfl

/-- What is left of a list in which all have the same name is the first that passes. -/
theorem reduce_first (u : MemberUse) (cur : Bytes) (a : Access) (m : Inherited) (hrel : m.rel = []) (nm : Bytes)
    (hall : ∀ f ∈ m.members, f.member.name = nm) :
    (u.reduce cur a m = [] ∧ ∀ f ∈ m.members, ¬ Usable u cur a f.member) ∨
    ∃ pre g post f, m.members = pre ++ g :: post ∧ u.reduce cur a m = [f] ∧ f.member = g.member ∧
      Usable u cur a g.member ∧ ∀ x ∈ pre, ¬ Usable u cur a x.member := by
  have key : ((∀ f ∈ u.reduce cur a m, ∃ pre g post, m.members = pre ++ g :: post ∧ f.member = g.member ∧
      u.ok cur a g = true ∧ ∀ h ∈ pre, u.ok cur a h = true → h.member.name ≠ g.member.name) ∧
      (∀ g ∈ m.members, u.ok cur a g = true → ∃ f ∈ u.reduce cur a m, f.member.name = g.member.name)) := by
    have h1 := C32_access m cur a
    have h2 := C32_static m cur a
    rw [hrel] at h1 h2
    have k1 : (∀ f ∈ m.reduceAccess cur a, ∃ pre g post, m.members = pre ++ g :: post ∧ f.member = g.member ∧
        isInherited cur a [] g.member = true ∧
        ∀ h ∈ pre, isInherited cur a [] h.member = true → h.member.name ≠ g.member.name) := fun f hf => by
      obtain ⟨pre, g, post, e, e1, _, e2, e3⟩ := h1.2.1 f hf
      exact ⟨pre, g, post, e, e1, e2, e3⟩
    have k2 : (∀ f ∈ m.reduceStatic cur a, ∃ pre g post, m.members = pre ++ g :: post ∧ f.member = g.member ∧
        isInheritedStatic cur a [] g.member = true ∧
        ∀ h ∈ pre, isInheritedStatic cur a [] h.member = true → h.member.name ≠ g.member.name) := fun f hf => by
      obtain ⟨pre, post, e, e2, e3⟩ := h2.2.1 f hf
      exact ⟨pre, f, post, e, rfl, e2, e3⟩
    cases u
    case prop => exact ⟨k1, h1.2.2⟩
    case method => exact ⟨k1, h1.2.2⟩
    all_goals exact ⟨k2, h2.2.2⟩
  have hs := short (nm := nm) (reduce_names u cur a m) fun f hf => by
    obtain ⟨g, hg, e1, _⟩ := mem_reduce hf
    rw [e1]; exact hall g hg
  rcases hs with hs | ⟨f, hs⟩
  · refine .inl ⟨hs, fun f hf hu => ?_⟩
    obtain ⟨f', hf', _⟩ := key.2 f hf ((ok_iff ..).2 hu)
    rw [hs] at hf'
    cases hf'
  · obtain ⟨pre, g, post, e, e1, e2, e3⟩ := key.1 f (by rw [hs]; simp)
    refine .inr ⟨pre, g, post, f, e, hs, e1, (ok_iff ..).1 e2, fun x hx hu => ?_⟩
    refine e3 x hx ((ok_iff ..).2 hu) ?_
    rw [hall x (by rw [e]; exact List.mem_append_left _ hx), hall g (by rw [e]; simp)]

/-- The members that a class itself has, as found. -/
def ownFound (w : World) (u : MemberUse) (name : Bytes) (d : Cls) : List Found :=
  w.found u.kind d.name (u.key name) ++
    if u.kind = .methods then (w.used d).flatMap fun t => w.found .methods t.name (u.key name) else []

theorem mem_found {w : World} {k : Kind} {scope name : Bytes} {f : Found} :
    f ∈ w.found k scope name → f.member ∈ w.members k scope name := by
  intro h
  obtain ⟨m, hm, rfl⟩ := List.mem_map.1 h
  exact hm

theorem found_of_mem {w : World} {k : Kind} {scope name : Bytes} {m : Member} (h : m ∈ w.members k scope name) :
    (⟨m, scope, 0⟩ : Found) ∈ w.found k scope name := List.mem_map.2 ⟨m, h, rfl⟩

theorem own_of_found {w : World} {u : MemberUse} {name : Bytes} {d : Cls} {f : Found} (h : f ∈ ownFound w u name d) :
    Own w u name d f.member := by
  rcases List.mem_append.1 h with h | h
  · exact .inl (mem_found h)
  · split at h
    · rename_i hk
      obtain ⟨x, hx, hf⟩ := List.mem_flatMap.1 h
      obtain ⟨h1, h2, h3⟩ := (mem_used w d x).1 hx
      exact .inr ⟨hk, x, h3, h1, h2, mem_found hf⟩
    · cases h

theorem found_of_own {w : World} {u : MemberUse} {name : Bytes} {d : Cls} {m : Member} (h : Own w u name d m) :
    ∃ f ∈ ownFound w u name d, f.member = m := by
  rcases h with h | ⟨hk, x, h1, h2, h3, h⟩
  · exact ⟨_, List.mem_append_left _ (found_of_mem h), rfl⟩
  · refine ⟨⟨m, x.name, 0⟩, List.mem_append_right _ ?_, rfl⟩
    rw [if_pos hk]
    exact List.mem_flatMap.2 ⟨x, (mem_used w d x).2 ⟨h2, h3, h1⟩, found_of_mem h⟩

/-- What a new query finds for a class. -/
theorem classLookup_order {w : World} (hw : Distinct w) (ha : Apart w) {c : Cls} (hc : c ∈ w.classes) {n ni : Nat}
    {u : MemberUse} (hu : u ≠ .const) {name : Bytes} {r : Inherited × St}
    (h : classLookup w n ni u name c none St.new = some r) :
    r.1.rel = [] ∧ ∃ l I, Lineage w c l ∧ r.1.members = l.flatMap (ownFound w u name) ++ I ∧
      ∀ m, (∃ f ∈ I, f.member = m) ↔ ∃ d ∈ l, OfInterface w u name d m := by
  have hI : ∀ (l : List Cls) (I : List Found) (k : Kind), k = u.kind →
      (∀ f, f ∈ I ↔ ∃ d ∈ l, ∃ i ∈ w.interfaces, i.name ∈ d.impls ∧ i.name ≠ [] ∧ IntfProvides w i f.scope ∧
        f ∈ w.found k f.scope (u.key name)) →
      ∀ m, (∃ f ∈ I, f.member = m) ↔ ∃ d ∈ l, OfInterface w u name d m := by
    rintro l I k rfl h m
    constructor
    · rintro ⟨f, hf, rfl⟩
      obtain ⟨d, hd, i, h1, h2, h3, h4, h5⟩ := (h f).1 hf
      exact ⟨d, hd, i, h1, h2, h3, f.scope, h4, mem_found h5⟩
    · rintro ⟨d, hd, i, h1, h2, h3, scope, h4, h5⟩
      exact ⟨⟨m, scope, 0⟩, (h _).2 ⟨d, hd, i, h1, h2, h3, h4, found_of_mem h5⟩, rfl⟩
  unfold classLookup at h
  split at h
  · rename_i hk
    refine ⟨(getClassMethods_rel w n ni c _ none St.new (Reachable.new (w := w)).relOk r h).2, ?_⟩
    obtain ⟨l, I, hl, hm, hi⟩ := C30_order w hw ha c hc _ n ni r h
    refine ⟨l, I, hl, ?_, hI l I _ hk.symm hi⟩
    rw [hm]
    congr 2
    funext d
    unfold ownFound
    rw [if_pos hk, hk]
  · rename_i hk
    have hk' : u.kind ≠ .consts := by cases u <;> simp_all [MemberUse.kind]
    refine ⟨(getClassPlain_rel w _ n ni c _ none St.new (Reachable.new (w := w)).relOk r h).2 hk', ?_⟩
    obtain ⟨l, I, hl, hm, hi⟩ := C30_plain_order w hw ha u.kind c _ n ni r h
    refine ⟨l, I, hl, ?_, hI l I _ rfl hi⟩
    rw [hm]
    congr 2
    funext d
    unfold ownFound
    rw [if_neg hk, List.append_nil]

/-- C78: an access of a method or property of an object (or class) of the class `c` leads to exactly one declaration: that
in the nearest class, starting at `c`, which itself has a member of this name that may be used here, or in an interface if
no class has one; and nowhere if there is none. Missing: objects of several types, constants, several classes or interfaces
with the same name. -/
theorem C78_nearest_partial (s : Site) (hw : Distinct s.world) (hap : Apart s.world)
    (tbl : Table) (keyOf : Bytes → Bytes) (n ni : Nat) (c : Cls) (hc : c ∈ s.world.classes) (hal : Alone s.world c)
    (t : Bytes) (ht : s.world.key c.name = s.world.key t) (u : MemberUse) (hu : u ≠ .const) (a : Access)
    (ha : a.types = [t]) (name cur : Bytes) (hx : AsNamed s.world u name) (r : List Nat)
    (h : definition s tbl keyOf n ni (.member u a name cur) = some r) :
    ∃ l, Lineage s.world c l ∧
      ((r = [] ∧ ∀ d ∈ l, ∀ m, Own s.world u name d m ∨ OfInterface s.world u name d m → ¬ Usable u cur a m) ∨
      ∃ m, r = (if s.navigable m.decl then [m.decl] else []) ∧ Usable u cur a m ∧
        ((∃ near d far, l = near ++ d :: far ∧ Own s.world u name d m ∧
            ∀ e ∈ near, ∀ x, Own s.world u name e x → ¬ Usable u cur a x) ∨
          ((∃ d ∈ l, OfInterface s.world u name d m) ∧ ∀ e ∈ l, ∀ x, Own s.world u name e x → ¬ Usable u cur a x))) := by
  unfold definition at h
  rw [locations_single s hw tbl keyOf n ni c hc hal t ht u a ha name cur hx] at h
  cases hl : classLookup s.world n ni u name c none St.new with
  | none => rw [hl] at h; cases h
  | some q =>
    rw [hl] at h
    injection h with h
    simp only at h
    obtain ⟨hrel, l, I, hlin, hm, hI⟩ := classLookup_order hw hap hc hu hl
    have hall : ∀ f ∈ q.1.members, f.member.name = u.key name := fun f hf => by
      obtain ⟨scope, _, hm⟩ := classLookup_mem hw hc hal hl f hf
      exact hx _ _ hm
    refine ⟨l, hlin, ?_⟩
    rcases reduce_first u cur a q.1 hrel _ hall with ⟨h1, h2⟩ | ⟨pre, g, post, f, h1, h2, h3, h4, h5⟩
    · left
      refine ⟨by rw [← h, h1]; rfl, ?_⟩
      rintro d hd m (ho | hi)
      · obtain ⟨f, hf, rfl⟩ := found_of_own ho
        exact h2 f (by rw [hm]; exact List.mem_append_left _ (List.mem_flatMap.2 ⟨d, hd, hf⟩))
      · obtain ⟨f, hf, rfl⟩ := (hI m).2 ⟨d, hd, hi⟩
        exact h2 f (by rw [hm]; exact List.mem_append_right _ hf)
    · right
      refine ⟨g.member, ?_, h4, ?_⟩
      · rw [← h, h2]
        simp only [List.map_cons, List.map_nil, h3, List.filter_cons, List.filter_nil]
      · have hno : ∀ l1 : List Cls, (∀ e ∈ l1, ∀ x ∈ ownFound s.world u name e, ¬ Usable u cur a x.member) →
            ∀ e ∈ l1, ∀ x, Own s.world u name e x → ¬ Usable u cur a x := by
          intro l1 hl1 e he x hx
          obtain ⟨f, hf, rfl⟩ := found_of_own hx
          exact hl1 e he f hf
        rcases first_ok (ownFound s.world u name) (fun x => Usable u cur a x.member) l I pre post g (by rw [← hm, h1]) h5
          with ⟨l1, d, l2, e, hg, hl1⟩ | ⟨hg, hl1⟩
        · exact .inl ⟨l1, d, l2, e, own_of_found hg, hno l1 hl1⟩
        · exact .inr ⟨(hI _).1 ⟨g, hg, rfl⟩, hno l hl1⟩

/-! ### C78, names -/

theorem reference_same {tbl : Table} {t : Ty} (h : Unaliased tbl t) : (tbl.getClassReferenceFQN t).1 = t.fqn := by
  unfold Table.getClassReferenceFQN
  simp only [h.1]
  rw [setNamespace_fqn, if_pos h.2]

theorem class_decls (w : World) (fqn : Bytes) (d : Nat) :
    d ∈ (w.classesNamed fqn).map (·.decl) ↔ NamesClass w fqn d := by
  simp [World.classesNamed, NamesClass, and_assoc]

theorem interface_decls (w : World) (fqn : Bytes) (h : AsDeclared w fqn) (d : Nat) :
    d ∈ (w.interfacesNamed fqn).map (·.decl) ↔ NamesInterface w fqn d := by
  simp only [World.interfacesNamed, NamesInterface, List.mem_map, List.mem_filter, decide_eq_true_eq]
  constructor
  · rintro ⟨i, ⟨h1, h2⟩, h3⟩; exact ⟨i, h1, by rw [h2], h3⟩
  · rintro ⟨i, h1, h2, h3⟩; exact ⟨i, ⟨h1, h.1 i h1 h2⟩, h3⟩

theorem trait_decls (w : World) (fqn : Bytes) (h : AsDeclared w fqn) (d : Nat) :
    d ∈ (w.traitsNamed fqn).map (·.decl) ↔ NamesTrait w fqn d := by
  simp only [World.traitsNamed, NamesTrait, List.mem_map, List.mem_filter, decide_eq_true_eq]
  constructor
  · rintro ⟨i, ⟨h1, h2⟩, h3⟩; exact ⟨i, h1, by rw [h2], h3⟩
  · rintro ⟨i, h1, h2, h3⟩; exact ⟨i, ⟨h1, h.2 i h1 h2⟩, h3⟩

/-- The names of a use of a class, interface or trait. -/
def Use.names : Use → List Ty
  | .new_ ts => ts
  | .cls ts => ts
  | .intf ts => ts
  | .trt ts => ts
  | .typ ts => ts
  | _ => []

/-- C78: the name of a class, interface or trait, other than after `new`, leads to exactly the declarations it refers to,
in files that can be opened. Missing: names of which an import has the first part as alias (`C78_false_alias`), names of
interfaces and traits in another case (`C78_false_case`), interfaces before `::` (`C78_false_interface`). -/
theorem C78_names_partial (s : Site) (tbl : Table) (keyOf : Bytes → Bytes) (n ni : Nat) (u : Use)
    (hu : match u with
      | .cls ts => ∀ t ∈ ts, ∀ d, ¬ NamesInterface s.world t.fqn d
      | .intf _ => True
      | .trt _ => True
      | .typ _ => True
      | _ => False)
    (ha : ∀ t ∈ u.names, Unaliased tbl t) (hd : ∀ t ∈ u.names, AsDeclared s.world t.fqn) :
    ∃ r, definition s tbl keyOf n ni u = some r ∧ ∀ d, d ∈ r ↔ s.navigable d = true ∧ Refers s tbl d u := by
  cases u with
  | cls ts =>
    refine ⟨_, rfl, fun d => ?_⟩
    simp only [Use.names] at ha hd
    simp only [List.mem_filter, List.mem_flatMap, Refers, and_comm (a := s.navigable d = true)]
    refine and_congr_left fun _ => exists_congr fun t => and_congr_right fun ht => ?_
    rw [reference_same (ha t ht), class_decls]
    exact ⟨.inl, fun h => h.resolve_right (hu t ht d)⟩
  | intf ts =>
    refine ⟨_, rfl, fun d => ?_⟩
    simp only [Use.names] at ha hd
    simp only [List.mem_filter, List.mem_flatMap, Refers, and_comm (a := s.navigable d = true)]
    refine and_congr_left fun _ => exists_congr fun t => and_congr_right fun ht => ?_
    rw [reference_same (ha t ht), interface_decls _ _ (hd t ht)]
  | trt ts =>
    refine ⟨_, rfl, fun d => ?_⟩
    simp only [Use.names] at ha hd
    simp only [List.mem_filter, List.mem_flatMap, Refers, and_comm (a := s.navigable d = true)]
    refine and_congr_left fun _ => exists_congr fun t => and_congr_right fun ht => ?_
    rw [trait_decls _ _ (hd t ht)]
  | typ ts =>
    refine ⟨_, rfl, fun d => ?_⟩
    simp only [Use.names] at ha hd
    simp only [List.mem_filter, List.mem_flatMap, Refers, and_comm (a := s.navigable d = true)]
    refine and_congr_left fun _ => exists_congr fun t => and_congr_right fun ht => ?_
    rw [List.mem_append, class_decls, interface_decls _ _ (hd t ht)]
  | new_ _ => cases hu
  | constant _ => cases hu
  | function _ => cases hu
  | member _ _ _ _ => cases hu

/-- C78: a function call and a constant lead to exactly the declarations of the name they resolve to (C27). -/
theorem C78_functions (s : Site) (tbl : Table) (keyOf : Bytes → Bytes) (n ni : Nat) (u : Use)
    (hu : (∃ x, u = .function x) ∨ ∃ x, u = .constant x) :
    ∃ r, definition s tbl keyOf n ni u = some r ∧ ∀ d, d ∈ r ↔ s.navigable d = true ∧ Refers s tbl d u := by
  rcases hu with ⟨x, rfl⟩ | ⟨x, rfl⟩
  · refine ⟨_, rfl, fun d => ?_⟩
    simp only [List.mem_filter, Refers, and_comm]
  · refine ⟨_, rfl, fun d => ?_⟩
    simp only [List.mem_filter, Refers, and_comm, List.mem_append]

/-- The class declares a public constructor. -/
def OwnConstructor (w : World) (c : Cls) (m : Member) : Prop :=
  m ∈ w.members .methods c.name b!"__construct" ∧ m.vis = .pub

/-- C78: `new` with the name of a class leads to its public constructor if it declares one, and to the class otherwise.
Missing as in `C78_names_partial`; members must be recorded with the class they are declared in. -/
theorem C78_new_partial (s : Site) (hw : Distinct s.world) (hap : Apart s.world) (tbl : Table) (keyOf : Bytes → Bytes)
    (n ni : Nat) (c : Cls) (hc : c ∈ s.world.classes) (t : Ty) (ht : s.world.key c.name = s.world.key t.fqn)
    (ha : Unaliased tbl t)
    (hscope : ∀ scope, ∀ m ∈ s.world.members .methods scope b!"__construct", m.scope = scope)
    (r : List Nat) (h : locations s tbl keyOf n ni (.new_ [t]) = some r) :
    (∃ m, OwnConstructor s.world c m ∧ r = [m.decl]) ∨ ((∀ m, ¬ OwnConstructor s.world c m) ∧ r = [c.decl]) := by
  simp only [locations, List.flatMap_cons, List.flatMap_nil, List.append_nil, reference_same ha,
    named_single hw hc ht, newLoop] at h
  cases hl : getClassMethods s.world n ni c b!"__construct" none St.new with
  | none => rw [hl] at h; cases h
  | some q =>
    rw [hl] at h
    simp only [Option.map_some] at h
    injection h with h
    obtain ⟨l, I, hlin, hm, hI⟩ := C30_order s.world hw hap c hc _ n ni q hl
    obtain ⟨l', rfl⟩ : ∃ l', l = c :: l' := by
      have := hlin.head
      cases l with
      | nil => cases this
      | cons x l' => simp at this; exact ⟨l', by rw [this]⟩
    by_cases ho : ∃ m, OwnConstructor s.world c m
    · left
      have hfirst : ∃ f, q.1.reduceFirst = some f ∧ f ∈ s.world.found .methods c.name b!"__construct" := by
        unfold Inherited.reduceFirst
        rw [hm, List.flatMap_cons, List.append_assoc, List.append_assoc, List.find?_append]
        obtain ⟨m, hm1, hm2⟩ := ho
        cases hf : (s.world.found .methods c.name b!"__construct").find? (fun f => decide (f.member.vis = .pub)) with
        | none =>
          exfalso
          rw [List.find?_eq_none] at hf
          exact hf _ (found_of_mem hm1) (by simpa using hm2)
        | some f => exact ⟨f, rfl, List.mem_of_find?_eq_some hf⟩
      obtain ⟨f, hf, hfm⟩ := hfirst
      have hpub : f.member.vis = .pub := by
        have := List.find?_some hf
        simpa using this
      have hsc : f.member.scope = c.name := hscope _ _ (mem_found hfm)
      rw [hf] at h
      simp only [hsc, if_true] at h
      exact ⟨f.member, ⟨mem_found hfm, hpub⟩, h.symm⟩
    · right
      refine ⟨fun m hm => ho ⟨m, hm⟩, ?_⟩
      rw [← h]
      cases hf : q.1.reduceFirst with
      | none => rfl
      | some f =>
        have hpub : f.member.vis = .pub := by
          have := List.find?_some hf
          simpa using this
        have hmem : f ∈ q.1.members := List.mem_of_find?_eq_some hf
        have hne : f.member.scope ≠ c.name := by
          intro he
          have hc30 := (C30_sound s.world hw St.new .new c hc _ none n ni q).1 hl f hmem
          have hs := hscope _ _ (mem_found hc30.2)
          have : f.member ∈ s.world.members .methods c.name b!"__construct" := by
            have := mem_found hc30.2
            rwa [← hs, he] at this
          exact ho ⟨f.member, this, hpub⟩
        simp only [if_neg hne]

/-! ### C77 -/

theorem find_some_iff (p : Nat → Bool) (l : List Nat) : (l.find? p).isSome ↔ ∃ d ∈ l, p d = true := by
  simp [List.find?_isSome]

theorem firstDeprecated_sound {w : World} (hw : Distinct w) {n ni : Nat} {u : MemberUse}
    {name : Bytes} (hx : AsNamed w u name) (dep : Nat → Bool) (cur : Bytes) (a : Access) (ls : List Lookup)
    (hls : ∀ l ∈ ls, ∃ t ∈ a.types, l ∈ lookups w n ni u name t) (st : St) (hst : Reachable w st) (m : Option Nat)
    (st' : St) (h : firstDeprecated dep (u.reduce cur a) ls st = some (m, st')) :
    Reachable w st' ∧ ∀ d, m = some d → dep d = true ∧
      ∃ t ∈ a.types, ∃ x, MemberOf w u name t x ∧ x.name = u.key name ∧ x.decl = d := by
  induction ls generalizing st with
  | nil => injection h with h; injection h with h1 h2; subst h1 h2; exact ⟨hst, nofun⟩
  | cons l ls ih =>
    obtain ⟨t, ht, hl⟩ := hls l List.mem_cons_self
    unfold firstDeprecated at h
    split at h
    · cases h
    · rename_i r st1 h1
      obtain ⟨h2, h3⟩ := lookup_sound hw hl hst h1
      split at h
      · rename_i f hf
        injection h with h
        injection h with e1 e2
        subst e1 e2
        refine ⟨h2, fun d hd => ?_⟩
        injection hd with hd
        subst hd
        refine ⟨by simpa using List.find?_some hf, t, ht, f.member, ?_, ?_, rfl⟩
        · obtain ⟨g, hg, e1, _⟩ := mem_reduce (List.mem_of_find?_eq_some hf)
          rw [e1]
          exact h3 g hg
        · obtain ⟨g, hg, e1, _⟩ := mem_reduce (List.mem_of_find?_eq_some hf)
          obtain ⟨scope, _, hm⟩ := h3 g hg
          rw [e1]
          exact hx _ _ hm
      · exact ih (fun x hx => hls x (List.mem_cons_of_mem _ hx)) _ h2 h

/-- The name of a member access is written as it is declared. -/
def Use.Written (w : World) : Use → Prop
  | .member v _ name _ => AsNamed w v name
  | _ => True

theorem find_mem {p : Nat → Bool} {l : List Nat} {d : Nat} (h : l.find? p = some d) : d ∈ l ∧ p d = true :=
  ⟨List.mem_of_find?_eq_some h, List.find?_some h⟩

theorem interface_decls' {w : World} {fqn : Bytes} {d : Nat} (h : d ∈ (w.interfacesNamed fqn).map (·.decl)) :
    NamesInterface w fqn d := by
  obtain ⟨i, hi, rfl⟩ := List.mem_map.1 h
  obtain ⟨h1, h2⟩ := of_interfacesNamed hi
  exact ⟨i, h1, by rw [h2], rfl⟩

theorem mark_sound (s : Site) (hw : Distinct s.world) (tbl : Table) (n ni : Nat) (u : Use)
    (hc : ¬ u.isConst) (hwr : u.Written s.world) (st : St) (hst : Reachable s.world st) (m : Option Nat) (st' : St)
    (h : mark s tbl n ni u st = some (m, st')) :
    Reachable s.world st' ∧ ∀ d, m = some d → s.deprecated d = true ∧ Refers s tbl d u := by
  have pair : ∀ {x : Option Nat}, some (x, st) = some (m, st') → m = x ∧ st' = st := fun h => by
    injection h with h; injection h with h1 h2; exact ⟨h1.symm, h2.symm⟩
  cases u with
  | new_ ts =>
    obtain ⟨rfl, rfl⟩ := pair h
    refine ⟨hst, fun d hd => ?_⟩
    obtain ⟨h1, h2⟩ := find_mem hd
    obtain ⟨t, ht, h1⟩ := List.mem_flatMap.1 h1
    exact ⟨h2, t, ht, (class_decls ..).1 h1⟩
  | cls ts =>
    obtain ⟨rfl, rfl⟩ := pair h
    refine ⟨hst, fun d hd => ?_⟩
    obtain ⟨h1, h2⟩ := find_mem hd
    obtain ⟨t, ht, h1⟩ := List.mem_flatMap.1 h1
    exact ⟨h2, t, ht, (List.mem_append.1 h1).imp (class_decls ..).1 interface_decls'⟩
  | intf ts =>
    obtain ⟨rfl, rfl⟩ := pair h
    refine ⟨hst, fun d hd => ?_⟩
    obtain ⟨h1, h2⟩ := find_mem hd
    obtain ⟨t, ht, h1⟩ := List.mem_flatMap.1 h1
    exact ⟨h2, t, ht, interface_decls' h1⟩
  | trt ts => obtain ⟨rfl, rfl⟩ := pair h; exact ⟨hst, nofun⟩
  | typ ts =>
    obtain ⟨rfl, rfl⟩ := pair h
    refine ⟨hst, fun d hd => ?_⟩
    obtain ⟨h1, h2⟩ := find_mem hd
    obtain ⟨t, ht, h1⟩ := List.mem_flatMap.1 h1
    exact ⟨h2, t, ht, (List.mem_append.1 h1).imp (class_decls ..).1 interface_decls'⟩
  | constant name =>
    obtain ⟨hm, rfl⟩ := pair h
    refine ⟨hst, fun d hd => ?_⟩
    rw [hd] at hm
    split at hm
    · rename_i d' hd'
      injection hm with hm
      subst hm
      obtain ⟨h1, h2⟩ := find_mem hd'
      exact ⟨h2, .inl h1⟩
    · obtain ⟨h1, h2⟩ := find_mem hm.symm
      exact ⟨h2, .inr h1⟩
  | function name =>
    obtain ⟨rfl, rfl⟩ := pair h
    refine ⟨hst, fun d hd => ?_⟩
    obtain ⟨h1, h2⟩ := find_mem hd
    exact ⟨h2, h1⟩
  | member v a name cur =>
    have hv : v ≠ .const := fun e => hc (by rw [e]; trivial)
    have h' : firstDeprecated s.deprecated (v.reduce cur a) (a.types.flatMap (lookups s.world n ni v name)) st =
        some (m, st') := by
      cases v
      case const => exact absurd rfl hv
      all_goals exact h
    exact firstDeprecated_sound hw hwr s.deprecated cur a _ (fun l hl => List.mem_flatMap.1 hl) st hst m st' h'

/-- C77: whatever is marked in a document is a use that refers to a declaration that is deprecated; in every document,
whatever was asked before. Missing: class constants (`C77_false_prefix`); several declarations with one name. -/
theorem C77_sound_partial (s : Site) (hw : Distinct s.world) (n ni : Nat)
    (us : List (Rng × Table × Use)) (hus : ∀ x ∈ us, ¬ x.2.2.isConst ∧ x.2.2.Written s.world) (r : List (Rng × Nat))
    (h : deprecatedDiagnostics s n ni us = some r) :
    ∀ x ∈ r, ∃ tbl u, (x.1, tbl, u) ∈ us ∧ s.deprecated x.2 = true ∧ Refers s tbl x.2 u := by
  have key : ∀ (us : List (Rng × Table × Use)) (st : St) (r : List (Rng × Nat)), Reachable s.world st →
      (∀ x ∈ us, ¬ x.2.2.isConst ∧ x.2.2.Written s.world) → deprecatedLoop s n ni us st = some r →
      ∀ x ∈ r, ∃ tbl u, (x.1, tbl, u) ∈ us ∧ s.deprecated x.2 = true ∧ Refers s tbl x.2 u := by
    intro us
    induction us with
    | nil => intro st r _ _ h; injection h with h; subst h; nofun
    | cons x us ih =>
      intro st r hst hus h
      obtain ⟨rg, tbl, u⟩ := x
      unfold deprecatedLoop at h
      split at h
      · cases h
      · rename_i m st1 h1
        obtain ⟨h2, h3⟩ := hus _ List.mem_cons_self
        obtain ⟨h4, h5⟩ := mark_sound s hw tbl n ni u h2 h3 st hst m st1 h1
        cases hl : deprecatedLoop s n ni us st1 with
        | none => rw [hl] at h; cases h
        | some l =>
          rw [hl] at h
          injection h with h
          subst h
          intro x hx
          rcases List.mem_append.1 hx with hx | hx
          · cases m with
            | none => cases hx
            | some d =>
              simp at hx
              subst hx
              obtain ⟨k1, k2⟩ := h5 d rfl
              exact ⟨tbl, u, List.mem_cons_self, k1, k2⟩
          · obtain ⟨tbl', u', k1, k2⟩ := ih st1 l h4 (fun x hx => hus x (List.mem_cons_of_mem _ hx)) hl x hx
            exact ⟨tbl', u', List.mem_cons_of_mem _ k1, k2⟩
  exact key us St.new r .new hus h

/-- C77: every use is marked at most once, in the order of the document, at its own place. -/
theorem C77_once (s : Site) (n ni : Nat) (us : List (Rng × Table × Use)) (r : List (Rng × Nat))
    (h : deprecatedDiagnostics s n ni us = some r) : (r.map (·.1)).Sublist (us.map (·.1)) := by
  have key : ∀ (us : List (Rng × Table × Use)) (st : St) (r : List (Rng × Nat)),
      deprecatedLoop s n ni us st = some r → (r.map (·.1)).Sublist (us.map (·.1)) := by
    intro us
    induction us with
    | nil => intro st r h; injection h with h; subst h; exact .slnil
    | cons x us ih =>
      intro st r h
      obtain ⟨rg, tbl, u⟩ := x
      unfold deprecatedLoop at h
      split at h
      · cases h
      · rename_i m st1 h1
        cases hl : deprecatedLoop s n ni us st1 with
        | none => rw [hl] at h; cases h
        | some l =>
          rw [hl] at h
          injection h with h
          subst h
          cases m with
          | none => exact (ih st1 l hl).cons _
          | some d => exact (ih st1 l hl).cons₂ _
  exact key us St.new r h

/-- The uses for which the marks look where go to definition looks: an access of a method or property of an object of one
class, a type, an interface that is named after `extends` or `implements`, a function, a constant, and a class before
`::`. -/
def Comparable (s : Site) (tbl : Table) : Use → Prop
  | .new_ _ => False
  | .trt _ => False
  | .cls ts => ∀ t ∈ ts, Unaliased tbl t ∧ ∀ d, ¬ NamesInterface s.world t.fqn d
  | .intf ts => ∀ t ∈ ts, Unaliased tbl t
  | .typ _ => True
  | .constant _ => True
  | .function _ => True
  | .member u a name _ => u ≠ .const ∧ AsNamed s.world u name ∧
      ∃ c ∈ s.world.classes, Alone s.world c ∧ ∃ t, a.types = [t] ∧ s.world.key c.name = s.world.key t

/-- C77: with a new query, a use is marked if and only if go to definition finds a deprecated declaration for it (in
whatever file). Missing: what is not `Comparable`, of which it is false in general (`C77_false_prefix`,
`C77_false_inherited`, `C77_false_trait`, `C77_false_constructor`), and uses after others in the same document
(`C77_false_second`). -/
theorem C77_agrees_partial (s : Site) (hw : Distinct s.world) (tbl : Table)
    (keyOf : Bytes → Bytes) (n ni : Nat) (u : Use) (hu : Comparable s tbl u) (m : Option Nat) (st' : St)
    (hm : mark s tbl n ni u St.new = some (m, st')) (ls : List Nat) (hl : locations s tbl keyOf n ni u = some ls) :
    m.isSome ↔ ∃ d ∈ ls, s.deprecated d = true := by
  have pair : ∀ {x : Option Nat}, some (x, St.new) = some (m, st') → m = x := fun h => by
    injection h with h; injection h with h1 h2; exact h1.symm
  have find : ∀ {l : List Nat}, (∀ d, d ∈ l ↔ d ∈ ls) →
      some (l.find? s.deprecated, St.new) = some (m, st') → (m.isSome ↔ ∃ d ∈ ls, s.deprecated d = true) := by
    intro l h e
    rw [pair e, find_some_iff]
    exact exists_congr fun d => and_congr_left fun _ => h d
  have same : ∀ {l : List Nat}, some l = some ls → l = ls := fun h => by injection h
  cases u with
  | new_ _ => cases hu
  | trt _ => cases hu
  | cls ts =>
    refine find (fun d => ?_) hm
    rw [← same hl]
    simp only [List.mem_flatMap]
    refine exists_congr fun t => and_congr_right fun ht => ?_
    rw [reference_same (hu t ht).1, List.mem_append, class_decls]
    exact ⟨fun h => h.resolve_right fun h => (hu t ht).2 d (interface_decls' h), .inl⟩
  | intf ts =>
    refine find (fun d => ?_) hm
    rw [← same hl]
    simp only [List.mem_flatMap]
    refine exists_congr fun t => and_congr_right fun ht => ?_
    rw [reference_same (hu t ht)]
  | typ ts => exact find (fun d => by rw [← same hl]) hm
  | constant name =>
    rw [pair hm, ← same hl]
    simp only [List.mem_append, or_and_right, exists_or]
    split
    · rename_i d hd
      obtain ⟨h1, h2⟩ := find_mem hd
      exact ⟨fun _ => .inl ⟨d, h1, h2⟩, fun _ => rfl⟩
    · rename_i hd
      rw [find_some_iff]
      refine ⟨.inr, fun h => h.resolve_left ?_⟩
      rintro ⟨d, h1, h2⟩
      rw [List.find?_eq_none] at hd
      exact hd d h1 h2
  | function name => exact find (fun d => by rw [← same hl]) hm
  | member v a name cur =>
    obtain ⟨hv, hx, c, hc, hal, t, ha, ht⟩ := hu
    have h' : firstDeprecated s.deprecated (v.reduce cur a) (a.types.flatMap (lookups s.world n ni v name)) St.new =
        some (m, st') := by
      cases v
      case const => exact absurd rfl hv
      all_goals exact hm
    rw [locations_single s hw tbl keyOf n ni c hc hal t ht v a ha name cur hx] at hl
    simp only [ha, List.flatMap_cons, List.flatMap_nil, List.append_nil, lookups_single hw hc hal ht,
      firstDeprecated] at h'
    cases hq : classLookup s.world n ni v name c none St.new with
    | none => rw [hq] at hl; cases hl
    | some q =>
      rw [hq] at hl h'
      injection hl with hl
      simp only at hl h'
      rw [← hl]
      split at h'
      · rename_i f hf
        injection h' with h'
        injection h' with e _
        rw [← e]
        refine ⟨fun _ => ⟨f.member.decl, List.mem_map.2 ⟨f, List.mem_of_find?_eq_some hf, rfl⟩, ?_⟩, fun _ => rfl⟩
        simpa using List.find?_some hf
      · rename_i hf
        injection h' with h'
        injection h' with e _
        rw [← e]
        refine ⟨nofun, ?_⟩
        rintro ⟨d, hd, hdep⟩
        obtain ⟨f, hf', rfl⟩ := List.mem_map.1 hd
        rw [List.find?_eq_none] at hf
        exact absurd hdep (hf f hf')

/-- C77: a use of a class or interface (after `new`, before `::`, as a type, after `implements`), a function call or a
constant is marked if and only if it refers to a deprecated declaration, whatever was asked before. Missing: traits
(`C77_false_trait`) and, for interfaces, names in another case. -/
theorem C77_names_partial (s : Site) (tbl : Table) (n ni : Nat) (u : Use) (st : St)
    (hu : match u with
      | .trt _ => False
      | .member _ _ _ _ => False
      | _ => True)
    (hd : ∀ t ∈ u.names, AsDeclared s.world t.fqn) :
    ∃ m, mark s tbl n ni u st = some (m, st) ∧ (m.isSome ↔ ∃ d, s.deprecated d = true ∧ Refers s tbl d u) := by
  have find : ∀ {l : List Nat}, (∀ d, d ∈ l ↔ Refers s tbl d u) →
      ((l.find? s.deprecated).isSome ↔ ∃ d, s.deprecated d = true ∧ Refers s tbl d u) := by
    intro l h
    rw [find_some_iff]
    exact exists_congr fun d => by rw [h d, and_comm]
  cases u with
  | new_ ts =>
    refine ⟨_, rfl, find fun d => ?_⟩
    simp only [List.mem_flatMap, class_decls, Refers]
  | cls ts =>
    refine ⟨_, rfl, find fun d => ?_⟩
    simp only [List.mem_flatMap, List.mem_append, class_decls, Refers]
    exact exists_congr fun t => and_congr_right fun ht => by rw [interface_decls _ _ (hd t ht)]
  | intf ts =>
    refine ⟨_, rfl, find fun d => ?_⟩
    simp only [List.mem_flatMap, Refers]
    exact exists_congr fun t => and_congr_right fun ht => by rw [interface_decls _ _ (hd t ht)]
  | typ ts =>
    refine ⟨_, rfl, find fun d => ?_⟩
    simp only [List.mem_flatMap, List.mem_append, class_decls, Refers]
    exact exists_congr fun t => and_congr_right fun ht => by rw [interface_decls _ _ (hd t ht)]
  | function name => exact ⟨_, rfl, find fun d => Iff.rfl⟩
  | constant name =>
    refine ⟨_, rfl, ?_⟩
    simp only [Refers]
    split
    · rename_i d hd
      obtain ⟨h1, h2⟩ := find_mem hd
      exact ⟨fun _ => ⟨d, h2, .inl h1⟩, fun _ => rfl⟩
    · rename_i hd
      rw [find_some_iff]
      constructor
      · rintro ⟨d, h1, h2⟩; exact ⟨d, h2, .inr h1⟩
      · rintro ⟨d, h1, h2 | h2⟩
        · rw [List.find?_eq_none] at hd; exact absurd h1 (hd d h2)
        · exact ⟨d, h2, h1⟩
  | trt _ => cases hu
  | member _ _ _ _ => cases hu

/-- C77: a use of a class constant is marked if and only if one of the classes before `::` has itself a deprecated constant of
this name, if there is none of a longer name that starts with it. Missing: inherited constants (`C77_false_inherited`) and
longer names (`C77_false_prefix`). -/
theorem C77_constants_partial (s : Site) (tbl : Table) (n ni : Nat) (a : Access) (name cur : Bytes)
    (st : St) (hx : ∀ t ∈ a.types, ∀ c ∈ s.world.members .consts t name, c.name = name) :
    ∃ m, mark s tbl n ni (.member .const a name cur) st = some (m, st) ∧
      (m.isSome ↔ ∃ t ∈ a.types, ∃ c ∈ s.world.members .consts t name, c.name = name ∧ s.deprecated c.decl = true) := by
  refine ⟨_, rfl, ?_⟩
  rw [find_some_iff]
  simp only [List.mem_flatMap, List.mem_map]
  constructor
  · rintro ⟨d, ⟨t, ht, c, hc, rfl⟩, hd⟩
    exact ⟨t, ht, c, hc, hx t ht c hc, hd⟩
  · rintro ⟨t, ht, c, hc, -, hd⟩
    exact ⟨_, ⟨t, ht, c, hc, rfl⟩, hd⟩

/-! ### examples -/

/-- `class A implements I { function old() }` (declarations 1, 11), `class B extends A implements I` (2),
`interface I { const OLD }` (3, 13), `trait T` (4), `class N { function __construct() }` (5, 15),
`class C { const BAR; const BAR_OLD; }` (6, 16, 26), `class \Foo\Bar` (7), `class \Lib\Foo\Bar` (8). The lookup of
constants is that of the index (C07): by prefix. -/
def shop : Site where
  world :=
    { classes := [⟨b!"\\A", [], [b!"\\I"], [], 1⟩, ⟨b!"\\B", b!"\\A", [b!"\\I"], [], 2⟩, ⟨b!"\\N", [], [], [], 5⟩,
        ⟨b!"\\C", [], [b!"\\I"], [], 6⟩, ⟨b!"\\Foo\\Bar", [], [], [], 7⟩, ⟨b!"\\Lib\\Foo\\Bar", [], [], [], 8⟩]
      interfaces := [⟨b!"\\I", [], 3⟩], traits := [⟨b!"\\T", [], 4⟩], key := asciiLower
      members := fun k scope name =>
        let all : List Member := match k with
          | .methods => [⟨b!"old", b!"\\A", .pub, false, 11⟩, ⟨b!"__construct", b!"\\N", .pub, false, 15⟩]
          | .props => [⟨b!"$x", b!"\\A", .pub, false, 31⟩]
          | .consts => [⟨b!"OLD", b!"\\I", .pub, true, 13⟩, ⟨b!"BAR", b!"\\C", .pub, true, 16⟩,
              ⟨b!"BAR_OLD", b!"\\C", .pub, true, 26⟩]
        all.filter fun m => m.scope = scope &&
          (match k with
           | .methods => asciiLower m.name == asciiLower name
           | .props => m.name == name
           | .consts => name.isPrefixOf m.name) }
  functions := fun n => if n = b!"\\f" then [21] else []
  consts := fun _ => []
  defines := fun n => if n = b!"\\D" then [22] else []
  navigable := fun d => d != 4
  deprecated := fun d => d ∈ [11, 3, 13, 15, 26, 22, 4]

/-- `use Lib\Foo;` -/
def libs : Table := { newTable ⟨0, 0⟩ with classes := [(b!"Foo", ⟨b!"Lib\\Foo", ⟨⟨0, 0⟩, ⟨0, 0⟩⟩, false⟩)] }

def noImports : Table := newTable ⟨0, 0⟩

def ty (n : Bytes) : Ty := ⟨n, n, 0⟩

theorem shop_distinct : Distinct shop.world := ⟨by decide +kernel, by decide +kernel⟩

theorem shop_apart : Apart shop.world := by
  have h : ∀ c ∈ shop.world.classes, ∀ i ∈ shop.world.interfaces, asciiLower c.name ≠ asciiLower i.name := by
    decide +kernel
  exact h

/-- The methods that are found for `old` are called so. -/
theorem shop_old : AsNamed shop.world .method b!"old" := by
  intro scope m hm
  obtain ⟨h1, h2⟩ := List.mem_filter.1 hm
  have key : ∀ m ∈ ([⟨b!"old", b!"\\A", .pub, false, 11⟩, ⟨b!"__construct", b!"\\N", .pub, false, 15⟩] : List Member),
      asciiLower m.name = asciiLower b!"old" → m.name = b!"old" := by decide +kernel
  rw [Bool.and_eq_true] at h2
  exact key m h1 (beq_iff_eq.1 h2.2)

/-- The theorems apply: `$b->old()` for an object of `B` leads to the method of `A` and is marked. -/
example : definition shop noImports asciiLower 9 9 (.member .method ⟨b!"$b", [b!"\\B"]⟩ b!"old" []) = some [11] ∧
    ((mark shop noImports 9 9 (.member .method ⟨b!"$b", [b!"\\B"]⟩ b!"old" []) St.new).map (·.1)) = some (some 11) ∧
    Distinct shop.world ∧ Apart shop.world ∧ AsNamed shop.world .method b!"old" ∧
    Comparable shop noImports (.member .method ⟨b!"$b", [b!"\\B"]⟩ b!"old" []) := by
  refine ⟨by decide +kernel, by decide +kernel, ⟨shop_distinct.1, shop_distinct.2⟩, shop_apart, shop_old, by decide, shop_old,
    ⟨b!"\\B", b!"\\A", [b!"\\I"], [], 2⟩, by decide +kernel, ?_, _, rfl, rfl⟩
  have h : (∀ i ∈ shop.world.interfaces, asciiLower i.name ≠ asciiLower b!"\\B") ∧
      ∀ x ∈ shop.world.traits, asciiLower x.name ≠ asciiLower b!"\\B" := by decide +kernel
  exact h

/-- `new N` leads to the constructor, `new A` to the class. -/
example : definition shop noImports asciiLower 9 9 (.new_ [ty b!"\\N"]) = some [15] ∧
    definition shop noImports asciiLower 9 9 (.new_ [ty b!"\\A"]) = some [1] ∧
    Unaliased noImports (ty b!"\\N") := ⟨by decide +kernel, by decide +kernel, by decide +kernel, by decide +kernel⟩

/-- Names: a type, an interface, a function and a `define`. -/
example : definition shop noImports asciiLower 9 9 (.typ [ty b!"\\a"]) = some [1] ∧
    definition shop noImports asciiLower 9 9 (.intf [ty b!"\\I"]) = some [3] ∧
    definition shop noImports asciiLower 9 9 (.function (ty b!"f")) = some [21] ∧
    definition shop noImports asciiLower 9 9 (.constant (ty b!"D")) = some [22] ∧
    deprecatedDiagnostics shop 9 9 [(⟨⟨1, 0⟩, ⟨1, 4⟩⟩, noImports, .typ [ty b!"\\I"]),
      (⟨⟨2, 0⟩, ⟨2, 1⟩⟩, noImports, .function (ty b!"f")), (⟨⟨3, 0⟩, ⟨3, 1⟩⟩, noImports, .constant (ty b!"D"))] =
      some [(⟨⟨1, 0⟩, ⟨1, 4⟩⟩, 3), (⟨⟨3, 0⟩, ⟨3, 1⟩⟩, 22)] :=
  ⟨by decide +kernel, by decide +kernel, by decide +kernel, by decide +kernel, by decide +kernel⟩

/-- C78 is false: `use Lib\Foo; use Foo\Bar; new Bar` means `\Foo\Bar`, but leads to `\Lib\Foo\Bar`: the name that was
resolved already is resolved once more. -/
theorem C78_false_alias : Refers shop libs 7 (.cls [ty b!"\\Foo\\Bar"]) ∧
    ¬ Refers shop libs 8 (.cls [ty b!"\\Foo\\Bar"]) ∧
    definition shop libs asciiLower 9 9 (.cls [ty b!"\\Foo\\Bar"]) = some [8] := by
  refine ⟨⟨_, List.mem_singleton.2 rfl, .inl ⟨⟨b!"\\Foo\\Bar", [], [], [], 7⟩, by decide +kernel, rfl, rfl⟩⟩, ?_,
    by decide +kernel⟩
  rintro ⟨t, ht, h⟩
  rw [List.mem_singleton.1 ht] at h
  have h1 : ∀ c ∈ shop.world.classes, ¬ (asciiLower c.name = asciiLower b!"\\Foo\\Bar" ∧ c.decl = 8) := by decide +kernel
  have h2 : ∀ c ∈ shop.world.interfaces, ¬ (asciiLower c.name = asciiLower b!"\\Foo\\Bar" ∧ c.decl = 8) := by
    decide +kernel
  rcases h with ⟨c, hc, h⟩ | ⟨c, hc, h⟩
  · exact h1 c hc h
  · exact h2 c hc h

/-- C78 is false: the `I` of `I::OLD` leads nowhere. -/
theorem C78_false_interface : Refers shop noImports 3 (.cls [ty b!"\\I"]) ∧ shop.navigable 3 = true ∧
    definition shop noImports asciiLower 9 9 (.cls [ty b!"\\I"]) = some [] :=
  ⟨⟨_, List.mem_singleton.2 rfl, .inr ⟨⟨b!"\\I", [], 3⟩, by decide +kernel, rfl, rfl⟩⟩, by decide +kernel,
    by decide +kernel⟩

/-- C78 is false: `implements i` does not lead to `interface I`, `\a` does lead to `class A`. -/
theorem C78_false_case : Refers shop noImports 3 (.intf [ty b!"\\i"]) ∧ shop.navigable 3 = true ∧
    definition shop noImports asciiLower 9 9 (.intf [ty b!"\\i"]) = some [] ∧
    definition shop noImports asciiLower 9 9 (.cls [ty b!"\\a"]) = some [1] :=
  ⟨⟨_, List.mem_singleton.2 rfl, ⟨⟨b!"\\I", [], 3⟩, by decide +kernel, rfl, rfl⟩⟩, by decide +kernel,
    by decide +kernel, by decide +kernel⟩

/-- C77 is false: `C::BAR` is marked, because `C::BAR_OLD` is deprecated. Go to definition offers both, too. -/
theorem C77_false_prefix :
    (mark shop noImports 9 9 (.member .const ⟨b!"C", [b!"\\C"]⟩ b!"BAR" []) St.new).map (·.1) = some (some 26) ∧
    ¬ Refers shop noImports 26 (.member .const ⟨b!"C", [b!"\\C"]⟩ b!"BAR" []) ∧
    definition shop noImports asciiLower 9 9 (.member .const ⟨b!"C", [b!"\\C"]⟩ b!"BAR" []) = some [16, 26] := by
  refine ⟨by decide +kernel, ?_, by decide +kernel⟩
  rintro ⟨t, ht, m, ⟨scope, _, hm⟩, hn, hd⟩
  obtain ⟨hm, _⟩ := List.mem_filter.1 hm
  have : ∀ m ∈ ([⟨b!"OLD", b!"\\I", .pub, true, 13⟩, ⟨b!"BAR", b!"\\C", .pub, true, 16⟩,
      ⟨b!"BAR_OLD", b!"\\C", .pub, true, 26⟩] : List Member), ¬ (m.name = b!"BAR" ∧ m.decl = 26) := by decide +kernel
  exact this m hm ⟨hn, hd⟩

example : (∀ t ∈ [b!"\\C"], ∀ c ∈ shop.world.members .consts t b!"BAR_OLD", c.name = b!"BAR_OLD") ∧
    (mark shop noImports 9 9 (.member .const ⟨b!"C", [b!"\\C"]⟩ b!"BAR_OLD" []) St.new).map (·.1) = some (some 26) := by
  decide +kernel

/-- C77 is false: `C::OLD`, which `C` has from the interface, is not marked, although go to definition leads to a deprecated
declaration. -/
theorem C77_false_inherited :
    (mark shop noImports 9 9 (.member .const ⟨b!"C", [b!"\\C"]⟩ b!"OLD" []) St.new).map (·.1) = some none ∧
    definition shop noImports asciiLower 9 9 (.member .const ⟨b!"C", [b!"\\C"]⟩ b!"OLD" []) = some [13] ∧
    shop.deprecated 13 = true := ⟨by decide +kernel, by decide +kernel, by decide +kernel⟩

/-- C77 is false: `use T` is never marked. -/
theorem C77_false_trait :
    (mark shop noImports 9 9 (.trt [ty b!"\\T"]) St.new).map (·.1) = some none ∧
    Refers shop noImports 4 (.trt [ty b!"\\T"]) ∧ shop.deprecated 4 = true :=
  ⟨by decide +kernel, ⟨_, List.mem_singleton.2 rfl, ⟨⟨b!"\\T", [], 4⟩, by decide +kernel, rfl, rfl⟩⟩, by decide +kernel⟩

/-- C77 is false: `new N` leads to a deprecated constructor and is not marked. -/
theorem C77_false_constructor :
    (mark shop noImports 9 9 (.new_ [ty b!"\\N"]) St.new).map (·.1) = some none ∧
    definition shop noImports asciiLower 9 9 (.new_ [ty b!"\\N"]) = some [15] ∧ shop.deprecated 15 = true :=
  ⟨by decide +kernel, by decide +kernel, by decide +kernel⟩

/-- C77 is false: the second of `$a->old(); $b->old();` is not marked, where `$a` is an `A` and `$b` a `B`. It is marked
when it comes alone. -/
theorem C77_false_second :
    deprecatedDiagnostics shop 9 9 [(⟨⟨1, 0⟩, ⟨1, 4⟩⟩, noImports, .member .method ⟨b!"$a", [b!"\\A"]⟩ b!"old" []),
      (⟨⟨2, 0⟩, ⟨2, 4⟩⟩, noImports, .member .method ⟨b!"$b", [b!"\\B"]⟩ b!"old" [])] =
      some [(⟨⟨1, 0⟩, ⟨1, 4⟩⟩, 11)] ∧
    deprecatedDiagnostics shop 9 9 [(⟨⟨2, 0⟩, ⟨2, 4⟩⟩, noImports, .member .method ⟨b!"$b", [b!"\\B"]⟩ b!"old" [])] =
      some [(⟨⟨2, 0⟩, ⟨2, 4⟩⟩, 11)] := ⟨by decide +kernel, by decide +kernel⟩

end Verif.Query
