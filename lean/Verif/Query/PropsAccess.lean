import Verif.Query.Props

/-! C31 (visibility), C32 (one entry per name, the nearest), C56 (search by keyword). -/

namespace Verif.Query

/-! ### C31 -/

/-- The cached methods and properties have no relations. -/
def RelOk (st : St) : Prop := ∀ o k fqn nm r, k ≠ .consts → st.cache.get (o, k, fqn, nm) = some r → r.rel = []

theorem RelOk.set {st : St} (h : RelOk st) (o : Of) (k : Kind) (fqn nm : Bytes) (m : Inherited)
    (hm : k ≠ .consts → m.rel = []) : RelOk { st with cache := st.cache.set (o, k, fqn, nm) m } := by
  intro o' k' fqn' nm' r hk hr
  simp only [GoMap.get_set] at hr
  split at hr
  · rename_i he
    simp only [Prod.mk.injEq] at he
    simp only [Option.some.injEq] at hr
    subst hr
    exact hm (he.2.1 ▸ hk)
  · exact h o' k' fqn' nm' r hk hr

theorem intfLoop_rel (w : World) (k : Kind) (hk : k ≠ .consts) (name : Bytes) (n : Nat) (queue : List Intf)
    (m : Inherited) (st : St) (r : Inherited × St) (h : intfLoop w k name n queue m st = some r) : r.1.rel = m.rel := by
  induction n generalizing queue m st with
  | zero =>
    cases queue with
    | nil => simp only [intfLoop, Option.some.injEq] at h; subst h; rfl
    | cons i q => simp [intfLoop] at h
  | succ n ih =>
    cases queue with
    | nil => simp only [intfLoop, Option.some.injEq] at h; subst h; rfl
    | cons i q =>
      simp only [intfLoop] at h
      split at h
      · exact ih _ _ _ h
      · have := ih _ _ _ h
        simpa [hk] using this

theorem getInterface_rel (w : World) (k : Kind) (n : Nat) (i : Intf) (name : Bytes) (o : Option Nat) (st : St)
    (hst : RelOk st) (r : Inherited × St) (h : getInterface w k n i name o st = some r) :
    RelOk r.2 ∧ (k ≠ .consts → r.1.rel = []) := by
  have hst' : RelOk (st.searchedOr o).2 := by unfold RelOk; rw [st.searchedOr_cache o]; exact hst
  unfold getInterface at h
  simp only at h
  split at h
  · rename_i m hm
    simp only [Option.some.injEq] at h
    subst h
    exact ⟨hst', fun hk => hst' _ _ _ _ _ hk hm⟩
  · obtain ⟨⟨m, st'⟩, h1, rfl⟩ := Option.map_eq_some_iff.mp h
    have hc := (intfLoop_keeps _ _ _ _ _ _ _ _ h1).cache
    have hm : k ≠ .consts → m.rel = [] := fun hk => intfLoop_rel w k hk name n _ _ _ _ h1
    refine ⟨RelOk.set (st := st') ?_ _ _ _ _ _ hm, hm⟩
    unfold RelOk
    simp only at hc
    rw [hc]
    exact hst'

theorem getTrait_rel (w : World) (t : Trt) (name : Bytes) (st : St) (hst : RelOk st) :
    RelOk (getTrait w t name st).2 ∧ (getTrait w t name st).1.rel = [] := by
  unfold getTrait
  split
  · rename_i m hm
    exact ⟨hst, hst _ _ _ _ _ (by simp) hm⟩
  · exact ⟨RelOk.set (st := st.newSet.2) hst _ _ _ _ _ (fun _ => rfl), rfl⟩

theorem mergeTraits_rel (w : World) (name : Bytes) (ts : List Trt) (m : Inherited) (st : St) (hst : RelOk st) :
    RelOk (mergeTraits w name ts m st).2 ∧ (mergeTraits w name ts m st).1.rel = m.rel := by
  unfold mergeTraits
  induction ts generalizing m st with
  | nil => exact ⟨hst, rfl⟩
  | cons t ts ih =>
    rw [List.foldl_cons]
    have ht := getTrait_rel w t name st hst
    have := ih (merge m (getTrait w t name st).1 (getTrait w t name st).2).1
      (merge m (getTrait w t name st).1 (getTrait w t name st).2).2 ht.1
    refine ⟨this.1, this.2.trans ?_⟩
    simp [merge, ht.2]

theorem mergeInterfaces_rel (w : World) (k : Kind) (n : Nat) (name : Bytes) (is : List Intf) (m : Inherited) (st : St)
    (r : Inherited × St) (h : mergeInterfaces w k n name is m st = some r) (hst : RelOk st) :
    RelOk r.2 ∧ (k ≠ .consts → r.1.rel = m.rel) := by
  induction is generalizing m st with
  | nil =>
    simp only [mergeInterfaces, Option.some.injEq] at h
    subst h
    exact ⟨hst, fun _ => rfl⟩
  | cons i is ih =>
    simp only [mergeInterfaces] at h
    cases hg : getInterface w k n i name (some m.searched) st with
    | none => rw [hg] at h; simp at h
    | some r' =>
      obtain ⟨r', st'⟩ := r'
      rw [hg] at h
      have h1 := getInterface_rel w k n i name _ st hst _ hg
      have h2 := ih _ _ h h1.1
      refine ⟨h2.1, fun hk => (h2.2 hk).trans ?_⟩
      have := h1.2 hk
      simp only at this
      simp [merge, this]

theorem methodLoop_rel (w : World) (name : Bytes) (ni n : Nat) (queue : List Cls) (m mi : Inherited) (st : St)
    (r : Inherited × Inherited × St) (h : methodLoop w name ni n queue m mi st = some r) (hst : RelOk st) :
    RelOk r.2.2 ∧ r.1.rel = m.rel ∧ r.2.1.rel = mi.rel := by
  induction n generalizing queue m mi st with
  | zero =>
    cases queue with
    | nil => simp only [methodLoop, Option.some.injEq] at h; subst h; exact ⟨hst, rfl, rfl⟩
    | cons c q => simp [methodLoop] at h
  | succ n ih =>
    cases queue with
    | nil => simp only [methodLoop, Option.some.injEq] at h; subst h; exact ⟨hst, rfl, rfl⟩
    | cons c q =>
      simp only [methodLoop] at h
      split at h
      · exact ih _ _ _ _ h hst
      · have ht := mergeTraits_rel w name (w.used c) { m with members := m.members ++ w.found .methods c.name name }
          (st.mark m.searched [c.name]) hst
        cases hg : mergeInterfaces w .methods ni name (w.implemented c) mi
            (mergeTraits w name (w.used c) { m with members := m.members ++ w.found .methods c.name name }
              (st.mark m.searched [c.name])).2 with
        | none => rw [hg] at h; simp at h
        | some r' =>
          obtain ⟨mi', st'⟩ := r'
          rw [hg] at h
          have h2 := mergeInterfaces_rel _ _ _ _ _ _ _ _ hg ht.1
          have h3 := ih _ _ _ _ h h2.1
          exact ⟨h3.1, h3.2.1.trans ht.2, h3.2.2.trans (h2.2 (by simp))⟩

theorem plainLoop_rel (w : World) (k : Kind) (name : Bytes) (ni n : Nat) (queue : List Cls) (m mi : Inherited) (st : St)
    (r : Inherited × Inherited × St) (h : plainLoop w k name ni n queue m mi st = some r) (hst : RelOk st) :
    RelOk r.2.2 ∧ (k ≠ .consts → r.1.rel = m.rel ∧ r.2.1.rel = mi.rel) := by
  induction n generalizing queue m mi st with
  | zero =>
    cases queue with
    | nil => simp only [plainLoop, Option.some.injEq] at h; subst h; exact ⟨hst, fun _ => ⟨rfl, rfl⟩⟩
    | cons c q => simp [plainLoop] at h
  | succ n ih =>
    cases queue with
    | nil => simp only [plainLoop, Option.some.injEq] at h; subst h; exact ⟨hst, fun _ => ⟨rfl, rfl⟩⟩
    | cons c q =>
      simp only [plainLoop] at h
      cases hg : mergeInterfaces w k ni name (w.implemented c) mi st with
      | none => rw [hg] at h; simp at h
      | some r' =>
        obtain ⟨mi', st'⟩ := r'
        rw [hg] at h
        have h2 := mergeInterfaces_rel _ _ _ _ _ _ _ _ hg hst
        have h3 := ih _ _ _ _ h h2.1
        refine ⟨h3.1, fun hk => ⟨(h3.2 hk).1.trans ?_, (h3.2 hk).2.trans (h2.2 hk)⟩⟩
        simp [hk]

theorem getClassMethods_rel (w : World) (n ni : Nat) (c : Cls) (name : Bytes) (o : Option Nat) (st : St)
    (hst : RelOk st) (r : Inherited × St) (h : getClassMethods w n ni c name o st = some r) :
    RelOk r.2 ∧ r.1.rel = [] := by
  have hst' : RelOk (st.searchedOr o).2 := by unfold RelOk; rw [st.searchedOr_cache o]; exact hst
  unfold getClassMethods at h
  simp only at h
  split at h
  · rename_i m hm
    simp only [Option.some.injEq] at h
    subst h
    exact ⟨hst', hst' _ _ _ _ _ (by simp) hm⟩
  · split at h
    · simp at h
    · rename_i m mi st' hl
      have h1 := methodLoop_rel w name ni n _ _ _ _ _ hl hst'
      simp only at h1
      simp only [Option.some.injEq] at h
      subst h
      have hm : (merge m mi st').1.rel = [] := by simp [merge, h1.2.1, h1.2.2]
      exact ⟨RelOk.set (st := (merge m mi st').2) h1.1 _ _ _ _ _ (fun _ => hm), hm⟩

theorem getClassPlain_rel (w : World) (k : Kind) (n ni : Nat) (c : Cls) (name : Bytes) (o : Option Nat) (st : St)
    (hst : RelOk st) (r : Inherited × St) (h : getClassPlain w k n ni c name o st = some r) :
    RelOk r.2 ∧ (k ≠ .consts → r.1.rel = []) := by
  have hst' : RelOk (st.searchedOr o).2 := by unfold RelOk; rw [st.searchedOr_cache o]; exact hst
  unfold getClassPlain at h
  simp only at h
  split at h
  · rename_i m hm
    simp only [Option.some.injEq] at h
    subst h
    exact ⟨hst', fun hk => hst' _ _ _ _ _ hk hm⟩
  · split at h
    · simp at h
    · rename_i m mi st' hl
      have h1 := plainLoop_rel w k name ni n _ _ _ _ _ hl hst'
      simp only at h1
      simp only [Option.some.injEq] at h
      subst h
      have hm : k ≠ .consts → (merge m mi st').1.rel = [] := fun hk => by simp [merge, h1.2 hk]
      exact ⟨RelOk.set (st := (merge m mi st').2) h1.1 _ _ _ _ _ hm, hm⟩

theorem Reachable.relOk {w : World} {st : St} (h : Reachable w st) : RelOk st := by
  induction h with
  | new => intro o k fqn nm r _ hr; simp [St.new, GoMap.get] at hr
  | newSet _ ih => exact ih
  | merged m o _ ih => exact ih
  | interface _ _ hr ih => exact (getInterface_rel w _ _ _ _ _ _ ih _ hr).1
  | trait _ _ ih => exact (getTrait_rel w _ _ _ ih).1
  | methods _ _ hr ih => exact (getClassMethods_rel w _ _ _ _ _ _ ih _ hr).1
  | plain _ _ _ hr ih => exact (getClassPlain_rel w _ _ _ _ _ _ _ ih _ hr).1

/-- C31, public members are offered everywhere; after `Name::` only static ones. -/
theorem C31_public (cur : Bytes) (a : Access) (rel : List (Bytes × Bytes)) (m : Member) (hm : m.vis = .pub) :
    isInherited cur a rel m = true ∧
    (a.scopeName ≠ b!"parent" → a.scopeName ∉ [b!"self", b!"static", b!"$this"] →
      (isInheritedStatic cur a rel m = true ↔ m.isStatic = true)) ∧
    (a.scopeName ∈ [b!"self", b!"static", b!"$this"] → isInheritedStatic cur a rel m = true) ∧
    (a.scopeName = b!"parent" → (isInheritedStatic cur a rel m = true ↔ m.scope ≠ cur)) := by
  refine ⟨?_, ?_, ?_, ?_⟩
  · simp [isInherited, hm]
  · intro h1 h2
    simp only [List.mem_cons, List.not_mem_nil, or_false, not_or] at h2
    have h3 : isNameParent a.scopeName = false := by simp [isNameParent, h1]
    have h4 : isNameRelative a.scopeName = false := by simp [isNameRelative, h2]
    unfold isInheritedStatic
    rw [h3, h4]
    cases m.isStatic <;> simp [hm]
  · intro h
    have h3 : isNameParent a.scopeName = false := by
      simp only [List.mem_cons, List.not_mem_nil, or_false] at h
      rcases h with h | h | h <;> rw [h] <;> decide
    have h4 : isNameRelative a.scopeName = true := by
      simp only [List.mem_cons, List.not_mem_nil, or_false] at h
      rcases h with h | h | h <;> rw [h] <;> decide
    unfold isInheritedStatic
    rw [h3, h4]
    simp [hm]
  · intro h
    unfold isInheritedStatic
    rw [show isNameParent a.scopeName = true by rw [h]; decide]
    simp [hm]

/-- C31, after `Name::` only static members are offered, whatever the class family. -/
theorem C31_static_only (cur : Bytes) (a : Access) (rel : List (Bytes × Bytes)) (m : Member)
    (h1 : a.scopeName ≠ b!"parent") (h2 : a.scopeName ∉ [b!"self", b!"static", b!"$this"])
    (h : isInheritedStatic cur a rel m = true) : m.isStatic = true := by
  simp only [List.mem_cons, List.not_mem_nil, or_false, not_or] at h2
  have h3 : isNameParent a.scopeName = false := by simp [isNameParent, h1]
  have h4 : isNameRelative a.scopeName = false := by simp [isNameRelative, h2]
  unfold isInheritedStatic at h
  rw [h3, h4] at h
  cases hs : m.isStatic with
  | true => rfl
  | false => rw [hs] at h; simp at h

/-- C31, `self::` and `static::`: of the members that the class has or inherits, exactly those that PHP allows are
offered. -/
theorem C31_self (sub : Bytes → Bytes → Prop) (cur : Bytes) (a : Access) (rel : List (Bytes × Bytes)) (m : Member)
    (ha : a.scopeName ∈ [b!"self", b!"static", b!"$this"]) (hm : sub cur m.scope) :
    isInheritedStatic cur a rel m = true ↔ Allowed sub cur m := by
  have h3 : isNameParent a.scopeName = false := by
    simp only [List.mem_cons, List.not_mem_nil, or_false] at ha
    rcases ha with h | h | h <;> rw [h] <;> decide
  have h4 : isNameRelative a.scopeName = true := by
    simp only [List.mem_cons, List.not_mem_nil, or_false] at ha
    rcases ha with h | h | h <;> rw [h] <;> decide
  unfold isInheritedStatic Allowed
  rw [h3, h4]
  cases hv : m.vis <;> simp [hm, eq_comm]

/-- C31, `parent::`: of the members that the class inherits, exactly those that PHP allows are offered. -/
theorem C31_parent (sub : Bytes → Bytes → Prop) (cur : Bytes) (a : Access) (rel : List (Bytes × Bytes)) (m : Member)
    (ha : a.scopeName = b!"parent") (hm : sub cur m.scope) (hne : m.scope ≠ cur) :
    isInheritedStatic cur a rel m = true ↔ Allowed sub cur m := by
  unfold isInheritedStatic Allowed
  rw [show isNameParent a.scopeName = true by rw [ha]; decide]
  cases hv : m.vis <;> simp [hm, hne, Ne.symm hne]

/-- C31, `$x->` where `$x` is not an object of the class of the code: of the methods and properties that were found, by
whatever query, exactly the public ones are offered, so nothing that PHP forbids. -/
theorem C31_outside_partial (w : World) (st : St) (hst : Reachable w st) (c : Cls) (name : Bytes) (searched : Option Nat)
    (n ni : Nat) (r : Inherited × St)
    (h : getClassMethods w n ni c name searched st = some r ∨ getClassPlain w .props n ni c name searched st = some r)
    (cur : Bytes) (a : Access) (ha : a.scopeName ≠ b!"$this") (ht : cur ∉ a.types) (f : Found) (hf : f ∈ r.1.members) :
    isInherited cur a r.1.rel f.member = true ↔ f.member.vis = .pub := by
  have hrel : r.1.rel = [] := by
    rcases h with h | h
    · exact (getClassMethods_rel w n ni c name searched st hst.relOk r h).2
    · exact (getClassPlain_rel w _ n ni c name searched st hst.relOk r h).2 (by simp)
  have hloop : scopeLoop cur f.member.scope [] a.types = (false, false) := by
    revert ht
    generalize a.types = l
    intro ht
    induction l with
    | nil => rfl
    | cons t l ih =>
      simp only [List.mem_cons, not_or] at ht
      simp only [scopeLoop]
      rw [if_neg (Ne.symm ht.1), if_neg (by simp)]
      exact ih ht.2
  unfold isInherited
  rw [hrel, hloop]
  simp [ha]

/-- C31, `$this->`: every member of the class and its parents that PHP allows is offered. Missing: nothing else is
offered, which is false of private members of the parents. -/
theorem C31_this_partial (sub : Bytes → Bytes → Prop) (cur : Bytes) (a : Access) (rel : List (Bytes × Bytes)) (m : Member)
    (ha : a.scopeName = b!"$this") (hm : Allowed sub cur m) : isInherited cur a rel m = true := by
  unfold isInherited
  unfold Allowed at hm
  cases hv : m.vis with
  | pub => simp
  | protected_ => simp [ha]
  | private_ => rw [hv] at hm; simp [ha, hm]

/-- C31, what is offered after `$x->` in every case is public, or protected, or belongs to an object of the class of the
code. -/
theorem C31_private_needs_class (cur : Bytes) (a : Access) (rel : List (Bytes × Bytes)) (m : Member)
    (h : isInherited cur a rel m = true) (hm : m.vis = .private_) :
    a.scopeName = b!"$this" ∧ m.scope = cur ∨ cur ∈ a.types := by
  unfold isInherited at h
  rw [hm] at h
  by_cases h1 : a.scopeName = b!"$this" ∧ m.scope = cur
  · exact .inl h1
  · right
    have h2 : (scopeLoop cur m.scope rel a.types).1 = true := by
      simp only [ne_eq, not_true_eq_false, or_false, h1, if_false] at h
      simpa using h
    revert h2
    generalize a.types = l
    intro h2
    induction l with
    | nil => simp [scopeLoop] at h2
    | cons t l ih =>
      simp only [scopeLoop] at h2
      split at h2
      · rename_i he; simp [he]
      · split at h2
        · simp at h2
        · exact List.mem_cons_of_mem _ (ih h2)

/-- The hypotheses of the theorems above: a private method of the class after `self::`, a protected one of the parent after
`parent::`, a public one after `$x->`. -/
example : isInheritedStatic b!"A" ⟨b!"self", [b!"A"]⟩ [] ⟨b!"m", b!"A", .private_, false, 0⟩ = true ∧
    isInheritedStatic b!"A" ⟨b!"parent", [b!"B"]⟩ [] ⟨b!"m", b!"B", .protected_, false, 0⟩ = true ∧
    isInheritedStatic b!"A" ⟨b!"parent", [b!"B"]⟩ [] ⟨b!"m", b!"B", .private_, false, 0⟩ = false ∧
    isInherited b!"A" ⟨b!"$x", [b!"C"]⟩ [] ⟨b!"m", b!"C", .private_, false, 0⟩ = false ∧
    isInherited b!"A" ⟨b!"$x", [b!"C"]⟩ [] ⟨b!"m", b!"C", .pub, false, 0⟩ = true := by decide +kernel

example : Reachable demo St.new ∧
    ((getClassMethods demo 9 9 ⟨b!"A", b!"B", [b!"I"], [], 0⟩ [] none St.new).map fun r =>
      (r.1.reduceAccess b!"Z" ⟨b!"$x", [b!"A"]⟩).map fun f => f.member.name) =
      some [b!"m", b!"i", b!"j"] := ⟨.new, by decide +kernel⟩

/-- C31 is false: `Foo::secret()` is offered outside of classes although `secret` is private. -/
theorem C31_false_static_private :
    isInheritedStatic [] ⟨b!"Foo", [b!"Foo"]⟩ [] ⟨b!"secret", b!"Foo", .private_, true, 0⟩ = true ∧
    ¬ Allowed (fun a b => a = b) [] ⟨b!"secret", b!"Foo", .private_, true, 0⟩ := by
  refine ⟨by decide +kernel, ?_⟩
  simp [Allowed]

/-- C31 is false: the private method `p` of the parent `B` is offered after `$this->` in `A`. -/
theorem C31_false_private_parent :
    ((getClassMethods demo 9 9 ⟨b!"A", b!"B", [b!"I"], [], 0⟩ [] none St.new).map fun r =>
      (r.1.reduceAccess b!"A" ⟨b!"$this", [b!"A"]⟩).any fun f =>
        f.member = ⟨b!"p", b!"B", .private_, false, 0⟩) = some true ∧
    ∀ sub, ¬ Allowed sub b!"A" ⟨b!"p", b!"B", .private_, false, 0⟩ := by
  refine ⟨by decide +kernel, fun sub => ?_⟩
  simp [Allowed]

/-- C31 is false: the protected method `t` that `A` inherits is not offered in the class `B` of the same family when the
object is an `A`. -/
theorem C31_false_family :
    ((getClassMethods demo 9 9 ⟨b!"A", b!"B", [b!"I"], [], 0⟩ [] none St.new).map fun r =>
      (r.1.reduceAccess b!"B" ⟨b!"$x", [b!"A"]⟩).any fun f => f.member.name = b!"t") = some false ∧
    ((getClassMethods demo 9 9 ⟨b!"A", b!"B", [b!"I"], [], 0⟩ [] none St.new).map fun r =>
      r.1.members.any fun f => f.member.name = b!"t" ∧ f.member.vis = .protected_) = some true := by
  decide +kernel

/-- `class P { protected const X; }`, `class Q extends P {}`. -/
def consts : World :=
  { classes := [⟨b!"P", [], [], [], 0⟩, ⟨b!"Q", b!"P", [], [], 0⟩], interfaces := [], traits := [], key := asciiLower
    members := fun k scope _ => if k = .consts ∧ scope = b!"P" then [⟨b!"X", b!"P", .protected_, true, 0⟩] else [] }

/-- C31 is false of constants: `Q::X` is not offered in `Q` although `X` is a protected constant of its parent; the relation
of classes is recorded in the other direction than it is looked up. -/
theorem C31_false_constant :
    ((getClassPlain consts .consts 9 9 ⟨b!"Q", b!"P", [], [], 0⟩ [] none St.new).map fun r =>
      (r.1.members.map fun f => f.member.name, r.1.rel,
        (r.1.reduceStatic b!"Q" ⟨b!"Q", [b!"Q"]⟩).map fun f => f.member.name)) =
      some ([b!"X"], [(b!"Q", b!"P")], []) := by decide +kernel

/-! ### C32 -/

theorem reduceLoop_mem (ok : Found → Bool) (adj : Found → Found) (hadj : ∀ f, (adj f).member = f.member)
    (seen : List Bytes) (l : List Found) (f : Found) :
    f ∈ reduceLoop ok adj seen l ↔ ∃ pre g post, l = pre ++ g :: post ∧ f = adj g ∧ ok g = true ∧
      g.member.name ∉ seen ∧ ∀ h ∈ pre, ok h = true → h.member.name ≠ g.member.name := by
  induction l generalizing seen with
  | nil => simp [reduceLoop]
  | cons x l ih =>
    simp only [reduceLoop]
    by_cases h1 : x.member.name ∈ seen
    · rw [if_pos h1, ih]
      constructor
      · rintro ⟨pre, g, post, rfl, h2, h3, h4, h5⟩
        refine ⟨x :: pre, g, post, rfl, h2, h3, h4, ?_⟩
        intro h hh hok
        rw [List.mem_cons] at hh
        rcases hh with rfl | hh
        · exact fun he => h4 (he ▸ h1)
        · exact h5 h hh hok
      · rintro ⟨pre, g, post, he, h2, h3, h4, h5⟩
        cases pre with
        | nil =>
          simp only [List.nil_append, List.cons.injEq] at he
          exact absurd (he.1 ▸ h1) h4
        | cons y pre =>
          simp only [List.cons_append, List.cons.injEq] at he
          exact ⟨pre, g, post, he.2, h2, h3, h4, fun h hh => h5 h (by simp [hh])⟩
    · rw [if_neg h1]
      by_cases h2 : ok x = true
      · rw [if_pos h2, List.mem_cons, ih]
        constructor
        · rintro (rfl | ⟨pre, g, post, rfl, h3, h4, h5, h6⟩)
          · exact ⟨[], x, l, rfl, rfl, h2, h1, by simp⟩
          · simp only [List.mem_cons, not_or] at h5
            refine ⟨x :: pre, g, post, rfl, h3, h4, h5.2, ?_⟩
            intro h hh hok
            rw [List.mem_cons] at hh
            rcases hh with rfl | hh
            · exact Ne.symm h5.1
            · exact h6 h hh hok
        · rintro ⟨pre, g, post, he, h3, h4, h5, h6⟩
          cases pre with
          | nil =>
            simp only [List.nil_append, List.cons.injEq] at he
            exact .inl (by rw [h3, he.1])
          | cons y pre =>
            simp only [List.cons_append, List.cons.injEq] at he
            refine .inr ⟨pre, g, post, he.2, h3, h4, ?_, fun h hh => h6 h (by simp [hh])⟩
            simp only [List.mem_cons, not_or]
            refine ⟨?_, h5⟩
            have := h6 y (by simp)
            rw [← he.1] at this
            exact Ne.symm (this h2)
      · rw [if_neg h2, ih]
        constructor
        · rintro ⟨pre, g, post, rfl, h3, h4, h5, h6⟩
          refine ⟨x :: pre, g, post, rfl, h3, h4, h5, ?_⟩
          intro h hh hok
          rw [List.mem_cons] at hh
          rcases hh with rfl | hh
          · exact absurd hok h2
          · exact h6 h hh hok
        · rintro ⟨pre, g, post, he, h3, h4, h5, h6⟩
          cases pre with
          | nil =>
            simp only [List.nil_append, List.cons.injEq] at he
            exact absurd (he.1 ▸ h4) h2
          | cons y pre =>
            simp only [List.cons_append, List.cons.injEq] at he
            exact ⟨pre, g, post, he.2, h3, h4, h5, fun h hh => h6 h (by simp [hh])⟩

theorem reduceLoop_names (ok : Found → Bool) (adj : Found → Found) (hadj : ∀ f, (adj f).member = f.member)
    (seen : List Bytes) (l : List Found) :
    ((reduceLoop ok adj seen l).map fun f => f.member.name).Nodup ∧
      ∀ f ∈ reduceLoop ok adj seen l, f.member.name ∉ seen := by
  induction l generalizing seen with
  | nil => simp [reduceLoop]
  | cons x l ih =>
    simp only [reduceLoop]
    split
    · exact ih seen
    · rename_i h1
      split
      · have := ih (x.member.name :: seen)
        rw [List.map_cons, List.nodup_cons]
        refine ⟨⟨?_, this.1⟩, ?_⟩
        · intro hm
          obtain ⟨g, hg, he⟩ := List.mem_map.mp hm
          have h2 := this.2 g hg
          rw [hadj] at he
          simp [he] at h2
        · intro f hf
          rw [List.mem_cons] at hf
          rcases hf with rfl | hf
          · rw [hadj]; exact h1
          · have h2 := this.2 f hf
            simp only [List.mem_cons, not_or] at h2
            exact h2.2
      · exact ih seen

theorem first_of_name (ok : Found → Bool) (l : List Found) (f : Found) (hf : f ∈ l) (hok : ok f = true) :
    ∃ pre g post, l = pre ++ g :: post ∧ ok g = true ∧ g.member.name = f.member.name ∧
      ∀ h ∈ pre, ok h = true → h.member.name ≠ g.member.name := by
  induction l with
  | nil => simp at hf
  | cons x l ih =>
    by_cases hx : ok x = true ∧ x.member.name = f.member.name
    · exact ⟨[], x, l, rfl, hx.1, hx.2, by simp⟩
    · rw [List.mem_cons] at hf
      rcases hf with rfl | hf
      · exact absurd ⟨hok, rfl⟩ hx
      · obtain ⟨pre, g, post, rfl, h1, h2, h3⟩ := ih hf
        refine ⟨x :: pre, g, post, rfl, h1, h2, ?_⟩
        intro h hh hokh
        rw [List.mem_cons] at hh
        rcases hh with rfl | hh
        · rw [h2]; exact fun he => hx ⟨hokh, he⟩
        · exact h3 h hh hokh

/-- C32, after `->`: no name is reported twice, a reported member is accessible and the first accessible one with its name,
and every accessible member's name is reported. -/
theorem C32_access (m : Inherited) (cur : Bytes) (a : Access) :
    ((m.reduceAccess cur a).map fun f => f.member.name).Nodup ∧
    (∀ f ∈ m.reduceAccess cur a, ∃ pre g post, m.members = pre ++ g :: post ∧ f.member = g.member ∧ f.scope = g.scope ∧
      isInherited cur a m.rel g.member = true ∧
      ∀ h ∈ pre, isInherited cur a m.rel h.member = true → h.member.name ≠ g.member.name) ∧
    (∀ g ∈ m.members, isInherited cur a m.rel g.member = true →
      ∃ f ∈ m.reduceAccess cur a, f.member.name = g.member.name) := by
  have hadj : ∀ f : Found, (if f.member.isStatic then { f with score := f.score - 16 } else f).member = f.member := by
    intro f; split <;> rfl
  refine ⟨(reduceLoop_names _ _ hadj [] m.members).1, fun f hf => ?_, fun g hg hok => ?_⟩
  · obtain ⟨pre, g, post, h1, rfl, h3, -, h5⟩ := (reduceLoop_mem _ _ hadj [] m.members f).mp hf
    refine ⟨pre, g, post, h1, hadj g, ?_, h3, h5⟩
    split <;> rfl
  · obtain ⟨pre, g', post, h1, h2, h3, h4⟩ := first_of_name (fun f => isInherited cur a m.rel f.member) m.members g hg hok
    exact ⟨_, (reduceLoop_mem _ _ hadj [] m.members _).mpr ⟨pre, g', post, h1, rfl, h2, by simp, h4⟩,
      by rw [hadj]; exact h3⟩

/-- C32, after `::`. -/
theorem C32_static (m : Inherited) (cur : Bytes) (a : Access) :
    ((m.reduceStatic cur a).map fun f => f.member.name).Nodup ∧
    (∀ f ∈ m.reduceStatic cur a, ∃ pre post, m.members = pre ++ f :: post ∧
      isInheritedStatic cur a m.rel f.member = true ∧
      ∀ h ∈ pre, isInheritedStatic cur a m.rel h.member = true → h.member.name ≠ f.member.name) ∧
    (∀ g ∈ m.members, isInheritedStatic cur a m.rel g.member = true →
      ∃ f ∈ m.reduceStatic cur a, f.member.name = g.member.name) := by
  have hadj : ∀ f : Found, (id f).member = f.member := fun _ => rfl
  refine ⟨(reduceLoop_names _ _ hadj [] m.members).1, fun f hf => ?_, fun g hg hok => ?_⟩
  · obtain ⟨pre, g, post, h1, rfl, h3, -, h5⟩ := (reduceLoop_mem _ _ hadj [] m.members f).mp hf
    exact ⟨pre, post, h1, h3, h5⟩
  · obtain ⟨pre, g', post, h1, h2, h3, h4⟩ :=
      first_of_name (fun f => isInheritedStatic cur a m.rel f.member) m.members g hg hok
    exact ⟨g', (reduceLoop_mem _ _ hadj [] m.members _).mpr ⟨pre, g', post, h1, rfl, h2, by simp, h4⟩, h3⟩

/-- C32, constructors: the first public method. -/
theorem C32_first (m : Inherited) (f : Found) : m.reduceFirst = some f ↔
    ∃ pre post, m.members = pre ++ f :: post ∧ f.member.vis = .pub ∧ ∀ h ∈ pre, h.member.vis ≠ .pub := by
  unfold Inherited.reduceFirst
  rw [List.find?_eq_some_iff_append]
  constructor
  · rintro ⟨h1, as, bs, h2, h3⟩
    exact ⟨as, bs, h2, by simpa using h1, fun h hh => by simpa using h3 h hh⟩
  · rintro ⟨as, bs, h1, h2, h3⟩
    exact ⟨by simpa using h2, as, bs, h1, fun h hh => by simpa using h3 h hh⟩

/-- The methods that a class itself has: its own and those of its traits. -/
def declared (w : World) (name : Bytes) (d : Cls) : List Found :=
  w.found .methods d.name name ++ (w.used d).flatMap fun t => w.found .methods t.name name

theorem split_flatMap (F : Cls → List Found) (l : List Cls) (pre post : List Found) (g : Found)
    (h : l.flatMap F = pre ++ g :: post) :
    ∃ l1 d l2, l = l1 ++ d :: l2 ∧ g ∈ F d ∧ ∀ e ∈ l1, ∀ h ∈ F e, h ∈ pre := by
  induction l generalizing pre with
  | nil => simp at h
  | cons d l ih =>
    rw [List.flatMap_cons] at h
    rcases List.append_eq_append_iff.mp h with ⟨a', h1, h2⟩ | ⟨c', h1, h2⟩
    · obtain ⟨l1, d', l2, rfl, h3, h4⟩ := ih a' h2
      refine ⟨d :: l1, d', l2, rfl, h3, ?_⟩
      intro e he x hx
      rw [h1]
      rw [List.mem_cons] at he
      rcases he with rfl | he
      · exact List.mem_append_left _ hx
      · exact List.mem_append_right _ (h4 e he x hx)
    · cases c' with
      | nil =>
        simp only [List.nil_append] at h2
        simp only [List.append_nil] at h1
        obtain ⟨l1, d', l2, rfl, h3, h4⟩ := ih [] h2.symm
        refine ⟨d :: l1, d', l2, rfl, h3, ?_⟩
        intro e he x hx
        rw [List.mem_cons] at he
        rcases he with rfl | he
        · rw [← h1]; exact hx
        · exact absurd (h4 e he x hx) (by simp)
      | cons y c' =>
        simp only [List.cons_append, List.cons.injEq] at h2
        refine ⟨[], d, l, rfl, ?_, by simp⟩
        rw [h1, h2.1]
        simp

/-- C32, the nearest class: the method that a new query reports after `->` is declared in a class of the lineage such
that no nearer class declares an accessible method of the same name, or in an interface if no class declares
one. -/
theorem C32_nearest (w : World) (hw : Distinct w) (ha : Apart w) (c : Cls) (hc : c ∈ w.classes) (name : Bytes)
    (n ni : Nat) (r : Inherited × St) (h : getClassMethods w n ni c name none St.new = some r)
    (cur : Bytes) (a : Access) (f : Found) (hf : f ∈ r.1.reduceAccess cur a) :
    ∃ l, Lineage w c l ∧
      ((∃ l1 d l2, l = l1 ++ d :: l2 ∧ (∃ g ∈ declared w name d, f.member = g.member ∧ f.scope = g.scope) ∧
          ∀ e ∈ l1, ∀ h ∈ declared w name e, isInherited cur a r.1.rel h.member = true →
            h.member.name ≠ f.member.name) ∨
        ((∃ d ∈ l, ∃ i ∈ w.interfaces, i.name ∈ d.impls ∧ IntfProvides w i f.scope) ∧
          ∀ e ∈ l, ∀ h ∈ declared w name e, isInherited cur a r.1.rel h.member = true →
            h.member.name ≠ f.member.name)) := by
  obtain ⟨l, I, hl, hm, hI⟩ := C30_order w hw ha c hc name n ni r h
  obtain ⟨pre, g, post, h1, h2, h3, -, h5⟩ := (C32_access r.1 cur a).2.1 f hf
  rw [hm] at h1
  refine ⟨l, hl, ?_⟩
  rcases List.append_eq_append_iff.mp h1 with ⟨a', h6, h7⟩ | ⟨c', h6, h7⟩
  · right
    refine ⟨?_, fun e he x hx hok => ?_⟩
    · obtain ⟨d, hd, i, hi, h8, -, h10, -⟩ := (hI g).mp (by rw [h7]; simp)
      exact ⟨d, hd, i, hi, h8, by rw [h3]; exact h10⟩
    · rw [h2]
      refine h5 x ?_ hok
      rw [h6]
      exact List.mem_append_left _ (List.mem_flatMap.mpr ⟨e, he, hx⟩)
  · cases c' with
    | nil =>
      right
      simp only [List.nil_append] at h7
      simp only [List.append_nil] at h6
      refine ⟨?_, fun e he x hx hok => ?_⟩
      · obtain ⟨d, hd, i, hi, h8, -, h10, -⟩ := (hI g).mp (by rw [← h7]; simp)
        exact ⟨d, hd, i, hi, h8, by rw [h3]; exact h10⟩
      · rw [h2]
        refine h5 x ?_ hok
        rw [← h6]
        exact List.mem_flatMap.mpr ⟨e, he, hx⟩
    | cons y c' =>
      left
      simp only [List.cons_append, List.cons.injEq] at h7
      rw [← h7.1] at h6
      obtain ⟨l1, d, l2, h8, h9, h10⟩ := split_flatMap _ l pre c' g h6
      refine ⟨l1, d, l2, h8, ⟨g, h9, h2, h3⟩, fun e he x hx hok => ?_⟩
      rw [h2]
      exact h5 x (h10 e he x hx) hok

/-- In `demo` the method `m` is reported once, from `A`. -/
example : ((getClassMethods demo 9 9 ⟨b!"A", b!"B", [b!"I"], [], 0⟩ [] none St.new).map fun r =>
      (r.1.reduceAccess b!"A" ⟨b!"$this", [b!"A"]⟩).map fun f => (f.scope, f.member.name)) =
      some [(b!"A", b!"m"), (b!"B", b!"p"), (b!"T", b!"t"), (b!"I", b!"i"), (b!"J", b!"j")] := by decide +kernel

/-- C32 is false of names that differ in case, which are the same method in PHP: both are reported. -/
theorem C32_false_case :
    (Inherited.reduceAccess
      { members := [⟨⟨b!"foo", b!"A", .pub, false, 0⟩, b!"A", 0⟩, ⟨⟨b!"Foo", b!"B", .pub, false, 0⟩, b!"B", 0⟩]
        rel := [], searched := 0 } b!"A" ⟨b!"$this", [b!"A"]⟩).map (fun f => f.member.name) = [b!"foo", b!"Foo"] := by
  decide +kernel

/-! ### Merging the results of several types -/

theorem mergeWithScope_fold (key : Bytes → Bytes) (l : List Found) (acc : List Found) (seen : List Bytes)
    (hseen : ∀ k, k ∈ seen ↔ ∃ f ∈ acc, key f.scope ++ f.member.name = k)
    (hnd : (acc.map fun f => key f.scope ++ f.member.name).Nodup) :
    let res := (l.foldl (fun (r : List Found × List Bytes) f =>
      let k := key f.scope ++ f.member.name
      if k ∈ r.2 then r else (r.1 ++ [f], k :: r.2)) (acc, seen)).1
    (res.map fun f => key f.scope ++ f.member.name).Nodup ∧
      (∀ f ∈ res, f ∈ acc ∨ f ∈ l) ∧ (∀ f ∈ acc, f ∈ res) ∧
      ∀ f ∈ l, ∃ g ∈ res, key g.scope ++ g.member.name = key f.scope ++ f.member.name := by
  induction l generalizing acc seen with
  | nil => exact ⟨hnd, fun f hf => .inl hf, fun f hf => hf, by simp⟩
  | cons x l ih =>
    simp only [List.foldl_cons]
    by_cases hx : key x.scope ++ x.member.name ∈ seen
    · rw [if_pos hx]
      obtain ⟨h1, h2, h3, h4⟩ := ih acc seen hseen hnd
      refine ⟨h1, fun f hf => ?_, h3, fun f hf => ?_⟩
      · rcases h2 f hf with h | h
        · exact .inl h
        · exact .inr (by simp [h])
      · rw [List.mem_cons] at hf
        rcases hf with rfl | hf
        · obtain ⟨g, hg, he⟩ := (hseen _).mp hx
          exact ⟨g, h3 g hg, he⟩
        · exact h4 f hf
    · rw [if_neg hx]
      obtain ⟨h1, h2, h3, h4⟩ := ih (acc ++ [x]) ((key x.scope ++ x.member.name) :: seen) (by
          intro k
          rw [List.mem_cons, hseen]
          constructor
          · rintro (rfl | ⟨f, hf, he⟩)
            · exact ⟨x, by simp, rfl⟩
            · exact ⟨f, by simp [hf], he⟩
          · rintro ⟨f, hf, he⟩
            rw [List.mem_append, List.mem_singleton] at hf
            rcases hf with hf | rfl
            · exact .inr ⟨f, hf, he⟩
            · exact .inl he.symm) (by
          rw [List.map_append, List.nodup_append]
          refine ⟨hnd, by simp, ?_⟩
          intro a ha b hb
          simp only [List.map_cons, List.map_nil, List.mem_singleton] at hb
          subst hb
          rintro rfl
          obtain ⟨f, hf, he⟩ := List.mem_map.mp ha
          exact hx ((hseen _).mpr ⟨f, hf, he⟩))
      refine ⟨h1, fun f hf => ?_, fun f hf => h3 f (by simp [hf]), fun f hf => ?_⟩
      · rcases h2 f hf with h | h
        · rw [List.mem_append, List.mem_singleton] at h
          rcases h with h | rfl
          · exact .inl h
          · exact .inr (by simp)
        · exact .inr (by simp [h])
      · rw [List.mem_cons] at hf
        rcases hf with rfl | hf
        · exact ⟨f, h3 f (by simp), rfl⟩
        · exact h4 f hf

/-- C32, union types: merging the results for the types of a union reports every member of every result, each key
(declaring class and name) once. -/
theorem C32_union (key : Bytes → Bytes) (items : List (List Found)) :
    ((mergeWithScope key items).map fun f => key f.scope ++ f.member.name).Nodup ∧
    (∀ f ∈ mergeWithScope key items, ∃ l ∈ items, f ∈ l) ∧
    (∀ l ∈ items, ∀ f ∈ l, ∃ g ∈ mergeWithScope key items,
      key g.scope ++ g.member.name = key f.scope ++ f.member.name) := by
  obtain ⟨h1, h2, -, h4⟩ := mergeWithScope_fold key items.flatten [] [] (by simp) (by simp)
  refine ⟨h1, fun f hf => ?_, fun l hl f hf => h4 f (List.mem_flatten.mpr ⟨l, hl, hf⟩)⟩
  rcases h2 f hf with h | h
  · simp at h
  · exact List.mem_flatten.mp h

/-! ### C56 -/

theorem mem_matching (isMatch : Bytes → Option Int) (l : List Found) (f : Found) :
    f ∈ matching isMatch l ↔ ∃ g ∈ l, ∃ s, isMatch g.member.name = some s ∧ f = { g with score := s } := by
  simp only [matching, List.mem_filterMap, Option.map_eq_some_iff]
  constructor
  · rintro ⟨g, hg, s, h1, h2⟩; exact ⟨g, hg, s, h1, h2.symm⟩
  · rintro ⟨g, hg, s, h1, h2⟩; exact ⟨g, hg, s, h1, h2.symm⟩

/-- C56: the search of a new query for a keyword reports exactly the methods of the class, and of all that can be reached from
it, whose name matches, with the score of the match. -/
theorem C56_search_partial (w : World) (hw : Distinct w) (ha : Apart w) (ht : ∀ t ∈ w.traits, t.uses = []) (c : Cls)
    (hc : c ∈ w.classes) (isMatch : Bytes → Option Int) (keyword : Bytes) (hk : keyword ≠ []) (n ni : Nat)
    (r : Inherited × St)
    (h : search (getClassMethods w n ni c [] none) (.cls, .methods, c.name, []) isMatch keyword St.new = some r)
    (f : Found) : f ∈ r.1.members ↔ Provides w c f.scope ∧
      { f with score := 0 } ∈ w.found .methods f.scope [] ∧ isMatch f.member.name = some f.score := by
  unfold search at h
  cases hg : getClassMethods w n ni c [] none St.new with
  | none => rw [hg] at h; simp at h
  | some r' =>
    obtain ⟨m, st⟩ := r'
    rw [hg] at h
    simp only [hk, if_false, Option.some.injEq] at h
    subst h
    simp only
    rw [mem_matching]
    have hex := C30_exact_partial w hw ha ht c hc [] n ni _ hg
    simp only at hex
    constructor
    · rintro ⟨g, hg, s, h1, rfl⟩
      have h2 := (hex g).mp hg
      have h3 : g.score = 0 := by
        have := h2.2
        simp only [World.found, List.mem_map] at this
        obtain ⟨m, -, he⟩ := this
        rw [← he]
      refine ⟨h2.1, ?_, h1⟩
      simp only
      rw [← h3]
      exact h2.2
    · rintro ⟨h1, h2, h3⟩
      exact ⟨_, (hex { f with score := 0 }).mpr ⟨h1, h2⟩, f.score, h3, rfl⟩

/-- C56, again: searching once more for the same keyword in the same request reports the same members, although
the first search has overwritten the cached ones. -/
theorem C56_again (w : World) (n ni : Nat) (c : Cls) (isMatch : Bytes → Option Int)
    (keyword : Bytes) (hk : keyword ≠ []) (o o' : Option Nat) (st : St) (r : Inherited × St)
    (h : search (getClassMethods w n ni c [] o) (.cls, .methods, c.name, []) isMatch keyword st = some r) :
    ∃ r', search (getClassMethods w n ni c [] o') (.cls, .methods, c.name, []) isMatch keyword r.2 = some r' ∧
      ∀ f, f ∈ r'.1.members ↔ f ∈ r.1.members := by
  unfold search at h
  cases hg : getClassMethods w n ni c [] o st with
  | none => rw [hg] at h; simp at h
  | some r₁ =>
    obtain ⟨m, st₁⟩ := r₁
    rw [hg] at h
    simp only [hk, if_false, Option.some.injEq] at h
    subst h
    unfold search
    have hcache : ∀ st' : St, st'.cache.get (Of.cls, Kind.methods, c.name, []) =
        some { m with members := overwritten isMatch m.members } →
        ∃ s, getClassMethods w n ni c [] o' st' = some ({ m with members := overwritten isMatch m.members }, s) := by
      intro st' hs
      unfold getClassMethods
      simp only
      rw [st'.searchedOr_cache o', hs]
      exact ⟨_, rfl⟩
    obtain ⟨s, hs⟩ := hcache { st₁ with
      cache := st₁.cache.set (Of.cls, Kind.methods, c.name, []) { m with members := overwritten isMatch m.members } }
      (by simp [GoMap.get_set])
    simp only
    rw [hs]
    simp only [hk, if_false]
    refine ⟨_, rfl, fun f => ?_⟩
    simp only
    rw [mem_matching, mem_matching]
    constructor
    · rintro ⟨g, hg, s, h1, rfl⟩
      simp only [overwritten, List.mem_append] at hg
      rcases hg with hg | hg
      · obtain ⟨g', hg', s', h2, rfl⟩ := (mem_matching _ _ _).mp hg
        simp only at h1
        exact ⟨g', hg', s, h1, rfl⟩
      · exact ⟨g, List.mem_of_mem_drop hg, s, h1, rfl⟩
    · rintro ⟨g, hg, s, h1, rfl⟩
      refine ⟨{ g with score := s }, ?_, s, h1, rfl⟩
      exact List.mem_append_left _ ((mem_matching _ _ _).mpr ⟨g, hg, s, h1, rfl⟩)

/-- C56 is false of another keyword in the same request: after a search for `i` the method `a` is not found any more.
(The handlers use one keyword per request.) -/
theorem C56_false_other_keyword :
    let find (kw : Bytes) := search (getClassMethods twice 9 9 ⟨b!"A", [], [b!"I"], [], 0⟩ [] none)
      (.cls, .methods, b!"A", []) (fun nm => if nm = kw then some 1 else none) kw
    (find b!"i" St.new).map (fun r => r.1.members.map fun f => f.member.name) = some [b!"i"] ∧
    ((find b!"z" St.new).bind fun r => (find b!"i" r.2).map fun r => r.1.members.map fun f => f.member.name) =
      some [b!"i"] ∧
    ((find b!"i" St.new).bind fun r => (find b!"a" r.2).map fun r => r.1.members.map fun f => f.member.name) =
      some [] := by decide +kernel

/-- The hypotheses of `C56_search_partial` hold of `demo`. -/
example : (search (getClassMethods demo 9 9 ⟨b!"A", b!"B", [b!"I"], [], 0⟩ [] none) (.cls, .methods, b!"A", [])
      (fun nm => if nm = b!"m" then some 3 else none) b!"m" St.new).map (fun r => r.1.members.map fun f =>
        (f.scope, f.member.name, f.score)) = some [(b!"A", b!"m", 3), (b!"B", b!"m", 3)] := by decide +kernel

end Verif.Query
