import Verif.Query.Complete

/-! C29 (lookup terminates), C30 (exactly the reachable members are found). -/

namespace Verif.Query

/-! ### C29 -/

/-- C29, methods: for every hierarchy there is a number of rounds within which the methods of every class are collected,
whatever was asked before; more rounds give the same answer. -/
theorem C29_methods (w : World) : ∃ N, ∀ c ∈ w.classes, ∀ name searched st,
    (∀ id, searched = some id → id < st.next) →
    ∃ r, ∀ n ni, N ≤ n → N ≤ ni → getClassMethods w n ni c name searched st = some r := by
  refine ⟨max w.boundC w.boundI, fun c hc name searched st hs => ?_⟩
  obtain ⟨r, hr⟩ := getClassMethods_some w w.boundC w.boundI (Nat.le_refl _) (Nat.le_refl _) c hc name searched st hs
  exact ⟨r, fun n ni h1 h2 => getClassMethods_mono _ _ _ _ _ _ _ _ hr _ _ (by omega) (by omega)⟩

/-- C29, interfaces: the same for the methods, properties and constants of every interface. -/
theorem C29_interfaces (w : World) : ∃ N, ∀ i ∈ w.interfaces, ∀ k name searched st,
    ∃ r, ∀ n, N ≤ n → getInterface w k n i name searched st = some r := by
  refine ⟨w.boundI, fun i hi k name searched st => ?_⟩
  obtain ⟨r, hr⟩ := getInterface_some w k w.boundI (Nat.le_refl _) i hi name searched st
  exact ⟨r, fun n h => getInterface_mono _ _ _ _ _ _ _ _ hr _ h⟩

/-- The sets of searched names only contain names of interfaces. -/
def OnlyInterfaces (w : World) (st : St) : Prop := ∀ id, ∀ s ∈ st.sets id, ∃ i ∈ w.interfaces, i.name = s

theorem intfLoop_only (w : World) (k : Kind) (name : Bytes) (n : Nat) (queue : List Intf) (m : Inherited) (st : St)
    (r : Inherited × St) (h : intfLoop w k name n queue m st = some r) (hq : ∀ i ∈ queue, i ∈ w.interfaces)
    (hst : OnlyInterfaces w st) : OnlyInterfaces w r.2 := by
  induction n generalizing queue m st with
  | zero =>
    cases queue with
    | nil => simp only [intfLoop, Option.some.injEq] at h; subst h; exact hst
    | cons i q => simp [intfLoop] at h
  | succ n ih =>
    cases queue with
    | nil => simp only [intfLoop, Option.some.injEq] at h; subst h; exact hst
    | cons i q =>
      simp only [intfLoop] at h
      split at h
      · exact ih _ _ _ h (fun j hj => hq j (by simp [hj])) hst
      · refine ih _ _ _ h ?_ ?_
        · intro j hj
          rw [List.mem_append, List.mem_filter] at hj
          rcases hj with hj | ⟨hj, -⟩
          · exact hq j (by simp [hj])
          · exact ((mem_parents w i j).mp hj).2.2
        · intro id s hs
          rcases (st.mem_mark _ _ _ _).mp hs with hs | ⟨-, hs⟩
          · exact hst id s hs
          · simp only [List.mem_singleton] at hs
            exact ⟨i, hq i (by simp), hs.symm⟩

theorem mergeInterfaces_only (w : World) (k : Kind) (n : Nat) (name : Bytes) (is : List Intf)
    (his : ∀ i ∈ is, i ∈ w.interfaces) (m : Inherited) (st : St) (r : Inherited × St)
    (h : mergeInterfaces w k n name is m st = some r) (hst : OnlyInterfaces w st) : OnlyInterfaces w r.2 := by
  induction is generalizing m st with
  | nil => simp only [mergeInterfaces, Option.some.injEq] at h; subst h; exact hst
  | cons i is ih =>
    simp only [mergeInterfaces] at h
    cases hg : getInterface w k n i name (some m.searched) st with
    | none => rw [hg] at h; simp at h
    | some r' =>
      obtain ⟨r', st'⟩ := r'
      rw [hg] at h
      refine ih (fun j hj => his j (by simp [hj])) _ _ h ?_
      have h1 : OnlyInterfaces w st' := by
        unfold getInterface at hg
        simp only [St.searchedOr] at hg
        split at hg
        · simp only [Option.some.injEq, Prod.mk.injEq] at hg
          rw [← hg.2]; exact hst
        · obtain ⟨⟨m', st''⟩, h1, h2⟩ := Option.map_eq_some_iff.mp hg
          simp only [Prod.mk.injEq] at h2
          rw [← h2.2]
          exact intfLoop_only _ _ _ _ _ _ _ _ h1 (by simpa using his i (by simp)) hst
      intro id s hs
      simp only [merge] at hs
      rcases (st'.mem_mark _ _ _ _).mp hs with hs | ⟨-, hs⟩
      · exact h1 id s hs
      · exact h1 _ s hs

theorem plainLoop_diverges (w : World) (k : Kind) (name : Bytes) (ni : Nat) (P : Cls → Prop)
    (hP : ∀ d, P d → d.ext ≠ [] ∧ (∀ i ∈ w.interfaces, i.name ≠ d.ext) ∧
      ∃ e ∈ w.classes, w.key e.name = w.key d.ext ∧ P e)
    (n : Nat) (queue : List Cls) (hq : ∃ d ∈ queue, P d) (m mi : Inherited) (st : St) (hst : OnlyInterfaces w st) :
    plainLoop w k name ni n queue m mi st = none := by
  induction n generalizing queue m mi st with
  | zero =>
    cases queue with
    | nil => simp at hq
    | cons c q => rfl
  | succ n ih =>
    cases queue with
    | nil => simp at hq
    | cons c q =>
      simp only [plainLoop]
      cases hg : mergeInterfaces w k ni name (w.implemented c) mi st with
      | none => rfl
      | some r =>
        obtain ⟨mi', st'⟩ := r
        refine ih _ ?_ _ _ _ (mergeInterfaces_only _ _ _ _ _ (fun i hi => ((mem_implemented w c i).mp hi).2.2) _ _ _
          hg hst)
        obtain ⟨d, hd, hPd⟩ := hq
        rw [List.mem_cons] at hd
        rcases hd with rfl | hd
        · obtain ⟨h1, h2, e, he, hke, hPe⟩ := hP d hPd
          rw [if_pos]
          · exact ⟨e, List.mem_append_right _ ((mem_classesNamed _ _ _).mpr ⟨he, hke⟩), hPe⟩
          · refine ⟨h1, fun hin => ?_⟩
            obtain ⟨i, hi, he⟩ := hst _ _ hin
            exact h2 i hi he
        · refine ⟨d, ?_, hPd⟩
          split
          · exact List.mem_append_left _ hd
          · exact hd

/-- C29 is false of properties and constants: for every set of classes each of which extends a class of the set (and not
something that is also the name of an interface), the lookup of the properties or constants of a class of the set
never ends. -/
theorem C29_false_cycle (w : World) (P : Cls → Prop)
    (hP : ∀ d, P d → d.ext ≠ [] ∧ (∀ i ∈ w.interfaces, i.name ≠ d.ext) ∧
      ∃ e ∈ w.classes, w.key e.name = w.key d.ext ∧ P e)
    (c : Cls) (hc : P c) (k : Kind) (name : Bytes) (n ni : Nat) :
    getClassPlain w k n ni c name none St.new = none := by
  unfold getClassPlain
  simp only [St.searchedOr]
  rw [plainLoop_diverges w k name ni P hP n [c] ⟨c, by simp, hc⟩]
  · rfl
  · intro id s hs
    have : St.new.newSet.2.sets id = [] := by
      show (if id = 0 then [] else []) = ([] : List Bytes)
      split <;> rfl
    rw [this] at hs
    simp at hs

/-- `class A extends B {}` and `class B extends A {}`. -/
def cyclic : World :=
  { classes := [⟨b!"A", b!"B", [], [], 0⟩, ⟨b!"B", b!"A", [], [], 0⟩]
    interfaces := [], traits := [], key := asciiLower, members := fun _ _ _ => [] }

/-- Two classes that extend each other: the properties of `A` are never found, its methods are. -/
theorem C29_false_example : (∀ n ni k name, getClassPlain cyclic k n ni ⟨b!"A", b!"B", [], [], 0⟩ name none St.new = none) ∧
    (getClassMethods cyclic 3 0 ⟨b!"A", b!"B", [], [], 0⟩ [] none St.new).isSome := by
  refine ⟨fun n ni k name => ?_, by decide +kernel⟩
  refine C29_false_cycle cyclic (· ∈ cyclic.classes) ?_ _ (by simp [cyclic]) k name n ni
  intro d hd
  simp only [cyclic, List.mem_cons, List.not_mem_nil, or_false] at hd
  rcases hd with rfl | rfl
  · exact ⟨by decide, by simp [cyclic], ⟨b!"B", b!"A", [], [], 0⟩, by simp [cyclic], rfl, by simp [cyclic]⟩
  · exact ⟨by decide, by simp [cyclic], ⟨b!"A", b!"B", [], [], 0⟩, by simp [cyclic], rfl, by simp [cyclic]⟩

/-- Rounds for a class of rank `r` if no name has more than `M` classes. -/
def cost (M : Nat) : Nat → Nat
  | 0 => 1
  | r + 1 => 1 + M * cost M r

theorem cost_pos (M r : Nat) : 1 ≤ cost M r := by cases r <;> simp [cost]

theorem cost_mono (M : Nat) {r s : Nat} (h : r ≤ s) (hM : 1 ≤ M) : cost M r ≤ cost M s := by
  induction h with
  | refl => exact Nat.le_refl _
  | step _ ih =>
    refine Nat.le_trans ih ?_
    rename_i s _
    simp only [cost]
    have := Nat.mul_le_mul_right (cost M s) hM
    omega

theorem sum_le {α : Type} (l : List α) (f : α → Nat) (b : Nat) (h : ∀ x ∈ l, f x ≤ b) :
    (l.map f).sum ≤ l.length * b := by
  induction l with
  | nil => simp
  | cons a l ih =>
    have h1 := h a (by simp)
    have h2 := ih fun x hx => h x (by simp [hx])
    simp only [List.map_cons, List.sum_cons, List.length_cons, Nat.add_mul, Nat.one_mul]
    omega

theorem plainLoop_some (w : World) (k : Kind) (name : Bytes) (ni : Nat) (hni : w.boundI ≤ ni) (rank : Cls → Nat)
    (hr : ∀ d ∈ w.classes, ∀ e, ParentOf w d e → rank e < rank d) (n : Nat) (queue : List Cls)
    (hq : ∀ c ∈ queue, c ∈ w.classes) (m mi : Inherited) (st : St)
    (hn : (queue.map fun c => cost w.classes.length (rank c)).sum ≤ n) :
    ∃ r, plainLoop w k name ni n queue m mi st = some r := by
  induction n generalizing queue m mi st with
  | zero =>
    cases queue with
    | nil => exact ⟨_, rfl⟩
    | cons c q =>
      have := cost_pos w.classes.length (rank c)
      simp only [List.map_cons, List.sum_cons] at hn
      omega
  | succ n ih =>
    cases queue with
    | nil => exact ⟨_, rfl⟩
    | cons c q =>
      simp only [plainLoop]
      obtain ⟨⟨mi', st'⟩, hg⟩ := mergeInterfaces_some w k ni hni name (w.implemented c)
        (fun i hi => ((mem_implemented w c i).mp hi).2.2) mi st
      rw [hg]
      have hc := hq c (by simp)
      simp only [List.map_cons, List.sum_cons] at hn
      have hpos := cost_pos w.classes.length (rank c)
      apply ih
      · intro x hx
        split at hx
        · rw [List.mem_append, mem_classesNamed] at hx
          rcases hx with hx | hx
          · exact hq x (by simp [hx])
          · exact hx.1
        · exact hq x (by simp [hx])
      · split
        · rename_i hf
          rw [List.map_append, List.sum_append]
          have hle : ((w.classesNamed c.ext).map fun c => cost w.classes.length (rank c)).sum + 1 ≤
              cost w.classes.length (rank c) := by
            cases hrk : rank c with
            | zero =>
              have : w.classesNamed c.ext = [] := by
                apply List.eq_nil_iff_forall_not_mem.mpr
                intro e he
                have := hr c hc e ((parentOf_iff w c e).mpr ⟨hf.1, he⟩)
                omega
              simp [this, cost]
            | succ r =>
              have h1 := sum_le (w.classesNamed c.ext) (fun c => cost w.classes.length (rank c))
                (cost w.classes.length r) (fun e he => by
                  have := hr c hc e ((parentOf_iff w c e).mpr ⟨hf.1, he⟩)
                  exact cost_mono _ (by omega) (List.length_pos_of_mem hc))
              have h2 : (w.classesNamed c.ext).length ≤ w.classes.length := List.length_filter_le _ _
              have h3 := Nat.mul_le_mul_right (cost w.classes.length r) h2
              simp only [cost]
              omega
          omega
        · omega

theorem plainLoop_mono (w : World) (k : Kind) (name : Bytes) (ni n : Nat) (queue : List Cls) (m mi : Inherited) (st : St)
    (r : Inherited × Inherited × St) (h : plainLoop w k name ni n queue m mi st = some r) (n' ni' : Nat)
    (hn : n ≤ n') (hni : ni ≤ ni') : plainLoop w k name ni' n' queue m mi st = some r := by
  induction n generalizing queue m mi st n' with
  | zero =>
    cases queue with
    | nil => cases n' <;> exact h
    | cons c q => simp [plainLoop] at h
  | succ n ih =>
    cases queue with
    | nil => cases n' <;> exact h
    | cons c q =>
      obtain ⟨n', rfl⟩ : ∃ x, n' = x + 1 := ⟨n' - 1, by omega⟩
      simp only [plainLoop] at h ⊢
      cases hm : mergeInterfaces w k ni name (w.implemented c) mi st with
      | none => rw [hm] at h; simp at h
      | some r' =>
        rw [hm] at h
        rw [mergeInterfaces_mono _ _ _ _ _ _ _ _ hm ni' hni]
        exact ih _ _ _ _ h _ (by omega)

/-- C29 for properties and constants holds of every hierarchy in which no class extends itself, directly or not: there
is a rank that is smaller for the class that is extended. Missing: the cyclic hierarchies, of which it is false. -/
theorem C29_plain_partial (w : World) (rank : Cls → Nat)
    (hr : ∀ d ∈ w.classes, ∀ e, ParentOf w d e → rank e < rank d) :
    ∃ N, ∀ c ∈ w.classes, ∀ k name searched st,
      ∃ r, ∀ n ni, N ≤ n → N ≤ ni → getClassPlain w k n ni c name searched st = some r := by
  refine ⟨(w.classes.map fun c => cost w.classes.length (rank c)).sum + w.boundI, fun c hc k name o st => ?_⟩
  unfold getClassPlain
  simp only
  split
  · exact ⟨_, fun _ _ _ _ => rfl⟩
  · have hle : cost w.classes.length (rank c) ≤ (w.classes.map fun c => cost w.classes.length (rank c)).sum :=
      le_sum (fun c => cost w.classes.length (rank c)) w.classes c hc
    obtain ⟨⟨m, mi, st'⟩, hl⟩ := plainLoop_some w k name w.boundI (Nat.le_refl _) rank hr
      (cost w.classes.length (rank c)) [c] (by simpa using hc)
      { members := [], rel := [], searched := (st.searchedOr o).1 }
      { members := [], rel := [], searched := (st.searchedOr o).1 } (st.searchedOr o).2 (by simp)
    refine ⟨((merge m mi st').1, { (merge m mi st').2 with
      cache := (merge m mi st').2.cache.set (.cls, k, c.name, name) (merge m mi st').1 }), fun n ni hn hni => ?_⟩
    rw [plainLoop_mono _ _ _ _ _ _ _ _ _ _ hl n ni (by omega) (by omega)]

/-- `class A extends B implements I`, `class B extends C`, `class C { use T; }`, `interface I extends J`; the methods
are `A::m`, `B::m`, `B::p`, `T::t`, `I::i`, `J::j`, the properties `C::x`, `T::y`. -/
def demo : World :=
  { classes := [⟨b!"A", b!"B", [b!"I"], [], 0⟩, ⟨b!"B", b!"C", [], [], 0⟩, ⟨b!"C", [], [], [b!"T"], 0⟩]
    interfaces := [⟨b!"I", [b!"J"], 0⟩, ⟨b!"J", [], 0⟩], traits := [⟨b!"T", [], 0⟩], key := asciiLower
    members := fun k scope _ =>
      let mem (n : Bytes) (v : Visibility) : Member := ⟨n, scope, v, false, 0⟩
      match k with
      | .methods =>
        if scope = b!"A" then [mem b!"m" .pub]
        else if scope = b!"B" then [mem b!"m" .pub, mem b!"p" .private_]
        else if scope = b!"T" then [mem b!"t" .protected_]
        else if scope = b!"I" then [mem b!"i" .pub]
        else if scope = b!"J" then [mem b!"j" .pub]
        else []
      | .props => if scope = b!"C" then [mem b!"$x" .pub] else if scope = b!"T" then [mem b!"$y" .pub] else []
      | .consts => [] }

theorem demo_distinct : Distinct demo := ⟨by decide +kernel, by decide +kernel⟩

theorem demo_apart : Apart demo := by
  have h : ∀ c ∈ demo.classes, ∀ i ∈ demo.interfaces, asciiLower c.name ≠ asciiLower i.name := by decide +kernel
  exact h

/-- The condition of `C29_plain_partial` holds of `demo`. -/
example : ∀ d ∈ demo.classes, ∀ e, ParentOf demo d e →
    (fun c : Cls => if c.name = b!"A" then 2 else if c.name = b!"B" then 1 else 0) e <
    (fun c : Cls => if c.name = b!"A" then 2 else if c.name = b!"B" then 1 else 0) d := by
  have h : ∀ d ∈ demo.classes, ∀ e ∈ demo.classes, d.ext ≠ [] ∧ asciiLower e.name = asciiLower d.ext →
    (fun c : Cls => if c.name = b!"A" then 2 else if c.name = b!"B" then 1 else 0) e <
    (fun c : Cls => if c.name = b!"A" then 2 else if c.name = b!"B" then 1 else 0) d := by decide +kernel
  exact fun d hd e he => h d hd e he.2.1 ⟨he.1, he.2.2⟩

/-! ### C30 -/

/-- C30, nothing else is found: whatever was asked before, every method, property or constant that is found for a class
is declared in a class, trait or interface that can be reached from the class. -/
theorem C30_sound (w : World) (hw : Distinct w) (st : St) (hst : Reachable w st) (c : Cls) (hc : c ∈ w.classes)
    (name : Bytes) (searched : Option Nat) (n ni : Nat) (r : Inherited × St) :
    (getClassMethods w n ni c name searched st = some r →
      ∀ f ∈ r.1.members, Provides w c f.scope ∧ f ∈ w.found .methods f.scope name) ∧
    (∀ k, getClassPlain w k n ni c name searched st = some r →
      ∀ f ∈ r.1.members, Provides w c f.scope ∧ f ∈ w.found k f.scope name) := by
  have key : ∀ k f, FromCls w k name c f → Provides w c f.scope ∧ f ∈ w.found k f.scope name := by
    rintro k f ⟨s, hs, hf⟩
    have : f.scope = s := by
      simp only [World.found, List.mem_map] at hf
      obtain ⟨m, -, rfl⟩ := hf
      rfl
    rw [this]
    exact ⟨hs, hf⟩
  exact ⟨fun h f hf => key _ f ((getClassMethods_ok w hw n ni c hc name searched st (hst.cacheOk hw) r h).2 f hf),
    fun k h f hf => key _ f ((getClassPlain_ok w hw k n ni c hc name searched st (hst.cacheOk hw) r h).2 f hf)⟩

/-- The same for interfaces. -/
theorem C30_sound_interfaces (w : World) (hw : Distinct w) (st : St) (hst : Reachable w st) (i : Intf)
    (hi : i ∈ w.interfaces) (k : Kind) (name : Bytes) (searched : Option Nat) (n : Nat) (r : Inherited × St)
    (h : getInterface w k n i name searched st = some r) :
    ∀ f ∈ r.1.members, IntfProvides w i f.scope ∧ f ∈ w.found k f.scope name := by
  intro f hf
  obtain ⟨s, hs, hf⟩ := (getInterface_ok w hw k n i hi name searched st (hst.cacheOk hw) r h).2 f hf
  have : f.scope = s := by
    simp only [World.found, List.mem_map] at hf
    obtain ⟨m, -, rfl⟩ := hf
    rfl
  rw [this]
  exact ⟨hs, hf⟩

theorem lineage_ancestor {w : World} (hw : Distinct w) {c : Cls} {l : List Cls} (h : Lineage w c l) (d : Cls) :
    d ∈ l ↔ Ancestor w c d := by
  constructor
  · intro hd
    obtain ⟨a, b, rfl⟩ := List.append_of_mem hd
    clear hd
    have h1 := h.head
    have h2 := h.chain
    clear h
    induction a using List.reverseRecOn generalizing d b with
    | nil =>
      simp only [List.nil_append, List.head?_cons, Option.some.injEq] at h1
      subst h1
      exact .self
    | append_singleton a x ih =>
      have hx : Ancestor w c x := by
        apply ih x (d :: b)
        · simpa using h1
        · simpa using h2
      have hp : ParentOf w x d := by
        rw [List.append_assoc, List.singleton_append] at h2
        exact (List.isChain_cons_cons.mp (List.isChain_append.mp h2).2.1).1
      exact .parent hx hp.1 hp.2.1 hp.2.2
  · intro hd
    induction hd with
    | self =>
      have := h.head
      cases l with
      | nil => simp at this
      | cons a l => simp at this; simp [this]
    | parent hd h1 h2 h3 ih =>
      rename_i d e
      have hp : ParentOf w d e := ⟨h1, h2, h3⟩
      obtain ⟨a, b, hab⟩ := List.append_of_mem ih
      cases b with
      | nil => exact h.last d (by rw [hab]; simp) e hp
      | cons x b =>
        have hch := h.chain
        rw [hab] at hch
        have := (List.isChain_cons_cons.mp (List.isChain_append.mp hch).2.1).1
        rw [hp.unique hw this, hab]
        simp

/-- C30 and C32, the order: a new query returns the methods of the classes of the lineage, nearest first, each class
once, the class's own methods before those of its traits, and then the methods of the interfaces. -/
theorem C30_order (w : World) (hw : Distinct w) (ha : Apart w) (c : Cls) (hc : c ∈ w.classes) (name : Bytes) (n ni : Nat)
    (r : Inherited × St) (h : getClassMethods w n ni c name none St.new = some r) :
    ∃ l I, Lineage w c l ∧
      r.1.members = (l.flatMap fun d => w.found .methods d.name name ++
        (w.used d).flatMap fun t => w.found .methods t.name name) ++ I ∧
      ∀ f, f ∈ I ↔ ∃ d ∈ l, ∃ i ∈ w.interfaces, i.name ∈ d.impls ∧ i.name ≠ [] ∧ IntfProvides w i f.scope ∧
        f ∈ w.found .methods f.scope name := by
  unfold getClassMethods at h
  simp only [St.searchedOr] at h
  rw [show St.new.newSet.2.cache.get (Of.cls, Kind.methods, c.name, name) = none from rfl] at h
  simp only at h
  split at h
  · simp at h
  · rename_i m mi st' hl
    simp only [Option.some.injEq] at h
    have hok : CacheOk w St.new.newSet.2 := (Reachable.new.cacheOk hw).of_eq rfl
    obtain ⟨l, h1, h2, h3, h4, h5, h6, h7⟩ := methodLoop_lineage w hw ha name ni n c _ _ _ _ hl hc rfl hok []
      (Inv.new w .methods name) (by simp) (by simp) (by simp) (by simp) (by simp)
    have hlin : Lineage w c l := ⟨by simpa using h1, h2, h3, h4⟩
    have hs : ∀ f ∈ mi.members, ∃ d ∈ l, ∃ i ∈ w.implemented d, FromIntf w .methods name i f := by
      exact methodLoop_intf w hw name ni n [c] _ _ _ _ hl hok (fun d => d ∈ l)
        (by simpa using (lineage_ancestor hw hlin c).mpr .self)
        (fun d hd e he => (lineage_ancestor hw hlin e).mpr
          (.parent ((lineage_ancestor hw hlin d).mp hd) he.1 he.2.1 he.2.2)) (by simp)
    refine ⟨l, mi.members, hlin, ?_, ?_⟩
    · rw [← h]
      simp only [merge]
      rw [h5]
      rfl
    · intro f
      constructor
      · intro hf
        obtain ⟨d, hd, i, hi, s, hs, hf⟩ := hs f hf
        have := (mem_implemented w d i).mp hi
        have he : f.scope = s := by
          simp only [World.found, List.mem_map] at hf
          obtain ⟨m, -, rfl⟩ := hf
          rfl
        exact ⟨d, hd, i, this.2.2, this.1, this.2.1, by rw [he]; exact hs, by rw [he]; exact hf⟩
      · rintro ⟨d, hd, i, hi, h8, h9, h10, h11⟩
        exact inv_complete h6 i hi (h7 d hd i ((mem_implemented w d i).mpr ⟨h8, h9, hi⟩)) f ⟨_, h10, h11⟩

theorem fromIntf_scope {w : World} {k : Kind} {name : Bytes} {i : Intf} {f : Found} :
    FromIntf w k name i f ↔ IntfProvides w i f.scope ∧ f ∈ w.found k f.scope name := by
  constructor
  · rintro ⟨s, hs, hf⟩
    have he : f.scope = s := by
      simp only [World.found, List.mem_map] at hf
      obtain ⟨m, -, rfl⟩ := hf
      rfl
    rw [he]
    exact ⟨hs, hf⟩
  · rintro ⟨h1, h2⟩
    exact ⟨_, h1, h2⟩

/-- C30: a new query finds exactly the methods of the classes, traits and interfaces that can be reached from the class.
Missing: classes or interfaces with the same name, traits that use traits, and queries that were used before, of all of
which it is false. -/
theorem C30_exact_partial (w : World) (hw : Distinct w) (ha : Apart w) (ht : ∀ t ∈ w.traits, t.uses = []) (c : Cls)
    (hc : c ∈ w.classes) (name : Bytes) (n ni : Nat) (r : Inherited × St)
    (h : getClassMethods w n ni c name none St.new = some r) (f : Found) :
    f ∈ r.1.members ↔ Provides w c f.scope ∧ f ∈ w.found .methods f.scope name := by
  constructor
  · exact (C30_sound w hw St.new .new c hc name none n ni r).1 h f
  · rintro ⟨⟨d, hd, hs⟩, hf⟩
    obtain ⟨l, I, hl, hm, hI⟩ := C30_order w hw ha c hc name n ni r h
    have hdl := (lineage_ancestor hw hl d).mpr hd
    rw [hm, List.mem_append, List.mem_flatMap]
    rcases hs with hs | ⟨t, ht1, ht2, ht3, u, hu, hs⟩ | ⟨i, hi1, hi2, hi3, j, hj, hs⟩
    · exact .inl ⟨d, hdl, by rw [hs] at hf; exact List.mem_append_left _ hf⟩
    · have htu : ∀ u, TraitAncestor w t u → u = t := by
        intro u hu
        induction hu with
        | self => rfl
        | parent _ h1 h2 h3 ih =>
          rw [ih, ht t ht1] at h1
          simp at h1
      rw [htu u hu] at hs
      refine .inl ⟨d, hdl, List.mem_append_right _ (List.mem_flatMap.mpr ⟨t, (mem_used w d t).mpr ⟨ht2, ht3, ht1⟩, ?_⟩)⟩
      rw [← hs]
      exact hf
    · exact .inr ((hI f).mpr ⟨d, hdl, i, hi1, hi2, hi3, ⟨j, hj, hs⟩, hf⟩)

/-- C30 for properties and constants: if the lookup of a new query ends, it returns those of the classes of the lineage,
nearest first, each class once, and then those of the interfaces. -/
theorem C30_plain_order (w : World) (hw : Distinct w) (ha : Apart w) (k : Kind) (c : Cls) (name : Bytes)
    (n ni : Nat) (r : Inherited × St) (h : getClassPlain w k n ni c name none St.new = some r) :
    ∃ l I, Lineage w c l ∧ r.1.members = (l.flatMap fun d => w.found k d.name name) ++ I ∧
      ∀ f, f ∈ I ↔ ∃ d ∈ l, ∃ i ∈ w.interfaces, i.name ∈ d.impls ∧ i.name ≠ [] ∧ IntfProvides w i f.scope ∧
        f ∈ w.found k f.scope name := by
  unfold getClassPlain at h
  simp only [St.searchedOr] at h
  rw [show St.new.newSet.2.cache.get (Of.cls, k, c.name, name) = none from rfl] at h
  simp only at h
  split at h
  · simp at h
  · rename_i m mi st' hl
    simp only [Option.some.injEq] at h
    have hok : CacheOk w St.new.newSet.2 := (Reachable.new.cacheOk hw).of_eq rfl
    obtain ⟨l, h1, h2, h3, h4, h5, h6⟩ := plainLoop_lineage w hw ha k name ni n c _ _ _ _ hl rfl (Inv.new w k name)
    have hlin : Lineage w c (c :: l) :=
      ⟨rfl, h1, chain_nodup hw _ h1 h2, fun d hd e he => absurd he (h2 d hd e)⟩
    have hs := plainLoop_intf w hw k name ni n [c] _ _ _ _ hl hok (fun d => d ∈ c :: l) (by simp)
        (fun d hd e he => (lineage_ancestor hw hlin e).mpr
          (.parent ((lineage_ancestor hw hlin d).mp hd) he.1 he.2.1 he.2.2)) (by simp)
    refine ⟨c :: l, mi.members, hlin, ?_, ?_⟩
    · rw [← h]
      simp only [merge]
      rw [h3]
      simp
    · intro f
      constructor
      · intro hf
        obtain ⟨d, hd, i, hi, hf⟩ := hs f hf
        have := (mem_implemented w d i).mp hi
        exact ⟨d, hd, i, this.2.2, this.1, this.2.1, fromIntf_scope.mp hf⟩
      · rintro ⟨d, hd, i, hi, h8, h9, h10⟩
        exact inv_complete h4 i hi (h6 d hd i ((mem_implemented w d i).mpr ⟨h8, h9, hi⟩)) f (fromIntf_scope.mpr h10)

/-- The hypotheses hold of `demo`, whose lookup finds six methods and one property. -/
example : Distinct demo ∧ Apart demo ∧ (∀ t ∈ demo.traits, t.uses = []) ∧
    ((getClassMethods demo 9 9 ⟨b!"A", b!"B", [b!"I"], [], 0⟩ [] none St.new).map fun r =>
      r.1.members.map fun f => (f.scope, f.member.name)) = some
      [(b!"A", b!"m"), (b!"B", b!"m"), (b!"B", b!"p"), (b!"T", b!"t"), (b!"I", b!"i"), (b!"J", b!"j")] ∧
    ((getClassPlain demo .props 9 9 ⟨b!"A", b!"B", [b!"I"], [], 0⟩ [] none St.new).map fun r =>
      r.1.members.map fun f => (f.scope, f.member.name)) = some [(b!"C", b!"$x")] :=
  ⟨demo_distinct, demo_apart, by decide +kernel, by decide +kernel, by decide +kernel⟩

/-- C30 is false: the properties of the traits of a class are never collected (`$y` of `T`, which `C` uses). -/
theorem C30_false_trait_props : Provides demo ⟨b!"C", [], [], [b!"T"], 0⟩ b!"T" ∧
    ⟨⟨b!"$y", b!"T", .pub, false, 0⟩, b!"T", 0⟩ ∈ demo.found .props b!"T" [] ∧
    (getClassPlain demo .props 9 9 ⟨b!"C", [], [], [b!"T"], 0⟩ [] none St.new).map (fun r =>
      r.1.members.map fun f => (f.scope, f.member.name)) = some [(b!"C", b!"$x")] := by
  refine ⟨⟨_, .self, .inr (.inl ⟨⟨b!"T", [], 0⟩, by simp [demo], by simp, by decide, ⟨b!"T", [], 0⟩, .self, rfl⟩)⟩,
    by decide +kernel, by decide +kernel⟩

/-- `class A implements I`, `class B extends A implements I` with methods `a`, `b` and `i`. -/
def twice : World :=
  { classes := [⟨b!"A", [], [b!"I"], [], 0⟩, ⟨b!"B", b!"A", [b!"I"], [], 0⟩]
    interfaces := [⟨b!"I", [], 0⟩], traits := [], key := asciiLower
    members := fun k scope _ => if k = .methods then [⟨asciiLower scope, scope, .pub, false, 0⟩] else [] }

/-- C30 is false of the second question to a query: after the methods of `A`, the methods of `B` come without the
inherited `a`, because the cached result of `I` brings along the names that were searched for `A`. -/
theorem C30_false_second_call : Distinct twice ∧ Apart twice ∧
    ((getClassMethods twice 9 9 ⟨b!"A", [], [b!"I"], [], 0⟩ [] none St.new).bind fun r =>
      (getClassMethods twice 9 9 ⟨b!"B", b!"A", [b!"I"], [], 0⟩ [] none r.2).map fun r =>
        r.1.members.map fun f => f.member.name) = some [b!"b", b!"i"] ∧
    (getClassMethods twice 9 9 ⟨b!"B", b!"A", [b!"I"], [], 0⟩ [] none St.new).map (fun r =>
        r.1.members.map fun f => f.member.name) = some [b!"b", b!"a", b!"i", b!"i"] := by
  refine ⟨⟨by decide +kernel, by decide +kernel⟩, ?_, by decide +kernel, by decide +kernel⟩
  have h : ∀ c ∈ twice.classes, ∀ i ∈ twice.interfaces, asciiLower c.name ≠ asciiLower i.name := by decide +kernel
  exact h

/-- `class C { use T; }`, `trait T { use U; }`. -/
def nested : World :=
  { classes := [⟨b!"C", [], [], [b!"T"], 0⟩], interfaces := [], traits := [⟨b!"T", [b!"U"], 0⟩, ⟨b!"U", [], 0⟩]
    key := asciiLower
    members := fun k scope _ => if k = .methods then [⟨asciiLower scope, scope, .pub, false, 0⟩] else [] }

/-- C30 is false of traits that use traits: the method of `U` is not found. -/
theorem C30_false_nested_trait : Provides nested ⟨b!"C", [], [], [b!"T"], 0⟩ b!"U" ∧
    (getClassMethods nested 9 9 ⟨b!"C", [], [], [b!"T"], 0⟩ [] none St.new).map (fun r =>
      r.1.members.map fun f => f.member.name) = some [b!"c", b!"t"] := by
  refine ⟨⟨_, .self, .inr (.inl ⟨⟨b!"T", [b!"U"], 0⟩, by simp [nested], by simp, by decide, ⟨b!"U", [], 0⟩,
    .parent .self ?_ ?_ ?_, rfl⟩)⟩, by decide +kernel⟩
  · simp
  · decide
  · simp [nested]

/-- `class C extends A`, `class C extends B` in two files. -/
def redeclared : World :=
  { classes := [⟨b!"A", [], [], [], 0⟩, ⟨b!"B", [], [], [], 0⟩, ⟨b!"C", b!"A", [], [], 0⟩, ⟨b!"C", b!"B", [], [], 0⟩,
      ⟨b!"D", b!"C", [], [], 0⟩]
    interfaces := [], traits := [], key := asciiLower
    members := fun k scope _ => if k = .methods then [⟨asciiLower scope, scope, .pub, false, 0⟩] else [] }

/-- C30 is false of a class that is declared twice with different parents: the second parent is not looked at. -/
theorem C30_false_redeclared : Provides redeclared ⟨b!"D", b!"C", [], [], 0⟩ b!"B" ∧
    (getClassMethods redeclared 9 9 ⟨b!"D", b!"C", [], [], 0⟩ [] none St.new).map (fun r =>
      r.1.members.map fun f => f.member.name) = some [b!"d", b!"c", b!"a"] := by
  refine ⟨⟨⟨b!"B", [], [], [], 0⟩, .parent (d := ⟨b!"C", b!"B", [], [], 0⟩) (.parent .self ?_ ?_ ?_) ?_ ?_ ?_, .inl rfl⟩,
    by decide +kernel⟩
  · decide
  · simp [redeclared]
  · rfl
  · decide
  · simp [redeclared]
  · rfl

end Verif.Query
