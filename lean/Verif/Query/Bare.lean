import Verif.Query.Lineage

/-! The search for methods collects what every class of a lineage without interfaces declares, whatever was asked before. -/

namespace Verif.Query

/-- Neither the class nor a class above it implements an interface. -/
def Bare (w : World) (c : Cls) : Prop := ∀ d, Ancestor w c d → w.implemented d = []

/-- The methods of the class itself and of its traits. -/
def ownMethods (w : World) (d : Cls) (name : Bytes) : List Found :=
  w.found .methods d.name name ++ (w.used d).flatMap fun t => w.found .methods t.name name

/-- The cached results for traits are right, and their sets are empty and not the set `id`. -/
structure TrtAt (w : World) (id : Nat) (st : St) : Prop where
  next : id < st.next
  trt : ∀ fqn nm r, st.cache.get (.trt, .methods, fqn, nm) = some r →
    r.searched ≠ id ∧ r.searched < st.next ∧ st.sets r.searched = [] ∧ r.members = w.found .methods fqn nm

/-- The same between lookups. -/
def TrtOk (w : World) (st : St) : Prop := ∀ fqn nm r, st.cache.get (.trt, .methods, fqn, nm) = some r →
  r.searched < st.next ∧ st.sets r.searched = [] ∧ r.members = w.found .methods fqn nm

theorem TrtAt.ok {w : World} {id : Nat} {st : St} (h : TrtAt w id st) : TrtOk w st := fun _ _ _ hr => (h.trt _ _ _ hr).2

theorem TrtOk.newSet {w : World} {st : St} (h : TrtOk w st) : TrtAt w st.next st.newSet.2 := by
  refine ⟨Nat.lt_succ_self _, fun fqn nm r hr => ?_⟩
  obtain ⟨h1, h2, h3⟩ := h fqn nm r hr
  refine ⟨Nat.ne_of_lt h1, Nat.lt_succ_of_lt h1, ?_, h3⟩
  simp only [St.newSet]
  rw [if_neg (Nat.ne_of_lt h1)]
  exact h2

theorem TrtAt.mark {w : World} {id : Nat} {st : St} (h : TrtAt w id st) (l : List Bytes) : TrtAt w id (st.mark id l) := by
  refine ⟨h.next, fun fqn nm r hr => ?_⟩
  obtain ⟨h1, h2, h3, h4⟩ := h.trt fqn nm r hr
  exact ⟨h1, h2, by simp only [St.mark]; rw [if_neg h1]; exact h3, h4⟩

theorem TrtAt.set {w : World} {id : Nat} {st : St} (h : TrtAt w id st) (o : Of) (ho : o ≠ .trt) (k : Kind) (fqn nm : Bytes)
    (m : Inherited) : TrtAt w id { st with cache := st.cache.set (o, k, fqn, nm) m } := by
  refine ⟨h.next, fun fqn' nm' r hr => ?_⟩
  simp only [GoMap.get_set] at hr
  rw [if_neg (by simp [ho.symm])] at hr
  exact h.trt _ _ _ hr

theorem getTrait_at {w : World} {id : Nat} {st : St} (h : TrtAt w id st) (t : Trt) (name : Bytes) :
    TrtAt w id (getTrait w t name st).2 ∧ (getTrait w t name st).1.members = w.found .methods t.name name ∧
    (getTrait w t name st).2.sets (getTrait w t name st).1.searched = [] ∧
    (getTrait w t name st).2.sets id = st.sets id := by
  unfold getTrait
  split
  · rename_i m hm
    obtain ⟨-, -, h3, h4⟩ := h.trt _ _ _ hm
    exact ⟨h, h4, h3, rfl⟩
  · refine ⟨⟨Nat.lt_succ_of_lt h.next, fun fqn nm r hr => ?_⟩, rfl, by simp [St.newSet], ?_⟩
    · simp only [GoMap.get_set] at hr
      split at hr
      · rename_i e
        simp only [Prod.mk.injEq, true_and] at e
        obtain ⟨rfl, rfl⟩ := e
        cases hr
        exact ⟨Nat.ne_of_gt h.next, Nat.lt_succ_self _, by simp [St.newSet], rfl⟩
      · obtain ⟨h1, h2, h3, h4⟩ := h.trt _ _ _ hr
        refine ⟨h1, Nat.lt_succ_of_lt h2, ?_, h4⟩
        simp only [St.newSet]
        rw [if_neg (Nat.ne_of_lt h2)]
        exact h3
    · simp only [St.newSet]
      rw [if_neg (Nat.ne_of_lt h.next)]

theorem mergeTraits_at {w : World} (name : Bytes) (ts : List Trt) (m : Inherited) (st : St) (h : TrtAt w m.searched st) :
    TrtAt w m.searched (mergeTraits w name ts m st).2 ∧
    (mergeTraits w name ts m st).2.sets m.searched = st.sets m.searched ∧
    (∀ f ∈ m.members, f ∈ (mergeTraits w name ts m st).1.members) ∧
    ∀ t ∈ ts, ∀ f ∈ w.found .methods t.name name, f ∈ (mergeTraits w name ts m st).1.members := by
  unfold mergeTraits
  induction ts generalizing m st with
  | nil => exact ⟨h, rfl, fun f hf => hf, by simp⟩
  | cons t ts ih =>
    rw [List.foldl_cons]
    obtain ⟨h1, h2, h3, h4⟩ := getTrait_at h t name
    obtain ⟨k1, k2, k3, k4⟩ := ih (merge m (getTrait w t name st).1 (getTrait w t name st).2).1
      (merge m (getTrait w t name st).1 (getTrait w t name st).2).2 (h1.mark _)
    refine ⟨k1, k2.trans ?_, fun f hf => k3 f (List.mem_append_left _ hf), fun t' ht' f hf => ?_⟩
    · simp only [merge, St.mark, h3]
      simpa using h4
    · rcases List.mem_cons.mp ht' with rfl | ht'
      · exact k3 f (List.mem_append_right _ (by rw [h2]; exact hf))
      · exact k4 t' ht' f hf

theorem intfLoop_trt {w : World} {k : Kind} {name : Bytes} (n : Nat) (queue : List Intf) (m : Inherited) (st : St)
    (r : Inherited × St) (h : intfLoop w k name n queue m st = some r) (hst : TrtAt w m.searched st) :
    TrtAt w m.searched r.2 := by
  induction n generalizing queue m st with
  | zero =>
    cases queue with
    | nil => simp only [intfLoop, Option.some.injEq] at h; subst h; exact hst
    | cons i q => simp [intfLoop] at h
  | succ n ih =>
    cases queue with
    | nil => simp only [intfLoop, Option.some.injEq] at h; subst h; exact hst
    | cons i q =>
      simp only [intfLoop] at h
      split at h
      · exact ih _ _ _ h hst
      · have key := ih _ _ _ h (hst.mark _)
        exact key

theorem getInterface_trt {w : World} {k : Kind} {n : Nat} {i : Intf} {name : Bytes} {id : Nat} {st : St} {r : Inherited × St}
    (hst : TrtAt w id st) (h : getInterface w k n i name (some id) st = some r) : TrtAt w id r.2 := by
  unfold getInterface at h
  simp only [St.searchedOr] at h
  split at h
  · simp only [Option.some.injEq] at h; subst h; exact hst
  · obtain ⟨⟨m, st'⟩, h1, rfl⟩ := Option.map_eq_some_iff.mp h
    have h2 := intfLoop_trt _ _ _ _ _ h1 hst
    exact h2.set .intf (by simp) _ _ _ _

theorem mergeInterfaces_trt {w : World} {k : Kind} {n : Nat} {name : Bytes} (is : List Intf) (m : Inherited) (st : St)
    (r : Inherited × St) (h : mergeInterfaces w k n name is m st = some r) (hst : TrtAt w m.searched st) :
    TrtAt w m.searched r.2 := by
  induction is generalizing m st with
  | nil => simp only [mergeInterfaces, Option.some.injEq] at h; subst h; exact hst
  | cons i is ih =>
    simp only [mergeInterfaces] at h
    cases hg : getInterface w k n i name (some m.searched) st with
    | none => rw [hg] at h; simp at h
    | some r' =>
      rw [hg] at h
      exact ih (merge m r'.1 r'.2).1 _ h ((getInterface_trt hst hg).mark _)

theorem plainLoop_trt {w : World} {k : Kind} {name : Bytes} {ni : Nat} (n : Nat) (queue : List Cls)
    (m mi : Inherited) (st : St) (r : Inherited × Inherited × St) (h : plainLoop w k name ni n queue m mi st = some r)
    (hid : mi.searched = m.searched) (hst : TrtAt w m.searched st) : TrtAt w m.searched r.2.2 := by
  induction n generalizing queue m mi st with
  | zero =>
    cases queue with
    | nil => simp only [plainLoop, Option.some.injEq] at h; subst h; exact hst
    | cons c q => simp [plainLoop] at h
  | succ n ih =>
    cases queue with
    | nil => simp only [plainLoop, Option.some.injEq] at h; subst h; exact hst
    | cons c q =>
      simp only [plainLoop] at h
      split at h
      · simp at h
      · rename_i mi' st' hg
        have h1 := mergeInterfaces_trt _ _ _ _ hg (by rw [hid]; exact hst)
        rw [hid] at h1
        have h2 := (frame_mergeInterfaces _ _ _ _ _ _ _ _ hg).2
        have key := ih _ _ _ _ h (by rw [h2]; exact hid) h1
        exact key

theorem methodLoop_trt {w : World} {name : Bytes} {ni : Nat} (n : Nat) (queue : List Cls)
    (m mi : Inherited) (st : St) (r : Inherited × Inherited × St) (h : methodLoop w name ni n queue m mi st = some r)
    (hid : mi.searched = m.searched) (hst : TrtAt w m.searched st) : TrtAt w m.searched r.2.2 := by
  induction n generalizing queue m mi st with
  | zero =>
    cases queue with
    | nil => simp only [methodLoop, Option.some.injEq] at h; subst h; exact hst
    | cons c q => simp [methodLoop] at h
  | succ n ih =>
    cases queue with
    | nil => simp only [methodLoop, Option.some.injEq] at h; subst h; exact hst
    | cons c q =>
      simp only [methodLoop] at h
      split at h
      · exact ih _ _ _ _ h hid hst
      · split at h
        · simp at h
        · rename_i mi' st' hg
          have h1 := (mergeTraits_at name (w.used c) { m with members := m.members ++ w.found .methods c.name name }
            (st.mark m.searched [c.name]) (hst.mark _)).1
          have h2 := (frame_mergeInterfaces _ _ _ _ _ _ _ _ hg).2
          have h3 := mergeTraits_searched w name (w.used c) { m with members := m.members ++ w.found .methods c.name name }
            (st.mark m.searched [c.name])
          have h4 := mergeInterfaces_trt _ _ _ _ hg (by rw [hid]; exact h1)
          rw [hid] at h4
          have h5 := ih _ _ _ _ h (by rw [h2, hid, h3]) (by rw [h3]; exact h4)
          rw [h3] at h5
          exact h5

theorem Ancestor.head {w : World} {c e d : Cls} (hp : ParentOf w c e) (h : Ancestor w e d) : Ancestor w c d := by
  induction h with
  | self => exact .parent .self hp.1 hp.2.1 hp.2.2
  | parent _ h1 h2 h3 ih => exact .parent ih h1 h2 h3

/-- What is marked is collected, and its parent is marked or waits in the queue. -/
def Through (w : World) (name : Bytes) (queue : List Cls) (members : List Found) (l : List Bytes) : Prop :=
  ∀ s ∈ l, ∃ d ∈ w.classes, d.name = s ∧ (∀ f ∈ ownMethods w d name, f ∈ members) ∧
    ∀ e, ParentOf w d e → e ∈ queue ∨ e.name ∈ l

theorem methodLoop_bare {w : World} (hw : Distinct w) {name : Bytes} {ni : Nat} (n : Nat) (queue : List Cls)
    (m mi : Inherited) (st : St) (r : Inherited × Inherited × St) (h : methodLoop w name ni n queue m mi st = some r)
    (hst : TrtAt w m.searched st) (hq : ∀ c ∈ queue, c ∈ w.classes ∧ Bare w c)
    (ht : Through w name queue m.members (st.sets m.searched)) :
    (∀ c ∈ queue, c.name ∈ r.2.2.sets m.searched) ∧ (∀ s ∈ st.sets m.searched, s ∈ r.2.2.sets m.searched) ∧
    Through w name [] r.1.members (r.2.2.sets m.searched) := by
  induction n generalizing queue m mi st with
  | zero =>
    cases queue with
    | nil => simp only [methodLoop, Option.some.injEq] at h; subst h; exact ⟨by simp, fun s hs => hs, ht⟩
    | cons c q => simp [methodLoop] at h
  | succ n ih =>
    cases queue with
    | nil => simp only [methodLoop, Option.some.injEq] at h; subst h; exact ⟨by simp, fun s hs => hs, ht⟩
    | cons c q =>
      simp only [methodLoop] at h
      split at h
      · rename_i hin
        obtain ⟨k1, k2, k3⟩ := ih _ _ _ _ h hst (fun c' hc' => hq c' (by simp [hc'])) (by
          intro s hs
          obtain ⟨d, h1, h2, h3, h4⟩ := ht s hs
          refine ⟨d, h1, h2, h3, fun e he => ?_⟩
          rcases h4 e he with h5 | h5
          · rcases List.mem_cons.mp h5 with rfl | h5
            · exact .inr hin
            · exact .inl h5
          · exact .inr h5)
        refine ⟨fun c' hc' => ?_, k2, k3⟩
        rcases List.mem_cons.mp hc' with rfl | hc'
        · exact k2 _ hin
        · exact k1 _ hc'
      · obtain ⟨hc, hb⟩ := hq c (by simp)
        have h1 := mergeTraits_at name (w.used c) { m with members := m.members ++ w.found .methods c.name name }
            (st.mark m.searched [c.name]) (hst.mark _)
        have h3 := mergeTraits_searched w name (w.used c) { m with members := m.members ++ w.found .methods c.name name }
            (st.mark m.searched [c.name])
        generalize mergeTraits w name (w.used c) { m with members := m.members ++ w.found .methods c.name name }
            (st.mark m.searched [c.name]) = x at h h1 h3
        obtain ⟨m2, st2⟩ := x
        simp only at h h1 h3
        obtain ⟨t1, t2, t3, t4⟩ := h1
        have hsets : ∀ s, s ∈ st2.sets m.searched ↔ s = c.name ∨ s ∈ st.sets m.searched := by
          intro s
          rw [t2]
          simp [St.mark]
        rw [hb c .self] at h
        simp only [mergeInterfaces] at h
        rw [h3] at h
        -- the class of a marked name
        have hcls : ∀ s ∈ st2.sets m.searched, ∃ d ∈ w.classes, d.name = s := by
          intro s hs
          rcases (hsets s).mp hs with rfl | hs
          · exact ⟨c, hc, rfl⟩
          · obtain ⟨d, hd, e, -⟩ := ht s hs
            exact ⟨d, hd, e⟩
        have hsub : ∀ e ∈ q, e ∈ (if c.ext ≠ [] ∧ c.ext ∉ st2.sets m.searched then q ++ w.classesNamed c.ext else q) := by
          intro e he
          split
          · exact List.mem_append_left _ he
          · exact he
        obtain ⟨k1, k2, k3⟩ := ih _ _ _ _ h (by rw [h3]; exact t1) (by
          intro c' hc'
          split at hc'
          · rename_i hf
            rcases List.mem_append.mp hc' with hc' | hc'
            · exact hq c' (by simp [hc'])
            · have hp := (parentOf_iff w c c').mpr ⟨hf.1, hc'⟩
              exact ⟨hp.2.1, fun d hd => hb d (hd.head hp)⟩
          · exact hq c' (by simp [hc'])) (by
          rw [h3]
          intro s hs
          rcases (hsets s).mp hs with rfl | hs
          · refine ⟨c, hc, rfl, fun f hf => ?_, fun e he => ?_⟩
            · rcases List.mem_append.mp hf with hf | hf
              · exact t3 f (List.mem_append_right _ hf)
              · obtain ⟨t, h5, h6⟩ := List.mem_flatMap.mp hf
                exact t4 t h5 f h6
            · by_cases hf : c.ext ∈ st2.sets m.searched
              · obtain ⟨d, hd, hn⟩ := hcls _ hf
                have : e = d := hw.cls he.2.1 hd (by rw [he.2.2, hn])
                subst this
                exact .inr (by rw [hn]; exact hf)
              · left
                rw [if_pos ⟨he.1, hf⟩]
                exact List.mem_append_right _ ((parentOf_iff w c e).mp he).2
          · obtain ⟨d, h5, h6, h7, h8⟩ := ht s hs
            refine ⟨d, h5, h6, fun f hf => t3 f (List.mem_append_left _ (h7 f hf)), fun e he => ?_⟩
            rcases h8 e he with h9 | h9
            · rcases List.mem_cons.mp h9 with rfl | h9
              · exact .inr ((hsets _).mpr (.inl rfl))
              · exact .inl (hsub e h9)
            · exact .inr ((hsets _).mpr (.inr h9)))
        rw [h3] at k1 k2 k3
        refine ⟨fun c' hc' => ?_, fun s hs => k2 s ((hsets s).mpr (.inr hs)), k3⟩
        rcases List.mem_cons.mp hc' with rfl | hc'
        · exact k2 _ ((hsets _).mpr (.inl rfl))
        · exact k1 c' (hsub c' hc')

/-- The cached results for classes without interfaces contain all that the class and the classes above it declare. -/
def BareAll (w : World) (st : St) : Prop := ∀ fqn nm r, st.cache.get (.cls, .methods, fqn, nm) = some r →
  ∀ c ∈ w.classes, c.name = fqn → Bare w c → ∀ d, Ancestor w c d → ∀ f ∈ ownMethods w d nm, f ∈ r.members

/-- What holds between lookups. -/
structure BareInv (w : World) (st : St) : Prop where
  trt : TrtOk w st
  all : BareAll w st

theorem BareAll.same {w : World} {a b : St} (h : BareAll w a) (hs : SameCls a b) : BareAll w b :=
  fun fqn nm r hr => h fqn nm r ((hs _ _ _).symm.trans hr)

theorem getClassMethods_bare {w : World} (hw : Distinct w) {n ni : Nat} {c : Cls} (hc : c ∈ w.classes)
    {name : Bytes} {st : St} {r : Inherited × St} (hst : BareInv w st) (h : getClassMethods w n ni c name none st = some r) :
    BareInv w r.2 ∧ (Bare w c → ∀ d, Ancestor w c d → ∀ f ∈ ownMethods w d name, f ∈ r.1.members) := by
  unfold getClassMethods at h
  simp only [St.searchedOr] at h
  split at h
  · rename_i m hm
    cases h
    exact ⟨⟨hst.trt.newSet.ok, hst.all.same (.of_eq rfl)⟩, fun hb d hd f hf => hst.all _ _ _ hm c hc rfl hb d hd f hf⟩
  · split at h
    · cases h
    · rename_i m mi st2 hl
      cases h
      have h1 := methodLoop_trt _ _ _ _ _ _ hl rfl hst.trt.newSet
      obtain ⟨-, h3, h4⟩ := frame_methodLoop _ _ _ _ _ _ _ _ _ hl rfl
      have hs := (sameCls_methodLoop _ _ _ _ _ _ _ _ _ hl).1
      have e3 : m.searched = st.next := h3
      have hall : Bare w c → ∀ d, Ancestor w c d → ∀ f ∈ ownMethods w d name, f ∈ (merge m mi st2).1.members := by
        intro hb
        obtain ⟨k1, -, k3⟩ := methodLoop_bare hw _ _ _ _ _ _ hl hst.trt.newSet (by simpa using ⟨hc, hb⟩)
          (by simp [Through, St.newSet])
        have hmark : ∀ d, Ancestor w c d → d.name ∈ st2.sets st.next ∧ d ∈ w.classes := by
          intro d hd
          induction hd with
          | self => exact ⟨k1 c (by simp), hc⟩
          | @parent d e _ p1 p2 p3 ih =>
            obtain ⟨x, hx, hn, -, hp⟩ := k3 _ ih.1
            have : x = d := hw.cls hx ih.2 (by rw [hn])
            subst this
            rcases hp e ⟨p1, p2, p3⟩ with h | h
            · cases h
            · exact ⟨h, p2⟩
        intro d hd f hf
        obtain ⟨hd1, hd2⟩ := hmark d hd
        obtain ⟨x, hx, hn, hown, -⟩ := k3 _ hd1
        have : x = d := hw.cls hx hd2 (by rw [hn])
        subst this
        exact List.mem_append_left _ (hown f hf)
      have hm : TrtAt w st.next (merge m mi st2).2 := by
        simp only [merge, e3]
        exact h1.mark _
      refine ⟨⟨(hm.set .cls (by simp) _ _ _ _).ok, fun fqn nm r hr => ?_⟩, hall⟩
      simp only [GoMap.get_set] at hr
      split at hr
      · rename_i e
        simp only [Prod.mk.injEq, true_and] at e
        obtain ⟨rfl, rfl⟩ := e
        cases hr
        intro c' hc' hn hb d hd f hf
        have : c' = c := hw.cls hc' hc (by rw [hn])
        subst this
        exact hall hb d hd f hf
      · exact (hst.all.same (((SameCls.of_eq rfl).trans hs).trans (.of_eq rfl))) fqn nm r hr

/-- Whatever was asked before. -/
theorem Resolving.bare_inv {w : World} (hw : Distinct w) {st : St} (h : Resolving w st) : BareInv w st := by
  induction h with
  | new => exact ⟨fun f n r hr => by simp [St.new, GoMap.get] at hr, fun f n r hr => by simp [St.new, GoMap.get] at hr⟩
  | @interface st k' n i name r _ hi hr ih =>
    change getInterface w k' n i name (some st.next) st.newSet.2 = some r at hr
    exact ⟨(getInterface_trt ih.trt.newSet hr).ok,
      (ih.all.same (b := st.newSet.2) (.of_eq rfl)).same (sameCls_getInterface _ _ _ _ _ _ _ _ hr)⟩
  | @methods st n ni c name r _ hc hr ih => exact (getClassMethods_bare hw hc ih hr).1
  | @plain st k' n ni c name r _ hk hc hr ih =>
    unfold getClassPlain at hr
    simp only [St.searchedOr] at hr
    split at hr
    · cases hr; exact ⟨ih.trt.newSet.ok, ih.all.same (.of_eq rfl)⟩
    · split at hr
      · cases hr
      · rename_i m mi st2 hl
        cases hr
        have h1 := plainLoop_trt _ _ _ _ _ _ hl rfl ih.trt.newSet
        obtain ⟨-, h3, -⟩ := frame_plainLoop _ _ _ _ _ _ _ _ _ _ hl rfl
        have e3 : m.searched = st.next := h3
        have hs := (sameCls_plainLoop _ _ _ _ _ _ _ _ _ _ hl).1
        have hm : TrtAt w st.next (merge m mi st2).2 := by
          simp only [merge, e3]
          exact h1.mark _
        refine ⟨(hm.set .cls (by simp) _ _ _ _).ok, fun fqn nm r hr => ?_⟩
        simp only [GoMap.get_set] at hr
        rw [if_neg (by simp [Ne.symm hk])] at hr
        exact (ih.all.same (((SameCls.of_eq rfl).trans hs).trans (.of_eq rfl))) fqn nm r hr

end Verif.Query
