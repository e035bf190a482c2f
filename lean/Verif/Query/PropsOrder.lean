import Verif.Query.PropsAccess
import Verif.Query.PropsLineage

/-! C30 and C32, the order, for queries that were asked before. -/

namespace Verif.Query

theorem methodLoop_order {w : World} (hw : Distinct w) {name : Bytes} {ni : Nat} (n : Nat) (c : Cls)
    (m mi : Inherited) (st : St) (r : Inherited × Inherited × St)
    (h : methodLoop w name ni n [c] m mi st = some r) (hc : c ∈ w.classes) (hb : Bare w c)
    (hok : CacheOk w st) (hst : TrtAt w m.searched st) (done : List Cls)
    (hmark : ∀ x, x ∈ st.sets m.searched ↔ ∃ d ∈ done, d.name = x)
    (hdone : (done ++ [c]).IsChain (ParentOf w)) (hnd : done.Nodup) (hsub : ∀ d ∈ done, d ∈ w.classes)
    (hmem : m.members = done.flatMap (declared w name)) :
    ∃ l : List Cls, l.head? = (done ++ [c]).head? ∧ l.IsChain (ParentOf w) ∧ l.Nodup ∧
      (∀ d, l.getLast? = some d → ∀ e, ParentOf w d e → e ∈ l) ∧
      r.1.members = l.flatMap (declared w name) ∧ r.2.1 = mi := by
  induction n generalizing c m st done with
  | zero => simp [methodLoop] at h
  | succ n ih =>
    simp only [methodLoop] at h
    split at h
    · rename_i hin
      simp only [methodLoop_nil, Option.some.injEq] at h
      subst h
      have hcd : c ∈ done := by
        obtain ⟨d, hd, he⟩ := (hmark _).mp hin
        rw [hw.cls hc (hsub d hd) (by rw [he])]; exact hd
      refine ⟨done, ?_, (List.isChain_append.mp hdone).1, hnd, ?_, hmem, rfl⟩
      · cases done with
        | nil => simp at hcd
        | cons a l => rfl
      · intro d hd e hde
        have := (List.isChain_append.mp hdone).2.2 d hd c (by simp)
        rw [hde.unique hw this]
        exact hcd
    · rename_i hin
      have hcd : c ∉ done := fun h => hin ((hmark _).mpr ⟨c, h, rfl⟩)
      have ht := mergeTraits_ok w name (w.used c) { m with members := m.members ++ w.found .methods c.name name }
        (st.mark m.searched [c.name]) (hok.of_eq rfl)
      have hta := mergeTraits_at name (w.used c) { m with members := m.members ++ w.found .methods c.name name }
        (st.mark m.searched [c.name]) (hst.mark _)
      have hts := mergeTraits_searched w name (w.used c) { m with members := m.members ++ w.found .methods c.name name }
        (st.mark m.searched [c.name])
      generalize mergeTraits w name (w.used c) { m with members := m.members ++ w.found .methods c.name name }
        (st.mark m.searched [c.name]) = T at h ht hta hts
      obtain ⟨m', st1⟩ := T
      simp only at h ht hta hts
      obtain ⟨t1, t2, -, -⟩ := hta
      rw [hb c .self] at h
      simp only [mergeInterfaces] at h
      have hmem' : m'.members = (done ++ [c]).flatMap (declared w name) := by
        rw [ht.2]; simp [hmem, declared]
      have hnd' : (done ++ [c]).Nodup := by
        rw [List.nodup_append]
        refine ⟨hnd, by simp, ?_⟩
        intro a ha b hb
        simp only [List.mem_singleton] at hb
        subst hb
        rintro rfl
        exact hcd ha
      have hsub' : ∀ d ∈ done ++ [c], d ∈ w.classes := by
        intro d hd
        rw [List.mem_append, List.mem_singleton] at hd
        rcases hd with hd | rfl
        · exact hsub d hd
        · exact hc
      have hmark' : ∀ x, x ∈ st1.sets m.searched ↔ ∃ d ∈ done ++ [c], d.name = x := by
        intro x
        rw [t2]
        simp only [St.mark, if_true, List.mem_append, List.mem_singleton, hmark]
        constructor
        · rintro (rfl | ⟨d, h1, h2⟩)
          · exact ⟨c, .inr rfl, rfl⟩
          · exact ⟨d, .inl h1, h2⟩
        · rintro ⟨d, h1 | rfl, h2⟩
          · exact .inr ⟨d, h1, h2⟩
          · exact .inl h2.symm
      have hstop : (∀ e, ParentOf w c e → e ∈ done ++ [c]) → r = (m', mi, st1) →
          ∃ l : List Cls, l.head? = (done ++ [c]).head? ∧ l.IsChain (ParentOf w) ∧ l.Nodup ∧
            (∀ d, l.getLast? = some d → ∀ e, ParentOf w d e → e ∈ l) ∧
            r.1.members = l.flatMap (declared w name) ∧ r.2.1 = mi := by
        rintro hp rfl
        refine ⟨done ++ [c], rfl, hdone, hnd', ?_, hmem', rfl⟩
        intro d hd e he
        simp only [List.getLast?_append, List.getLast?_singleton, Option.some_or, Option.some.injEq] at hd
        subst hd
        exact hp e he
      split at h
      · rename_i hf
        rcases classesNamed_cases w hw c.ext with he | ⟨e, he⟩
        · rw [he, List.append_nil, methodLoop_nil, Option.some.injEq] at h
          refine hstop ?_ h.symm
          intro e hp
          rw [parentOf_iff, he] at hp
          simp at hp
        · rw [he, List.nil_append] at h
          have hpe : ParentOf w c e := (parentOf_iff w c e).mpr ⟨hf.1, by rw [he]; simp⟩
          have key := ih e m' st1 h hpe.2.1 (fun d hd => hb d (hd.head hpe)) ht.1 (by rw [hts]; exact t1) (done ++ [c])
            (by rw [hts]; exact hmark') (by
              rw [List.isChain_append]
              refine ⟨hdone, by simp, ?_⟩
              intro x hx y hy
              simp only [List.getLast?_append, List.getLast?_singleton, Option.some_or, Option.mem_def, Option.some.injEq] at hx
              simp only [List.head?_cons, Option.mem_def, Option.some.injEq] at hy
              subst hx hy
              exact hpe) hnd' hsub' hmem'
          obtain ⟨l, hl, hrest⟩ := key
          refine ⟨l, ?_, hrest⟩
          rw [hl]
          cases done <;> rfl
      · rename_i hf
        rw [methodLoop_nil, Option.some.injEq] at h
        refine hstop ?_ h.symm
        intro e hp
        have hx : c.ext ∈ st1.sets m'.searched := by
          by_contra hx
          exact hf ⟨hp.1, hx⟩
        rw [hts] at hx
        obtain ⟨d, hd, hn⟩ := (hmark' _).mp hx
        rw [hw.cls hp.2.1 (hsub' d hd) (by rw [hp.2.2, hn])]
        exact hd

/-- The methods in `l`: those of a lineage of `c`, nearest first. -/
def Ordered (w : World) (c : Cls) (name : Bytes) (fs : List Found) : Prop := ∃ l, Lineage w c l ∧ fs = l.flatMap (declared w name)

/-- The cached results for classes without interfaces are in the order of the lineage. -/
def OrderAll (w : World) (st : St) : Prop := ∀ fqn nm r, st.cache.get (.cls, .methods, fqn, nm) = some r →
  ∀ c ∈ w.classes, c.name = fqn → Bare w c → Ordered w c nm r.members

theorem OrderAll.same {w : World} {a b : St} (h : OrderAll w a) (hs : SameCls a b) : OrderAll w b :=
  fun fqn nm r hr => h fqn nm r ((hs _ _ _).symm.trans hr)

theorem getClassMethods_order {w : World} (hw : Distinct w) {n ni : Nat} {c : Cls} (hc : c ∈ w.classes)
    {name : Bytes} {st : St} {r : Inherited × St} (hok : CacheOk w st) (htr : TrtOk w st) (hst : OrderAll w st)
    (h : getClassMethods w n ni c name none st = some r) :
    OrderAll w r.2 ∧ (Bare w c → Ordered w c name r.1.members) := by
  unfold getClassMethods at h
  simp only [St.searchedOr] at h
  split at h
  · rename_i m hm
    cases h
    exact ⟨hst.same (.of_eq rfl), fun hb => hst _ _ _ hm c hc rfl hb⟩
  · split at h
    · cases h
    · rename_i m mi st2 hl
      cases h
      have hs := (sameCls_methodLoop _ _ _ _ _ _ _ _ _ hl).1
      have hall : Bare w c → Ordered w c name (merge m mi st2).1.members := by
        intro hb
        obtain ⟨l, h1, h2, h3, h4, h5, h6⟩ := methodLoop_order hw _ _ _ _ _ _ hl hc hb (hok.of_eq rfl) htr.newSet []
          (by simp [St.newSet]) (by simp) (by simp) (by simp) (by simp)
        refine ⟨l, ⟨by simpa using h1, h2, h3, h4⟩, ?_⟩
        simp only at h5 h6
        simp [merge, h5, h6]
      refine ⟨fun fqn nm r hr => ?_, hall⟩
      simp only [GoMap.get_set] at hr
      split at hr
      · rename_i e
        simp only [Prod.mk.injEq, true_and] at e
        obtain ⟨rfl, rfl⟩ := e
        cases hr
        intro c' hc' hn hb
        have : c' = c := hw.cls hc' hc (by rw [hn])
        subst this
        exact hall hb
      · exact (hst.same (((SameCls.of_eq rfl).trans hs).trans (.of_eq rfl))) fqn nm r hr

/-- Whatever was asked before. -/
theorem Resolving.order_inv {w : World} (hw : Distinct w) {st : St} (h : Resolving w st) : OrderAll w st := by
  induction h with
  | new => exact fun f n r hr => by simp [St.new, GoMap.get] at hr
  | @interface st k' n i name r hp hi hr ih =>
    change getInterface w k' n i name (some st.next) st.newSet.2 = some r at hr
    exact (ih.same (b := st.newSet.2) (.of_eq rfl)).same (sameCls_getInterface _ _ _ _ _ _ _ _ hr)
  | @methods st n ni c name r hp hc hr ih =>
    exact (getClassMethods_order hw hc (hp.reachable.cacheOk hw) (hp.bare_inv hw).trt ih hr).1
  | @plain st k' n ni c name r hp hk hc hr ih =>
    unfold getClassPlain at hr
    simp only [St.searchedOr] at hr
    split at hr
    · cases hr; exact ih.same (.of_eq rfl)
    · split at hr
      · cases hr
      · rename_i m mi st2 hl
        cases hr
        have hs := (sameCls_plainLoop _ _ _ _ _ _ _ _ _ _ hl).1
        intro fqn nm r hr
        simp only [GoMap.get_set] at hr
        rw [if_neg (by simp [Ne.symm hk])] at hr
        exact (ih.same (((SameCls.of_eq rfl).trans hs).trans (.of_eq rfl))) fqn nm r hr

/-- C30, the order for methods, whatever was asked before with the same query: if neither the class nor a class above it
implements an interface, the answer is the methods of the classes of the lineage, nearest first, each class once, the class's own
methods before those of its traits, and nothing else. -/
theorem C30_order_any_state_partial (w : World) (hw : Distinct w) (st : St) (hst : Resolving w st) (c : Cls) (hc : c ∈ w.classes)
    (name : Bytes) (n ni : Nat) (r : Inherited × St) (hb : ∀ d, Ancestor w c d → ∀ i ∈ w.interfaces, i.name ∉ d.impls)
    (h : getClassMethods w n ni c name none st = some r) :
    ∃ l, Lineage w c l ∧ r.1.members = l.flatMap fun d => w.found .methods d.name name ++
      (w.used d).flatMap fun t => w.found .methods t.name name :=
  (getClassMethods_order hw hc (hst.reachable.cacheOk hw) (hst.bare_inv hw).trt (hst.order_inv hw) h).2
    (fun d hd => List.eq_nil_iff_forall_not_mem.mpr fun i hi =>
      hb d hd i ((mem_implemented w d i).mp hi).2.2 ((mem_implemented w d i).mp hi).1)

/-- C32, the nearest class, whatever was asked before with the same query: if neither the class nor a class above it implements
an interface, the method that is reported after `->` is declared in a class of the lineage (or one of its traits) such that no
nearer class declares an accessible method of the same name; and every accessible method of the lineage is reported or stands
behind one of its name. -/
theorem C32_nearest_any_state_partial (w : World) (hw : Distinct w) (st : St) (hst : Resolving w st) (c : Cls) (hc : c ∈ w.classes)
    (name : Bytes) (n ni : Nat) (r : Inherited × St) (hb : ∀ d, Ancestor w c d → ∀ i ∈ w.interfaces, i.name ∉ d.impls)
    (h : getClassMethods w n ni c name none st = some r) (cur : Bytes) (a : Access) :
    ∃ l, Lineage w c l ∧
      (∀ f ∈ r.1.reduceAccess cur a,
        ∃ l1 d l2, l = l1 ++ d :: l2 ∧ (∃ g ∈ declared w name d, f.member = g.member ∧ f.scope = g.scope) ∧
          ∀ e ∈ l1, ∀ h ∈ declared w name e, isInherited cur a r.1.rel h.member = true →
            h.member.name ≠ f.member.name) ∧
      (∀ d ∈ l, ∀ g ∈ declared w name d, isInherited cur a r.1.rel g.member = true →
        ∃ f ∈ r.1.reduceAccess cur a, f.member.name = g.member.name) := by
  obtain ⟨l, hl, hm⟩ := C30_order_any_state_partial w hw st hst c hc name n ni r hb h
  refine ⟨l, hl, fun f hf => ?_, fun d hd g hg hin => ?_⟩
  · obtain ⟨pre, g, post, h1, h2, h3, -, h5⟩ := (C32_access r.1 cur a).2.1 f hf
    rw [hm] at h1
    obtain ⟨l1, d, l2, h8, h9, h10⟩ := split_flatMap _ l pre post g h1
    refine ⟨l1, d, l2, h8, ⟨g, h9, h2, h3⟩, fun e he x hx hok => ?_⟩
    rw [h2]
    exact h5 x (h10 e he x hx) hok
  · exact (C32_access r.1 cur a).2.2 g (by rw [hm]; exact List.mem_flatMap.mpr ⟨d, hd, hg⟩) hin

/-- `class P { m }`, `class Q extends P { m, n }`, `class R extends Q implements I { m }`, `interface I`. -/
def overWorld : World :=
  { classes := [⟨b!"P", [], [], [], 0⟩, ⟨b!"Q", b!"P", [], [], 0⟩, ⟨b!"R", b!"Q", [b!"I"], [], 0⟩]
    interfaces := [⟨b!"I", [], 0⟩], traits := [], key := asciiLower
    members := fun k scope _ =>
      match k with
      | .methods =>
        if scope = b!"P" then [⟨b!"m", scope, .pub, false, 0⟩]
        else if scope = b!"Q" then [⟨b!"n", scope, .pub, false, 0⟩, ⟨b!"m", scope, .pub, false, 0⟩]
        else if scope = b!"R" then [⟨b!"m", scope, .pub, false, 0⟩]
        else []
      | _ => [] }

theorem over_above {d : Cls} (h : Ancestor overWorld ⟨b!"Q", b!"P", [], [], 0⟩ d) : d.impls = [] := by
  have : d = ⟨b!"Q", b!"P", [], [], 0⟩ ∨ d = ⟨b!"P", [], [], [], 0⟩ := by
    induction h with
    | self => exact .inl rfl
    | @parent d e _ h1 h2 h3 ih =>
      rcases ih with rfl | rfl
      · right
        have : ∀ e ∈ overWorld.classes, overWorld.key e.name = overWorld.key b!"P" → e = ⟨b!"P", [], [], [], 0⟩ := by decide +kernel
        exact this e h2 h3
      · exact absurd rfl h1
  rcases this with rfl | rfl <;> rfl

/-- Non-vacuity of both: after the methods of `R` and `P` were asked for, those of `Q` are `n` and `m` of `Q` and then `m` of `P`,
and `n` and `m` of `Q` are reported. -/
example : Distinct overWorld ∧
    (∀ d, Ancestor overWorld ⟨b!"Q", b!"P", [], [], 0⟩ d → ∀ i ∈ overWorld.interfaces, i.name ∉ d.impls) ∧
    ∃ st, Resolving overWorld st ∧
      ((getClassMethods overWorld 9 9 ⟨b!"Q", b!"P", [], [], 0⟩ [] none st).map fun r =>
        (r.1.members.map (fun f => (f.scope, f.member.name)),
          (r.1.reduceAccess b!"X" ⟨b!"$x", [b!"Q"]⟩).map fun f => (f.scope, f.member.name))) =
        some ([(b!"Q", b!"n"), (b!"Q", b!"m"), (b!"P", b!"m")], [(b!"Q", b!"n"), (b!"Q", b!"m")]) := by
  refine ⟨⟨by decide +kernel, by decide +kernel⟩, fun d hd i _ => by simp [over_above hd], ?_⟩
  have h1 : ∃ r, getClassMethods overWorld 9 9 ⟨b!"R", b!"Q", [b!"I"], [], 0⟩ [] none St.new = some r ∧
      ∃ r', getClassMethods overWorld 9 9 ⟨b!"P", [], [], [], 0⟩ [] none r.2 = some r' ∧
      ((getClassMethods overWorld 9 9 ⟨b!"Q", b!"P", [], [], 0⟩ [] none r'.2).map fun r =>
        (r.1.members.map (fun f => (f.scope, f.member.name)),
          (r.1.reduceAccess b!"X" ⟨b!"$x", [b!"Q"]⟩).map fun f => (f.scope, f.member.name))) =
        some ([(b!"Q", b!"n"), (b!"Q", b!"m"), (b!"P", b!"m")], [(b!"Q", b!"n"), (b!"Q", b!"m")]) := by
    refine ⟨_, rfl, _, rfl, ?_⟩
    decide +kernel
  obtain ⟨r, h1, r', h2, h3⟩ := h1
  exact ⟨r'.2, .methods (.methods .new (by decide +kernel) h1) (by decide +kernel) h2, h3⟩

end Verif.Query
