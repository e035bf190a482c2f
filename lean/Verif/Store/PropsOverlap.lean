import Verif.Store.Overlap
import Verif.Store.PropsLookup
import Verif.Store.PropsConcurrent

/-!
Property C107: any schedule of indexings and deletions, also when several work on the same file.
-/

namespace Verif.Store

open Verif.Encoding Verif.Storage

/-! ### the specification -/

/-- A lookup answers with stored forms of symbols that some version of some file declares and that satisfy `P`, and
leaves out none of those that are live in `L`. -/
def Between {α} (env : Env) (L : Bytes → Option Doc) (versions : List Doc) (kind : α → Sym) (answer : Option (List α))
    (P : α → Prop) : Prop :=
  ∃ xs : List α, answer.map (List.map kind) = some (xs.map fun a => (kind a).stored) ∧
    (∀ a ∈ xs, (∃ d ∈ versions, kind a ∈ d.symbols) ∧ P a) ∧
    ∀ a, Live env L (kind a) → P a → (kind a).stored ∈ xs.map fun a => (kind a).stored

/-- All lookups by name. -/
structure LookupsBetween (env : Env) (L : Bytes → Option Doc) (vs : List Doc) (s : Store) : Prop where
  classes : ∀ n, sep ∉ n → Between env L vs Sym.cla (s.queryClasses env n) fun c => SameClassName env c.name.fqn n
  interfaces : ∀ n, sep ∉ n → Between env L vs Sym.int (s.getInterfaces n) fun c => c.name.fqn = n
  traits : ∀ n, sep ∉ n → Between env L vs Sym.tra (s.getTraits n) fun c => c.name.fqn = n
  functions : ∀ n, sep ∉ n → Between env L vs Sym.fn (s.getFunctions n) fun c => c.name.fqn = n
  consts : ∀ n, sep ∉ n → Between env L vs Sym.con (s.getConsts n) fun c => c.name.fqn = n
  defines : ∀ n, sep ∉ n → Between env L vs Sym.def_ (s.getDefines n) fun c => c.name.fqn = n
  methods : ∀ c n, sep ∉ c → sep ∉ n → Between env L vs Sym.met (s.getMethods env c n)
    fun m => m.scope.fqn = c ∧ env.lower m.name = env.lower n
  allMethods : ∀ c, sep ∉ c → Between env L vs Sym.met (s.getAllMethods c) fun m => m.scope.fqn = c
  properties : ∀ c n, sep ∉ c → sep ∉ n → Between env L vs Sym.pro (s.getProperties c n)
    fun m => m.scope.fqn = c ∧ m.name = n
  allProperties : ∀ c, sep ∉ c → Between env L vs Sym.pro (s.getAllProperties c) fun m => m.scope.fqn = c
  classConsts : ∀ c n, sep ∉ c → Between env L vs Sym.claCon (s.getClassConsts c n)
    fun m => m.scope.fqn = c ∧ n <+: m.name
  allClassConsts : ∀ c, sep ∉ c → Between env L vs Sym.claCon (s.getAllClassConsts c) fun m => m.scope.fqn = c
  globals : ∀ n, sep ∉ n → Between env L vs Sym.gloVar (s.getGlobalVariables n) fun c => c.name = n

section

variable {env : Env} {root : Bytes} {h : List HOp} {s : Store}

theorem between_of {α} (K : KindSpec α) (he : EnvOK env) {D L} {s : Store} (inv : Loose env D L s)
    (hok : ∀ d ∈ D, DocOK env d) (p : Bytes) (P : α → Prop)
    (hP : ∀ a u, UriOK u → SymOK env u (K.con a) → (K.con a).Indexed → (p <+: (K.con a).key env ↔ P a)) :
    Between env L D K.con (scanDecode s.db (entryKey K.coll p) K.read) P := by
  obtain ⟨xs, h1, h2, h3⟩ := loose_scan K inv hok p
  have hst : xs.map (fun a => (K.con a).stored) = (xs.map K.st).map K.con := by simp [K.stored]
  refine ⟨xs, by rw [h1, hst]; rfl, ?_, ?_⟩
  · intro a ha
    obtain ⟨⟨d, hd, hm⟩, hp⟩ := h2 a ha
    obtain ⟨m1, m2⟩ := mem_keyed.mp hm
    exact ⟨⟨d, hd, m1⟩, (hP a d.uri (hok d hd).uri ((hok d hd).syms _ m1) m2).mp hp⟩
  · intro a hl ha
    have hdl : ∀ u d, L u = some d → DocOK env d := fun u d hu => hok d (inv.live u d hu).1
    have hk := (liveK_iff he.lower hdl (K.con a)).mpr hl
    obtain ⟨u, d, -, -, hm, hu, hsok⟩ := hk.ok (fun u d hu => ⟨(inv.live u d hu).2, hdl u d hu⟩)
    obtain ⟨_, _, _, _, _, _, hi, _⟩ := hl
    rw [hst, K.stored]
    exact List.mem_map_of_mem (h3 a hk ((hP a u hu hsok hi).mpr ha))

theorem lookups_between (he : EnvOK env) (hsl : env.LowerSlash) {D L} {s : Store} (inv : Loose env D L s)
    (hok : ∀ d ∈ D, DocOK env d) : LookupsBetween env L D s where
  classes n hn := between_of kCla he inv hok _ _ fun a u _ hsym _ => by
    rw [← classFQNLower_eq_iff hsl]
    exact name_prefix (classFQNLower_nosep he.lower hn)
      (classFQNLower_nosep he.lower (hsym.name a.name.fqn (by simp [kCla, Sym.names])))
  interfaces n hn := between_of kInt he inv hok _ _ fun a u _ hsym _ =>
    name_prefix hn (hsym.name _ (by simp [kInt, Sym.names]))
  traits n hn := between_of kTra he inv hok _ _ fun a u _ hsym _ =>
    name_prefix hn (hsym.name _ (by simp [kTra, Sym.names]))
  functions n hn := between_of kFn he inv hok _ _ fun a u _ hsym _ =>
    name_prefix hn (hsym.name _ (by simp [kFn, Sym.names]))
  consts n hn := between_of kCon he inv hok _ _ fun a u _ hsym _ =>
    name_prefix hn (hsym.name _ (by simp [kCon, Sym.names]))
  defines n hn := between_of kDef he inv hok _ _ fun a u _ hsym _ =>
    name_prefix hn (hsym.name _ (by simp [kDef, Sym.names]))
  methods c n hc hn := between_of kMet he inv hok _ _ fun a u _ hsym _ =>
    name_prefix2 hc (hsym.name _ (by simp [kMet, Sym.names])) (he.lower _ hn)
      (he.lower _ (hsym.name _ (by simp [kMet, Sym.names])))
  allMethods c hc := between_of kMet he inv hok _ _ fun a u _ hsym _ =>
    name_prefix hc (hsym.name _ (by simp [kMet, Sym.names]))
  properties c n hc hn := between_of kPro he inv hok _ _ fun a u _ hsym _ =>
    name_prefix2 hc (hsym.name _ (by simp [kPro, Sym.names])) hn (hsym.name _ (by simp [kPro, Sym.names]))
  allProperties c hc := between_of kPro he inv hok _ _ fun a u _ hsym _ =>
    name_prefix hc (hsym.name _ (by simp [kPro, Sym.names]))
  classConsts c n hc := between_of kClaCon he inv hok _ _ fun a u _ hsym _ => by
    have := sep_prefix (a := c) (a' := a.scope.fqn) (b' := a.name) (r := n) hc
      (hsym.name _ (by simp [kClaCon, Sym.names]))
    exact this.trans (by rw [eq_comm])
  allClassConsts c hc := between_of kClaCon he inv hok _ _ fun a u _ hsym _ =>
    name_prefix hc (hsym.name _ (by simp [kClaCon, Sym.names]))
  globals n hn := between_of kGlo he inv hok _ _ fun a u _ hsym hi => by
    have : (kGlo.con a).key env = a.name ++ sep :: a.location.uri := by
      have hi : typesEmpty a.types = false := hi
      simp [kGlo, Sym.key, hi]
    rw [this]
    exact name_prefix hn (hsym.name _ (by simp [kGlo, Sym.names]))

theorem any_schedule {es : List Ev} {c : Conc} (he : EnvOK env) (ok : HistOK env (h ++ (started es).map Work.op))
    (hs : run env root h = some s) (hr : Conc.run env ⟨s, [], []⟩ es = some c) :
    LooseSound env h (docs (h ++ (started es).map Work.op)) c ∧
      List.Perm (c.finished ++ c.tasks.map Task.work) (started es) := by
  have hk : HistOK env h := by
    have := ok.fewer (ws' := []) (by simp)
    simpa using this
  obtain ⟨s', h1, inv, -⟩ := run_inv (root := root) he hk
  rw [hs] at h1
  cases h1
  have := loose_sound_run (h := h) ok.docs (disjoint_of_ok he.lower ok.docs ok.consts) es ⟨s, [], []⟩
    (fun d hd => mem_docs_works.mpr (.inr hd))
    ⟨by
      have := loose_of_inv (D' := docs (h ++ (started es).map Work.op)) inv fun d hd => by
        rw [docs_append]
        exact List.mem_append_left _ hd
      simpa using this, by simp⟩ c hr
  simpa using this

/-- C107: at every moment of every schedule, whatever the calls under way do and also when several of them work on one
file: no call is lost; the recorded hash of each file is that of the call for it that returned last; every lookup by
name succeeds, its answer leaves out no symbol of these versions, and everything in it is a symbol with this name of
some version of some file that was indexed or is being indexed. -/
theorem C107_nothing_missing_nothing_invented {es : List Ev} {c : Conc} (he : EnvOK env) (hsl : env.LowerSlash)
    (ok : HistOK env (h ++ (started es).map Work.op)) (hs : run env root h = some s)
    (hr : Conc.run env ⟨s, [], []⟩ es = some c) :
    List.Perm (c.finished ++ c.tasks.map Task.work) (started es) ∧
    (∀ u, c.store.db.get (entryKey cDoc u) = (latest (h ++ c.finished.map Work.op) u).map Doc.hash) ∧
    LookupsBetween env (latest (h ++ c.finished.map Work.op)) (docs (h ++ (started es).map Work.op)) c.store := by
  obtain ⟨⟨h1, -⟩, h2⟩ := any_schedule he ok hs hr
  exact ⟨h2, h1.doc, lookups_between he hsl h1 ok.docs⟩

/-- C107: in every schedule, a call that is under way can go on: none of them panics. -/
theorem C107_no_call_panics {es : List Ev} {c : Conc} (he : EnvOK env)
    (ok : HistOK env (h ++ (started es).map Work.op)) (hs : run env root h = some s)
    (hr : Conc.run env ⟨s, [], []⟩ es = some c) (i : Nat) (hi : i < c.tasks.length) :
    ∃ c', c.step env (.step i) = some c' := by
  obtain ⟨h1, -⟩ := any_schedule he ok hs hr
  obtain ⟨c', h2, -⟩ := loose_sound_step ok.docs (disjoint_of_ok he.lower ok.docs ok.consts) h1
    (List.getElem?_eq_getElem hi)
  exact ⟨c', h2⟩

end

/-! ### the hypotheses are met: two versions of one file at the same time -/

namespace Concurrent.Demo

open Store.Demo

def overlapped : Conc :=
  (Conc.run env ⟨Store.new root, [], []⟩ overlapping).getD ⟨Store.new root, [], []⟩

theorem overlapping_ok : HistOK env ([] ++ (started overlapping).map Work.op) := by
  have hd : docs ([] ++ (started overlapping).map Work.op) = [a1, a2] := by decide +kernel
  have hst : started overlapping = [.index a1, .index a2] := by decide +kernel
  refine ⟨?_, ?_, ?_⟩
  · rw [hd]; simp [a1_ok, a2_ok]
  · intro d1 h1 d2 h2 x1 x2 m1 m2 _ _
    rw [hd] at h1 h2
    simp only [List.mem_cons, List.not_mem_nil, or_false] at h1 h2
    rcases h1 with rfl | rfl <;> rcases h2 with rfl | rfl <;>
      first
        | rfl
        | (simp [a1, a2, cla, met, pro, fn, glo, claCon] at m1 m2)
  · rw [hst]; simp [Keeps, Work.op]

example : LookupsBetween env (latest ([] ++ [HOp.index a1, .index a2])) [a1, a2] overlapped.store ∧
    overlapped.finished = [.index a1, .index a2] := by
  have h := C107_nothing_missing_nothing_invented (c := overlapped) env_ok lower_slash overlapping_ok
    (root := root) (s := Store.new root) rfl (by decide +kernel)
  have e1 : docs ([] ++ (started overlapping).map Work.op) = [a1, a2] := by decide +kernel
  have e2 : overlapped.finished = [.index a1, .index a2] := by decide +kernel
  rw [e1, e2] at h
  exact ⟨h.2.2, e2⟩

end Concurrent.Demo

end Verif.Store
