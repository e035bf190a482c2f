import Verif.Infer.All

/-! Properties C74 and C75: the types that are shown for expressions. -/

namespace Verif.Infer
open Verif.Types (Ty Union add merge)
open Verif.Symbols (record)
open Verif.Position (Before)

/-! ### The value of an assignment -/

theorem eval_plain (o : Outside) (cls : List Kind) (weak : Bool) (p : Src) (h : Plain p) (env : Env) :
    (eval o cls true weak p env).env = (eval o cls false weak p env).env ∧
    (eval o cls true weak p env).trace = (eval o cls false weak p env).trace ∧
    (p.isAssignment = false → (eval o cls true weak p env).types = (eval o cls false weak p env).types) := by
  induction p generalizing env with
  | skip | var _ _ _ | constant _ | global _ => exact ⟨rfl, rfl, fun _ => rfl⟩
  | both a b iha ihb =>
    obtain ⟨e1, t1, _⟩ := iha h.1 env
    obtain ⟨e2, t2, _⟩ := ihb h.2 (eval o cls false weak a env).env
    simp only [eval, e1, t1, e2, t2, implies_true, and_self]
  | property _ _ s _ ih | cls _ _ _ s ih | staticProperty _ _ s _ ih | derived _ s ih =>
    obtain ⟨e1, t1, y1⟩ := ih h.1 env
    have y1 := y1 h.2
    simp only [eval, e1, t1, y1, implies_true, and_self]
  | method _ _ s _ args ih1 ih2 | staticMethod _ _ s _ args ih1 ih2 =>
    obtain ⟨e1, t1, y1⟩ := ih1 h.1 env
    have y1 := y1 h.2.1
    obtain ⟨e2, t2, _⟩ := ih2 h.2.2 (eval o cls false weak s env).env
    simp only [eval, e1, t1, y1, e2, t2, implies_true, and_self]
  | staticConstant _ s ih =>
    obtain ⟨e1, t1, _⟩ := ih h env
    simp only [eval, e1, t1, implies_true, and_self]
  | call _ _ c args ih1 ih2 | create _ _ c args ih1 ih2 =>
    obtain ⟨e1, t1, _⟩ := ih1 h.1 env
    obtain ⟨e2, t2, _⟩ := ih2 h.2 (eval o cls false weak c env).env
    simp only [eval, e1, t1, e2, t2, implies_true, and_self]
  | assign name _ doc v _ ih =>
    obtain ⟨e1, t1, y1⟩ := ih h.1 env
    have y1 := y1 h.2
    refine ⟨?_, ?_, fun h => by cases h⟩ <;> simp only [eval, e1, t1, y1]
  | each c name _ doc body ih1 ih2 =>
    obtain ⟨e1, t1, y1⟩ := ih1 h.1 env
    have y1 := y1 h.2.1
    obtain ⟨e2, t2, _⟩ := ih2 h.2.2 ((eval o cls false weak c env).env.put name
      (elements (eval o cls false weak c env).types ++ kinds doc ++
        if weak then look cls weak (eval o cls false weak c env).env name else []))
    simp only [eval, e1, t1, y1, e2, t2, implies_true, and_self]
  | test i _ _ _ ih =>
    obtain ⟨e1, t1, _⟩ := ih h env
    cases i <;> first | exact ⟨rfl, rfl, fun _ => rfl⟩ |
      exact ⟨e1, congrArg (· ++ [(_, _)]) t1, fun _ => rfl⟩
  | closure uses params _ body ih =>
    obtain ⟨_, t1, _⟩ := ih h (params.foldl evalParam (uses.foldl (evalUse cls weak) (({ env } : Out), ({} : Env))).2)
    refine ⟨rfl, ?_, fun _ => rfl⟩
    simp only [eval, t1]

/-! ### C74 -/

theorem table_empty (a : Pos) : Table {} (fun _ => none) a :=
  ⟨[], rfl, by simp, by simp, by simp, by simp⟩

theorem hiEnv_empty (w : World) (H : Env) : HiEnv w (fun _ => none) H := fun _ _ h => by cases h

theorem forall₂_imp {α β : Type} {R S : α → β → Prop} {a : List α} {b : List β} (h : ∀ x y, R x y → S x y)
    (hr : List.Forall₂ R a b) : List.Forall₂ S a b := by
  induction hr with
  | nil => exact .nil
  | cons h1 _ ih => exact .cons (h _ _ h1) ih

/-- The types shown for an expression are types that the program or the index gives it: evaluating the program on types,
where a variable keeps all types it was ever given, yields each of them at that place. `hi` holds what the index knows. -/
theorem C74_nothing_made_up (cls : Union) (w : World) (hi : Outside) (hc : Covers w hi) (p : Src) (a b : Pos)
    (hf : Fits p a b) :
    List.Forall₂ (fun x y => x.1 = y.1 ∧ ∀ t ∈ x.2.typesIn w, kind t ∈ y.2) (analyse cls p)
      (typesOf hi (kinds cls) true p) := by
  obtain ⟨m', new, s⟩ := step_scan (cls := cls) (lo := ⟨fun _ => [], fun _ => [], fun _ _ _ _ => [], fun _ _ _ _ => [],
    fun _ _ _ _ => [], fun _ _ _ _ => []⟩) hc ⟨nofun, nofun, nofun, nofun, nofun, nofun⟩ p a b {} (fun _ => none)
    { isGlobal := fun _ => true } { isGlobal := fun _ => true } hf (table_empty a) (fun _ => rfl) (hiEnv_empty _ _)
  have hs : analyse cls p = new := by simpa [analyse] using s.seen
  rw [hs]
  exact forall₂_imp (fun x y h => ⟨h.1, fun t ht => h.2.2 _ (List.mem_map_of_mem ht)⟩) s.hiSeen

/-- The types shown for an expression contain those it has when the program is evaluated on types, with what the index
knows about other code (`lo`). Missing: programs that use the value of an assignment, and expressions that may have the
same class at two array depths (`hi` is an upper bound of what the index knows). -/
theorem C74_known_partial (cls : Union) (w : World) (hi lo : Outside) (hc : Covers w hi) (hg : Gives w lo) (p : Src)
    (a b : Pos) (hf : Fits p a b) (hp : Plain p) (hcl : ∀ q ∈ typesOf hi (kinds cls) true p, Clean q.2) :
    List.Forall₂ (fun x y => x.1 = y.1 ∧ ∀ k ∈ y.2, ∃ t ∈ x.2.typesIn w, kind t = k) (analyse cls p)
      (typesOf lo (kinds cls) false p) := by
  obtain ⟨m', new, s⟩ := step_scan (cls := cls) hc hg p a b {} (fun _ => none)
    { isGlobal := fun _ => true } { isGlobal := fun _ => true } hf (table_empty a) (fun _ => rfl) (hiEnv_empty _ _)
  have hs : analyse cls p = new := by simpa [analyse] using s.seen
  obtain ⟨_, _, _, hlow⟩ := s.low hcl (fun _ _ h => by cases h) (fun _ => rfl)
  rw [hs]
  unfold typesOf
  rw [(eval_plain lo (kinds cls) false p hp _).2.1]
  exact forall₂_imp (fun x y h => ⟨h.1, fun k hk => List.mem_map.1 (h.2 k hk)⟩) hlow

/-- Nothing in the program gives `$x` a new value. -/
def Leaves (x : Bytes) : Src → Prop
  | .skip | .var .. | .constant _ | .global _ => True
  | .both a b => Leaves x a ∧ Leaves x b
  | .property _ _ s _ | .cls _ _ _ s | .staticProperty _ _ s _ | .derived _ s | .staticConstant _ s => Leaves x s
  | .method _ _ s _ args | .staticMethod _ _ s _ args => Leaves x s ∧ Leaves x args
  | .call _ _ c args | .create _ _ c args => Leaves x c ∧ Leaves x args
  | .assign name _ _ v _ => name ≠ x ∧ Leaves x v
  | .each c name _ _ body => name ≠ x ∧ Leaves x c ∧ Leaves x body
  | .test i _ _ _ => Leaves x i
  | .closure .. => True

theorem put_keeps (env : Env) (name x : Bytes) (ts : List Kind) (k : Kind) (hk : k ∈ env.types x)
    (h : name = x → k ∈ ts) : k ∈ (env.put name ts).types x := by
  unfold Env.put
  simp only
  split
  · rename_i he; exact h he.symm
  · exact hk

theorem look_mem (cls : List Kind) (env : Env) (name x : Bytes) (hx : x ≠ b!"$this") (k : Kind) (hk : k ∈ env.types x)
    (h : name = x) : k ∈ look cls false env name := by
  subst h
  unfold look
  rw [if_neg hx]
  exact hk

theorem eval_leaves (o : Outside) (cls : List Kind) (x : Bytes) (hx : x ≠ b!"$this") (k : Kind) (q : Src)
    (h : Leaves x q) (env : Env) (hk : k ∈ env.types x) : k ∈ (eval o cls true false q env).env.types x := by
  induction q generalizing env with
  | skip | constant _ => exact hk
  | global _ => exact hk
  | var name _ _ => exact put_keeps _ _ _ _ _ hk fun he => List.mem_append_left _ (look_mem _ _ _ _ hx _ hk he)
  | both a b iha ihb => exact ihb h.2 _ (iha h.1 _ hk)
  | property _ _ s _ ih | cls _ _ _ s ih | staticProperty _ _ s _ ih | derived _ s ih | staticConstant _ s ih =>
    exact ih h _ hk
  | method _ _ s _ args ih1 ih2 | staticMethod _ _ s _ args ih1 ih2 | call _ _ s args ih1 ih2
  | create _ _ s args ih1 ih2 => exact ih2 h.2 _ (ih1 h.1 _ hk)
  | assign name _ _ v _ ih => exact put_keeps _ _ _ _ _ (ih h.2 _ hk) fun he => absurd he h.1
  | each c name _ _ body ih1 ih2 =>
    exact ih2 h.2.2 _ (put_keeps _ _ _ _ _ (ih1 h.2.1 _ hk) fun he => absurd he h.1)
  | test i _ _ types ih =>
    cases i with
    | var name _ _ =>
      exact put_keeps _ _ _ _ _ hk fun he =>
        List.mem_append_left _ (List.mem_append_left _ (look_mem _ _ _ _ hx _ hk he))
    | _ => exact ih h _ hk
  | closure uses params _ body ih =>
    have : ∀ (us : List (Bytes × Rng × Union)) (r : Out × Env), k ∈ r.1.env.types x →
        k ∈ (us.foldl (evalUse cls false) r).1.env.types x := by
      intro us
      induction us with
      | nil => exact fun _ h => h
      | cons u us ihu =>
        intro r hr
        exact ihu _ (put_keeps _ _ _ _ _ hr fun he => List.mem_append_left _ (look_mem _ _ _ _ hx _ hr he))
    exact this uses _ hk

theorem forall₂_last {α β : Type} {R : α → β → Prop} {a : List α} {b : List β} {y : β} (h : List.Forall₂ R a (b ++ [y])) :
    ∃ l x, a = l ++ [x] ∧ R x y := by
  induction b generalizing a with
  | nil => cases h with
    | cons h1 h2 => cases h2; exact ⟨[], _, rfl, h1⟩
  | cons z b ih => cases h with
    | cons h1 h2 =>
      obtain ⟨l, x, e, hr⟩ := ih h2
      exact ⟨_ :: l, x, by rw [e]; rfl, hr⟩

/-- After `$x = new Foo`, and code that does not assign `$x` again, `$x` is shown to be a `Foo`. Missing as in
`C74_known_partial`. -/
theorem C74_new_partial (cls : Union) (w : World) (hi lo : Outside) (hc : Covers w hi) (hg : Gives w lo)
    (x : Bytes) (hx : x ≠ b!"$this") (before after args : Src) (r1 r2 r3 : Rng) (stop : Pos) (foo : Union)
    (hl : Leaves x after) (a b : Pos) :
    let p : Src := .both before (.both (.assign x r1 [] (.create r2 foo .skip args) stop) (.both after (.var x r3 [])))
    Fits p a b → Plain p → (∀ q ∈ typesOf hi (kinds cls) true p, Clean q.2) →
    ∃ e, (analyse cls p).getLast? = some (r3, e) ∧ ∀ t ∈ foo, ∃ s ∈ e.typesIn w, kind s = kind t := by
  intro p hf hp hcl
  have h := C74_known_partial cls w hi lo hc hg p a b hf hp hcl
  have htr : ∃ init ts, typesOf lo (kinds cls) false p = init ++ [(r3, ts)] ∧ ∀ t ∈ foo, kind t ∈ ts := by
    refine ⟨_, _, by simp only [typesOf, p, eval, ← List.append_assoc]; rfl, ?_⟩
    intro t ht
    refine List.mem_append_left _ (List.mem_append_left _ (look_mem _ _ _ _ hx _ (eval_leaves _ _ _ hx _ _ hl _ ?_) rfl))
    simp only [Env.put, if_true]
    exact List.mem_append_left _ (List.mem_append_left _ (List.mem_map_of_mem ht))
  obtain ⟨init, ts, he, hts⟩ := htr
  rw [he] at h
  obtain ⟨l, ⟨r, y⟩, hy, rfl, ha⟩ := forall₂_last h
  refine ⟨y, ?_, fun t ht => ha _ (hts t ht)⟩
  rw [hy, List.getLast?_concat]


/-! ### An index, for the examples -/

/-- The index that knows `o`. -/
def World.of (o : Outside) : World where
  globals n := [o.globals n]
  functions n := [o.functions n]
  props a c n := [o.props a.here a.scopeName c n]
  methods a c n := [o.methods a.here a.scopeName c n]
  staticProps a c n := [o.staticProps a.here a.scopeName c n]
  staticMethods a c n := [o.staticMethods a.here a.scopeName c n]

theorem covers_of (o : Outside) : Covers (World.of o) o where
  globals _ _ hu _ ht := by rw [List.mem_singleton.1 hu] at ht; exact ht
  functions _ _ hu _ ht := by rw [List.mem_singleton.1 hu] at ht; exact ht
  props _ _ _ _ hu _ ht := by rw [List.mem_singleton.1 hu] at ht; exact ht
  methods _ _ _ _ hu _ ht := by rw [List.mem_singleton.1 hu] at ht; exact ht
  staticProps _ _ _ _ hu _ ht := by rw [List.mem_singleton.1 hu] at ht; exact ht
  staticMethods _ _ _ _ hu _ ht := by rw [List.mem_singleton.1 hu] at ht; exact ht

theorem gives_of (o : Outside) : Gives (World.of o) o where
  globals _ _ ht := ⟨_, List.mem_singleton_self _, ht⟩
  functions _ _ ht := ⟨_, List.mem_singleton_self _, ht⟩
  props _ _ _ _ ht := ⟨_, List.mem_singleton_self _, ht⟩
  methods _ _ _ _ ht := ⟨_, List.mem_singleton_self _, ht⟩
  staticProps _ _ _ _ ht := ⟨_, List.mem_singleton_self _, ht⟩
  staticMethods _ _ _ _ ht := ⟨_, List.mem_singleton_self _, ht⟩

/-- Columns `i` to `j` of the first line. -/
def cols (i j : Int) : Rng := ⟨⟨0, i⟩, ⟨0, j⟩⟩

def tyRepo : Ty := ⟨b!"\\Repo", b!"Repo", 0⟩
def tyUser : Ty := ⟨b!"\\User", b!"User", 0⟩
def tyUsers : Ty := ⟨b!"\\User", b!"User", 1⟩
def tyStatic : Ty := ⟨b!"static", b!"static", 0⟩
def tyString : Ty := ⟨b!"string", b!"string", 0⟩

/-- `Repo::all()` returns `User[]`, `User::touch()` returns `static`, `User::$name` is a string, `find()` returns a
`Repo`. -/
def sampleIndex : Outside where
  globals _ := []
  functions n := if n = b!"find" then [tyRepo] else []
  props _ _ c n := if c = b!"\\User" ∧ n = b!"$name" then [tyString] else []
  methods _ _ c n :=
    if c = b!"\\Repo" ∧ n = b!"all" then [tyUsers] else if c = b!"\\User" ∧ n = b!"touch" then [tyStatic] else []
  staticProps _ _ _ _ := []
  staticMethods _ _ _ _ := []

/-- `function f(Repo $repo, $x) { foreach ($repo->all() as $u) { $v = $u->touch(); $v->name;
function () use ($u) { $u->name; }; } $x instanceof User; $x; $n = new User(); $n; }` -/
def sample : Src :=
  .closure [] [(b!"$repo", cols 0 1, [tyRepo]), (b!"$x", cols 2 3, [])] ⟨0, 10⟩
    (.both
      (.each (.method (cols 20 32) [] (.var b!"$repo" (cols 20 25) []) b!"all" .skip) b!"$u" (cols 36 38) []
        (.both (.assign b!"$v" (cols 40 42) [] (.method (cols 45 55) [] (.var b!"$u" (cols 45 47) []) b!"touch" .skip) ⟨0, 56⟩)
          (.both (.property (cols 60 68) [] (.var b!"$v" (cols 60 62) []) b!"name")
            (.closure [(b!"$u", cols 75 77, [])] [] ⟨0, 80⟩
              (.property (cols 82 90) [] (.var b!"$u" (cols 82 84) []) b!"name")))))
      (.both (.test (.var b!"$x" (cols 100 102) []) (cols 114 119) b!"User" [tyUser])
        (.both (.assign b!"$n" (cols 130 132) [] (.create (cols 135 145) [tyUser] .skip .skip) ⟨0, 146⟩)
          (.both (.var b!"$x" (cols 147 149) []) (.var b!"$n" (cols 150 152) [])))))

instance (a b : Pos) : Decidable (Upto a b) := by unfold Upto Before; infer_instance
instance (a b : Pos) : Decidable (Before a b) := by unfold Before; infer_instance
instance (ts : List Kind) : Decidable (Clean ts) := by unfold Clean; infer_instance

/-- Checks places of the text. -/
macro "place" : tactic => `(tactic| ((try simp only [Fits, Fits.InOrder]); decide))

theorem sample_fits : Fits sample ⟨0, 0⟩ ⟨0, 200⟩ := by
  refine ⟨⟨0, 0⟩, by place, by place, ⟨0, 95⟩, ⟨⟨0, 34⟩, ⟨⟨0, 26⟩, by place, by place⟩, by place, by place,
    ⟨0, 58⟩, ⟨by place, by place, ⟨⟨0, 47⟩, by place, by place⟩, by place⟩,
    ⟨0, 70⟩, by place, ⟨0, 78⟩, ⟨by place, by place, by place⟩, by place, by place⟩,
    ⟨0, 120⟩, by place, ⟨0, 146⟩, ⟨by place, by place, ⟨⟨0, 140⟩, by place, by place⟩, by place⟩,
    ⟨0, 149⟩, by place, by place⟩

theorem sample_clean : ∀ q ∈ typesOf sampleIndex (kinds []) true sample, Clean q.2 := by decide +kernel

theorem sample_plain : Plain sample := by simp [sample, Plain, Src.isAssignment]

/-- What is shown: the elements of `$repo->all()` are users, so are `$v` and the `$u` in the closure, the properties are
strings, and `$x` is a user after the test. -/
example : (analyse [] sample).map (fun x => (x.1.start.character, kinds (x.2.typesIn (World.of sampleIndex)))) =
    [(20, [(b!"\\Repo", 0)]), (20, [(b!"\\User", 1)]), (36, [(b!"\\User", 0)]), (45, [(b!"\\User", 0)]),
      (45, [(b!"\\User", 0)]), (40, [(b!"\\User", 0)]), (60, [(b!"\\User", 0)]), (60, [(b!"string", 0)]),
      (75, [(b!"\\User", 0)]), (82, [(b!"\\User", 0)]), (82, [(b!"string", 0)]), (100, [(b!"\\User", 0)]),
      (114, [(b!"\\User", 0)]), (135, [(b!"\\User", 0)]), (130, [(b!"\\User", 0)]), (147, [(b!"\\User", 0)]),
      (150, [(b!"\\User", 0)])] := by decide +kernel

/-- `C74_nothing_made_up` and `C74_known_partial` apply to it. -/
example : List.Forall₂ (fun x y => x.1 = y.1 ∧ ∀ k ∈ y.2, ∃ t ∈ x.2.typesIn (World.of sampleIndex), kind t = k)
    (analyse [] sample) (typesOf sampleIndex (kinds []) false sample) :=
  C74_known_partial [] _ sampleIndex sampleIndex (covers_of _) (gives_of _) sample _ _ sample_fits sample_plain sample_clean

/-- And what they say is not void: the evaluation finds the types. -/
example : (typesOf sampleIndex (kinds []) false sample).map (fun x => (x.1.start.character, x.2)) =
    (analyse [] sample).map (fun x => (x.1.start.character, kinds (x.2.typesIn (World.of sampleIndex)))) := by
  decide +kernel

/-- `C74_new_partial` applies to `$x = find(); $x = new User(); $y = $x; $x` in a file. -/
example : ∃ e, (analyse [] (.both (.assign b!"$x" (cols 0 2) [] (.call (cols 5 11) b!"find" .skip .skip) ⟨0, 11⟩)
      (.both (.assign b!"$x" (cols 13 15) [] (.create (cols 18 28) [tyUser] .skip .skip) ⟨0, 28⟩)
        (.both (.assign b!"$y" (cols 30 32) [] (.var b!"$x" (cols 35 37) []) ⟨0, 37⟩) (.var b!"$x" (cols 40 42) []))))).getLast? =
      some (cols 40 42, e) ∧ ∀ t ∈ [tyUser], ∃ s ∈ e.typesIn (World.of sampleIndex), kind s = kind t := by
  refine C74_new_partial [] _ sampleIndex sampleIndex (covers_of _) (gives_of _) b!"$x" (by decide) _
    (.assign b!"$y" (cols 30 32) [] (.var b!"$x" (cols 35 37) []) ⟨0, 37⟩) .skip _ _ _ _ _ ⟨by decide, trivial⟩ ⟨0, 0⟩ ⟨0, 50⟩ ?_ ?_ (by decide +kernel)
  · exact ⟨⟨0, 11⟩, ⟨by place, by place, ⟨⟨0, 5⟩, by place, by place⟩, by place⟩, ⟨0, 28⟩,
      ⟨by place, by place, ⟨⟨0, 20⟩, by place, by place⟩, by place⟩, ⟨0, 37⟩,
      ⟨by place, by place, by place, by place⟩, by place⟩
  · simp [Plain, Src.isAssignment]

/-! ### What is not shown -/

/-- `$b = $a = new User; $b`. -/
def chain : Src :=
  .both (.assign b!"$b" (cols 0 2) [] (.assign b!"$a" (cols 5 7) [] (.create (cols 10 18) [tyUser] .skip .skip) ⟨0, 18⟩)
    ⟨0, 18⟩) (.var b!"$b" (cols 20 22) [])

/-- The value of an assignment has no type: `$b` is shown without one. -/
theorem C74_false_chain : ∃ (cls : Union) (o : Outside) (p : Src) (a b : Pos), Fits p a b ∧
    (∀ q ∈ typesOf o (kinds cls) true p, Clean q.2) ∧
    ¬ List.Forall₂ (fun x y => x.1 = y.1 ∧ ∀ k ∈ y.2, ∃ t ∈ x.2.typesIn (World.of o), kind t = k) (analyse cls p)
      (typesOf o (kinds cls) false p) := by
  refine ⟨[], sampleIndex, chain, ⟨0, 0⟩, ⟨0, 30⟩, ?_, by decide +kernel, by decide +kernel⟩
  exact ⟨⟨0, 18⟩, ⟨by place, by place, ⟨by place, by place, ⟨⟨0, 10⟩, by place, by place⟩, by place⟩, by place⟩,
    by place⟩

/-- `function f(User[] $x) { $x instanceof User; $x; }`. -/
def tested : Src :=
  .closure [] [(b!"$x", cols 0 2, [tyUsers])] ⟨0, 5⟩
    (.both (.test (.var b!"$x" (cols 10 12) []) (cols 20 24) b!"User" [tyUser]) (.var b!"$x" (cols 30 32) []))

/-- A class that is there as an array already is not added: `$x` is not shown to be a `User` after the test. -/
theorem C74_false_array : ∃ (cls : Union) (o : Outside) (p : Src) (a b : Pos), Fits p a b ∧ Plain p ∧
    ¬ List.Forall₂ (fun x y => x.1 = y.1 ∧ ∀ k ∈ y.2, ∃ t ∈ x.2.typesIn (World.of o), kind t = k) (analyse cls p)
      (typesOf o (kinds cls) false p) := by
  refine ⟨[], sampleIndex, tested, ⟨0, 0⟩, ⟨0, 40⟩, ?_, by simp [tested, Plain], by decide +kernel⟩
  exact ⟨⟨0, 0⟩, by place, by place, ⟨0, 15⟩, by place, by place⟩

/-- `if (...) { $x = <value>; } else { $x = new User; } $x`. -/
def branches (value : Src) : Src :=
  .both (.both (.assign b!"$x" (cols 0 2) [] value ⟨0, 15⟩)
    (.assign b!"$x" (cols 20 22) [] (.create (cols 25 33) [tyUser] .skip .skip) ⟨0, 33⟩)) (.var b!"$x" (cols 40 42) [])

/-- After a branch a variable has the types of either side if they are known at once (`new Repo`), but the type of a call
is lost (`find()`), although it is the same: the first `$x` above is shown with it. -/
theorem C74_false_branch :
    kinds (((analyse [] (branches (.create (cols 5 15) [tyRepo] .skip .skip))).getLast?.map
      fun x => x.2.typesIn (World.of sampleIndex)).getD []) = [(b!"\\User", 0), (b!"\\Repo", 0)] ∧
    kinds (((analyse [] (branches (.call (cols 5 15) b!"find" .skip .skip))).getLast?.map
      fun x => x.2.typesIn (World.of sampleIndex)).getD []) = [(b!"\\User", 0)] ∧
    (analyse [] (branches (.call (cols 5 15) b!"find" .skip .skip))).any (fun x =>
      x.1 = cols 0 2 && kinds (x.2.typesIn (World.of sampleIndex)) == [(b!"\\Repo", 0)]) = true := by
  decide +kernel

/-! ### C75 -/

theorem resolve_resolve (w w' : World) (e : Expr) : (e.resolve w).resolve w' = e.resolve w := by
  induction e with
  | nothing => rfl
  | relative _ => rfl
  | known _ => rfl
  | element s ih => exact congrArg Expr.element ih
  | «variable» _ _ _ d _ _ => cases d <;> simp [Expr.resolve]
  | call _ _ d => cases d <;> simp [Expr.resolve]
  | property _ _ _ d _ _ | method _ _ _ d _ _ | staticProperty _ _ _ d _ _ | staticMethod _ _ _ d _ _
  | classAccess _ _ d _ _ | derived d _ _ => cases d <;> simp [Expr.resolve]

/-- A history of requests for the types of an expression of an open document (`hover.go:149-151`): the document keeps
its expressions until it is edited (`document.go:91-101`), the index may be another one each time. The answers, in order. -/
def answers (e : Expr) : List World → List Union
  | [] => []
  | w :: ws => (e.resolve w).getTypes :: answers (e.resolve w) ws

/-- Once asked for, the types of an expression stay the same until the document is edited. Missing: that they are those
of the current state of the other files. -/
theorem C75_stable_partial (e : Expr) (w : World) (ws : List World) :
    ∀ u ∈ answers e (w :: ws), u = e.typesIn w := by
  have : ∀ ws, ∀ u ∈ answers (e.resolve w) ws, u = e.typesIn w := by
    intro ws
    induction ws with
    | nil => intro u hu; cases hu
    | cons w' ws ih =>
      intro u hu
      simp only [answers, resolve_resolve, List.mem_cons] at hu
      exact hu.elim id (ih u)
  intro u hu
  exact (List.mem_cons.1 hu).elim id (this ws u)

/-- Another file is edited so that `find()` returns a `User`: the call in an open document is still shown as a `Repo`,
while in a document that is opened now it is a `User`. -/
theorem C75_false_stale : ∃ (e : Expr) (w w' : World), (∃ p r, (r, e) ∈ analyse [] p) ∧
    answers e [w, w'] = [[tyRepo], [tyRepo]] ∧ e.typesIn w' = [tyUser] := by
  refine ⟨.call b!"find" [] false, World.of sampleIndex,
    World.of { sampleIndex with functions := fun n => if n = b!"find" then [tyUser] else [] }, ?_, by decide +kernel,
    by decide +kernel⟩
  exact ⟨.call (cols 0 6) b!"find" .skip .skip, cols 0 6, by decide +kernel⟩

/-- Three requests for `$repo->all()`, the index changes in between. -/
example : answers (.method [] b!"all" [] false (.variable b!"$repo" [tyRepo] false false .nothing))
    [World.of sampleIndex, World.of { sampleIndex with methods := fun _ _ _ _ => [] }, World.of sampleIndex] =
    [[tyUsers], [tyUsers], [tyUsers]] := by decide +kernel

end Verif.Infer
