import Verif.Analyser.Geometry
import Verif.Analyser.SampleFind
import Mathlib.Data.List.Nodup

/-!
C72: renaming a variable changes the variables of that name in the function around it.
-/

namespace Verif.Analyser
open Verif.Symbols (Tree Var Rec Info Inside Touches)
open Verif.Position (Before)

/-! ### specification -/

/-- Inside the node `m`, which is at the place `σ`, there is the node `n`, at the place `σ'`: the place changes at
functions, methods and closures. -/
inductive Sits (c : Ctx) : Place → Node → Place → Node → Prop
  | here (σ : Place) (n : Node) : Sits c σ n σ n
  | inside {σ σ' : Place} {ty : PType} {ks : List Node} {k n : Node} : k ∈ ks →
      Sits c (if ty.isFunction then ⟨c.range (.phr ty ks), some σ.scope⟩ else σ) k σ' n → Sits c σ (.phr ty ks) σ' n

/-- In the document there is the node `n`; the range of the function around it is `σ.scope` (that of the document,
outside of functions), and `σ.outer` is the range of what is around that function. -/
def SitsIn (c : Ctx) (root : Node) (σ : Place) (n : Node) : Prop := ∃ k ∈ root.kids, Sits c ⟨c.range root, none⟩ k σ n

/-- The variable `n` belongs to the function with the range `f`: it is written there, or it is in the `use` of a closure
that is written there. -/
def BelongsTo (c : Ctx) (root : Node) (n : Node) (f : Rng) : Prop :=
  ∃ σ, SitsIn c root σ n ∧ (σ.scope = f ∨ n.isPhrase .anonymousFunctionUseVariable = true ∧ σ.outer = some f)

/-- There is no function in the node. -/
def plainCode (n : Node) : Bool := (typesIn n).all fun ty => !ty.isFunction

/-! ### places -/

section
variable {c : Ctx} {root : Node}

mutual

theorem sits_of : ∀ (m : Node) (σ : Place) (x : Place × Node), x ∈ placesIn (places c) σ m → Sits c σ m x.1 x.2
  | .tok t, σ, x, h => by simp only [placesIn, List.mem_singleton] at h; subst h; exact .here ..
  | .err t, σ, x, h => by simp only [placesIn, List.mem_singleton] at h; subst h; exact .here ..
  | .phr ty ks, σ, x, h => by
    rw [placesIn, List.mem_cons] at h
    rcases h with rfl | h
    · exact .here ..
    · obtain ⟨k, hk, h⟩ := sits_ofs ks _ x h
      exact .inside hk h

theorem sits_ofs : ∀ (ks : List Node) (σ : Place) (x : Place × Node), x ∈ placesInAll (places c) σ ks → ∃ k ∈ ks, Sits c σ k x.1 x.2
  | [], _, x, h => by simp [placesInAll] at h
  | k :: ks, σ, x, h => by
    rw [placesInAll, List.mem_append] at h
    rcases h with h | h
    · exact ⟨k, by simp, sits_of k σ x h⟩
    · obtain ⟨k', hk, h⟩ := sits_ofs ks σ x h
      exact ⟨k', by simp [hk], h⟩

end

theorem mem_placesInAll {S : Type} {L : Levels S} {σ : S} {ks : List Node} {k : Node} (hk : k ∈ ks) {x : S × Node}
    (h : x ∈ placesIn L σ k) : x ∈ placesInAll L σ ks := by
  induction ks with
  | nil => simp at hk
  | cons y ks ih =>
    rw [placesInAll, List.mem_append]
    rcases List.mem_cons.mp hk with rfl | hk
    · exact .inl h
    · exact .inr (ih hk)

theorem Sits.mem {σ σ' : Place} {m n : Node} (h : Sits c σ m σ' n) : (σ', n) ∈ placesIn (places c) σ m := by
  induction h with
  | here σ n => cases n <;> simp [placesIn]
  | inside hk _ ih => rw [placesIn]; exact List.mem_cons_of_mem _ (mem_placesInAll hk ih)

theorem sitsIn_iff {σ : Place} {n : Node} : SitsIn c root σ n ↔ PlacedIn c root σ n := by
  constructor
  · rintro ⟨k, hk, h⟩; exact mem_placesInAll hk h.mem
  · exact fun h => sits_ofs _ _ _ h

theorem Occurs.sits {e e' : Env} {m n : Node} (h : Occurs c e m e' n) : Sits c ⟨e.scope, e.outer⟩ m ⟨e'.scope, e'.outer⟩ n := by
  induction h with
  | here => exact .here ..
  | @inside e e' ty ks k n h1 h2 hk _ ih =>
    refine .inside hk ?_
    have : (⟨(e.enter c ty ks).scope, (e.enter c ty ks).outer⟩ : Place) =
        if ty.isFunction then ⟨c.range (.phr ty ks), some e.scope⟩ else ⟨e.scope, e.outer⟩ := by
      cases ty <;> rfl
    rwa [this] at ih

theorem InDocument.sits {e : Env} {n : Node} (h : InDocument c root e n) : SitsIn c root ⟨e.scope, e.outer⟩ n := by
  obtain ⟨before, k, after, hk, h⟩ := h
  exact ⟨k, by rw [hk]; simp, h.sits⟩

mutual

theorem plain_places {S : Type} {L : Levels S} : ∀ (n : Node) (σ : S), (∀ ty ∈ typesIn n, ty.isFunction = false) →
    ∀ x ∈ placesIn L σ n, x.2.isFunction = false
  | .tok t, σ, _, x, h => by simp only [placesIn, List.mem_singleton] at h; subst h; rfl
  | .err t, σ, _, x, h => by simp only [placesIn, List.mem_singleton] at h; subst h; rfl
  | .phr ty ks, σ, ht, x, h => by
    rw [placesIn, List.mem_cons] at h
    rw [typesIn] at ht
    rcases h with rfl | h
    · exact ht ty (by simp)
    · exact plain_placess ks _ (fun ty h => ht ty (by simp [h])) x h

theorem plain_placess {S : Type} {L : Levels S} : ∀ (ks : List Node) (σ : S), (∀ ty ∈ typesInAll ks, ty.isFunction = false) →
    ∀ x ∈ placesInAll L σ ks, x.2.isFunction = false
  | [], _, _, x, h => by simp [placesInAll] at h
  | k :: ks, σ, ht, x, h => by
    rw [placesInAll, List.mem_append] at h
    rw [typesInAll] at ht
    rcases h with h | h
    · exact plain_places k σ (fun ty h => ht ty (by simp [h])) x h
    · exact plain_placess ks σ (fun ty h => ht ty (by simp [h])) x h

end

/-- What is renamed: the recordings of the name in the table at the position. -/
theorem mem_rename {pos : Pos} {newName : Bytes} {x : Rng × Bytes} (h : x ∈ rename c root pos newName) :
    x.2 = newName ∧ ∃ t, Symbols.hasTypesAtPos (infosOf c root) pos = some t ∧ t.info.kind = .variable ∧
      ∃ y ∈ (scopeAt pos (scopesOf c root)).info.2, y.v.name = t.info.tag ∧ y.v.range = x.1 := by
  unfold rename at h
  split at h
  · next t ht =>
    split at h
    · next hk =>
      obtain ⟨y, hy, rfl⟩ := List.mem_map.mp h
      refine ⟨rfl, t, ht, hk, ?_⟩
      obtain ⟨P, hP⟩ := Symbols.record_inv (scopeAt pos (scopesOf c root)).info.2 t.info.tag
      rw [← hP.list] at hy
      obtain ⟨⟨k, y'⟩, hm, rfl⟩ := List.mem_map.mp hy
      have := hP.sound k y' hm
      exact ⟨_, List.mem_of_getElem? this.1, this.2, rfl⟩
    · simp at h
  · simp at h

theorem rename_mem {pos : Pos} {newName : Bytes} {t : Tree Info} (ht : Symbols.hasTypesAtPos (infosOf c root) pos = some t)
    (hk : t.info.kind = .variable) {y : Rec} (hy : y ∈ (scopeAt pos (scopesOf c root)).info.2) (hn : y.v.name = t.info.tag) :
    (y.v.range, newName) ∈ rename c root pos newName := by
  unfold rename
  rw [ht]
  simp only [hk, if_true]
  obtain ⟨P, hP⟩ := Symbols.record_inv (scopeAt pos (scopesOf c root)).info.2 t.info.tag
  obtain ⟨k, hk'⟩ := List.getElem?_of_mem hy
  obtain ⟨x, hx⟩ := hP.complete k y ⟨hk', hn⟩
  have hs := (hP.sound k x hx).1
  rw [hk'] at hs
  injection hs with hs
  refine List.mem_map.mpr ⟨x, ?_, by rw [hs]⟩
  rw [← hP.list]
  exact List.mem_map.mpr ⟨_, hx, rfl⟩

theorem lookupKind_variable {s : Sym} (h : (infoOf s).kind = .variable) : s.kind = .variable := by
  obtain ⟨k, r, n, sc⟩ := s
  cases k <;> first | rfl | cases h

/-- The recordings in the table at a position belong to the function of the table. -/
theorem rec_belongs {pos : Pos} {y : Rec} (hy : y ∈ (scopeAt pos (scopesOf c root)).info.2) :
    ∃ n, BelongsTo c root n (scopeAt pos (scopesOf c root)).info.1 ∧ c.range n = y.v.range ∧
      (n.isVariable = true ∧ c.nodeText n = y.v.name ∨ n.isPhrase .parameterDeclaration = true ∧ y.v.name = []) := by
  have hmem : (scopeAt pos (scopesOf c root)).info ∈ (analyse c root).scopes :=
    List.mem_append_left _ (scopeAt_mem pos (scopesOf c root)).1
  rcases (real_all c root).recs _ hmem y hy with ⟨σ, hσ, n, hn, hr, h⟩ | ⟨σ, n, hσ, hn, hu, hr, h⟩
  · exact ⟨n, ⟨σ, sitsIn_iff.mpr hn, .inl hσ⟩, hr, h⟩
  · refine ⟨n, ⟨σ, sitsIn_iff.mpr hn, .inr ⟨hu, hσ⟩⟩, hr, .inl ⟨?_, h⟩⟩
    cases n with
    | phr ty ks => simp only [Node.isPhrase, decide_eq_true_eq] at hu; subst hu; rfl
    | tok t => cases hu
    | err t => cases hu

/-! ### C72 -/

/-- C72: every edit puts the new name in the place of a variable that has the name of the variable at the position. Both
are in the document, and the variable belongs to a function around the position or to the document. (Parameters that lack
their name after a syntax error have the empty name.) -/
theorem C72_sound {pos : Pos} {newName text : Bytes} {r : Rng} (h : (r, text) ∈ rename c root pos newName) :
    text = newName ∧ ∃ σ m n f, SitsIn c root σ m ∧ m.isVariable = true ∧ Touches pos (c.range m) ∧
      c.range n = r ∧ BelongsTo c root n f ∧ (f = c.range root ∨ Inside pos f) ∧
      (n.isVariable = true ∧ c.nodeText n = c.nodeText m ∨ n.isPhrase .parameterDeclaration = true ∧ c.nodeText m = []) := by
  obtain ⟨rfl, t, ht, hk, y, hy, hn, hr⟩ := mem_rename h
  refine ⟨rfl, ?_⟩
  obtain ⟨s, h1, h2, h3⟩ := atPos_symbol ht
  rw [← h2] at hk hn
  have hsk := lookupKind_variable hk
  have hp := ((real_all c root).syms s (by rw [St.syms]; exact List.mem_append_left _ h1)).1
  unfold Sited at hp
  rw [hsk] at hp
  obtain ⟨m, ⟨σ, hm⟩, hv, hmr, hmn⟩ := hp
  obtain ⟨n, hb, hnr, hnn⟩ := rec_belongs hy
  refine ⟨σ, m, n, _, sitsIn_iff.mpr hm, hv, by rw [← hmr]; exact h3, hnr.trans hr, hb, ?_, ?_⟩
  · rcases (scopeAt_mem pos (scopesOf c root)).2 with h | h
    · left
      rw [h]
      exact ((closed_grow c True True).analyse (σ := ()) root (fun _ _ => trivial) (fun _ _ _ => trivial) fun _ => trivial).vars.range
    · exact .inr h
  · have e : y.v.name = c.nodeText m := by rw [hn, ← hmn]; rfl
    rw [← e]
    exact hnn

/-- The cursor is on a variable: the table at the position is that of the function around it. -/
theorem cursor_function (hp : Parsed c root) (hs : Supported c root) {e : Env} {ks : List Node}
    (hm : InDocument c root e (.phr .simpleVariable ks)) (ht : plainCode (.phr .simpleVariable ks) = true) {pos : Pos}
    (hpos : Inside pos (c.range (.phr .simpleVariable ks))) : (scopeAt pos (scopesOf c root)).info.1 = e.scope := by
  refine scopeAt_function hp (σ := ⟨e.scope, e.outer⟩) (sitsIn_iff.mp hm.sits) ?_ rfl hpos ?_
  · refine plain_placess _ _ fun ty hty => ?_
    have := List.all_eq_true.mp ht ty (by rw [typesIn]; exact List.mem_cons_of_mem _ hty)
    simpa using this
  · obtain ⟨recs, h, -⟩ := C67_variable_partial hs hm
    exact ⟨recs, h⟩

/-- C72 (partial: for code that is `Parsed` and `Supported`). With the cursor on a variable, only variables of the function
around it are changed, and those in the `use` of closures in that function. -/
theorem C72_function_partial (hp : Parsed c root) (hs : Supported c root) {e : Env} {ks : List Node}
    (hm : InDocument c root e (.phr .simpleVariable ks)) (ht : plainCode (.phr .simpleVariable ks) = true) {pos : Pos}
    (hpos : Inside pos (c.range (.phr .simpleVariable ks))) {newName text : Bytes} {r : Rng}
    (h : (r, text) ∈ rename c root pos newName) : ∃ n, c.range n = r ∧ BelongsTo c root n e.scope := by
  obtain ⟨-, t, -, -, y, hy, -, hr⟩ := mem_rename h
  obtain ⟨n, hb, hnr, -⟩ := rec_belongs hy
  rw [cursor_function hp hs hm ht hpos] at hb
  exact ⟨n, hnr.trans hr, hb⟩

/-- C72 (partial: as above, if no two functions have the same range). If the cursor is on a variable and the symbol found
there is a variable of that name, then every variable of that name in the same function gets the new name. Missing: the
variables that the analysis does not find, see C67; and see the negations below for closures. -/
theorem C72_complete_partial (hp : Parsed c root) (hs : Supported c root)
    (hd : ((scopeTree (scopesOf c root)).map Prod.fst).Nodup) {e e' : Env} {ks ks' : List Node}
    (hm : InDocument c root e (.phr .simpleVariable ks)) (ht : plainCode (.phr .simpleVariable ks) = true) {pos : Pos}
    (hpos : Inside pos (c.range (.phr .simpleVariable ks)))
    (hsym : ∃ t, Symbols.hasTypesAtPos (infosOf c root) pos = some t ∧ t.info.kind = .variable ∧
      t.info.tag = c.nodeText (.phr .simpleVariable ks))
    (hn : InDocument c root e' (.phr .simpleVariable ks')) (hscope : e'.scope = e.scope)
    (hname : c.nodeText (.phr .simpleVariable ks') = c.nodeText (.phr .simpleVariable ks)) (newName : Bytes) :
    (c.range (.phr .simpleVariable ks'), newName) ∈ rename c root pos newName := by
  obtain ⟨t, ht1, ht2, ht3⟩ := hsym
  obtain ⟨recs, h1, y, h2, h3, h4⟩ := C67_variable_partial hs hn
  have hf := cursor_function hp hs hm ht hpos
  have hmem := (scopeAt_mem pos (scopesOf c root)).1
  have heq : (scopeAt pos (scopesOf c root)).info = (e'.scope, recs) :=
    List.inj_on_of_nodup_map hd hmem h1 (by rw [hf, hscope])
  rw [← h4]
  refine rename_mem ht1 ht2 ?_ (by rw [h3, hname, ht3])
  rw [heq]
  exact h2

end

/-! ### examples -/

open Src in
/-- A function with a closure, and a variable of the same name outside. -/
def sampleRename : Src := doc [
  funDecl b!"f" [param b!"$a"] [
    stmt (assign (var b!"$b") (var b!"$a")),
    stmt (assign (var b!"$c") (closure [param b!"$z"] [use b!"$a"] [ret (plus (var b!"$a") (var b!"$z"))])),
    ret (call b!"g" [var b!"$a", var b!"$b"])],
  stmt (assign (var b!"$a") (call b!"f" [num b!"1"])),
  stmt (call b!"g" [var b!"$a"])]

example : sampleRename.text = b!"<?php\nfunction f($a){$b = $a;$c = function($z)use($a){return $a+$z;};return g($a,$b);}$a = f(1);g($a);" := by
  decide +kernel

theorem sampleRename_parsed : Parsed sampleRename.ctx sampleRename.root := Src.parsed _ (by decide +kernel)

theorem sampleRename_supported : Supported sampleRename.ctx sampleRename.root := by decide +kernel

/-- Where the edits begin. -/
def editsAt (s : Src) (pos : Pos) : List Int := (rename s.ctx s.root pos b!"$n").map (·.1.start.character)

/-- C72_sound, C72_function: with the cursor on `$b` in the function, both `$b` are changed; with the cursor on `$a` outside,
only those outside. -/
example : editsAt sampleRename ⟨1, 16⟩ = [15, 75] ∧ editsAt sampleRename ⟨1, 93⟩ = [80, 92] := by decide +kernel

/-- C72_function, C72_complete: the cursor on the first `$b`, and the last one. -/
example : ((scopeTree (scopesOf sampleRename.ctx sampleRename.root)).map Prod.fst).Nodup ∧
    (∃ e ks, InDocument sampleRename.ctx sampleRename.root e (.phr .simpleVariable ks) ∧
      (decide (e.scope = ⟨⟨1, 0⟩, ⟨1, 80⟩⟩ ∧ plainCode (.phr .simpleVariable ks) = true ∧
        sampleRename.ctx.range (.phr .simpleVariable ks) = ⟨⟨1, 15⟩, ⟨1, 17⟩⟩ ∧
        (Symbols.hasTypesAtPos (infosOf sampleRename.ctx sampleRename.root) ⟨1, 16⟩).any (fun t =>
          decide (t.info.kind = .variable ∧ t.info.tag = sampleRename.ctx.nodeText (.phr .simpleVariable ks))) = true)) = true) ∧
    (∃ e ks, InDocument sampleRename.ctx sampleRename.root e (.phr .simpleVariable ks) ∧
      (decide (e.scope = ⟨⟨1, 0⟩, ⟨1, 80⟩⟩ ∧ sampleRename.ctx.nodeText (.phr .simpleVariable ks) = b!"$b" ∧
        sampleRename.ctx.range (.phr .simpleVariable ks) = ⟨⟨1, 75⟩, ⟨1, 77⟩⟩)) = true) := by
  refine ⟨by decide +kernel, ?_, ?_⟩
  · exact phrase_of (P := fun e n => decide (e.scope = ⟨⟨1, 0⟩, ⟨1, 80⟩⟩ ∧ plainCode n = true ∧
        sampleRename.ctx.range n = ⟨⟨1, 15⟩, ⟨1, 17⟩⟩ ∧
        (Symbols.hasTypesAtPos (infosOf sampleRename.ctx sampleRename.root) ⟨1, 16⟩).any (fun t =>
          decide (t.info.kind = .variable ∧ t.info.tag = sampleRename.ctx.nodeText n)) = true)) [1,1,0,1,0,0,0] (by decide +kernel)
  · exact phrase_of (P := fun e n => decide (e.scope = ⟨⟨1, 0⟩, ⟨1, 80⟩⟩ ∧ sampleRename.ctx.nodeText n = b!"$b" ∧
        sampleRename.ctx.range n = ⟨⟨1, 75⟩, ⟨1, 77⟩⟩)) [1,1,0,1,2,2,1,3] (by decide +kernel)

/-! ### C72 is false -/

/-- C72 does not hold for closures: `use($a)` and the `$a` in the closure are the same variable, as is the `$a` around the
closure. With the cursor outside of the closure, the `$a` in `use` (at 44) is changed but not the one in the closure (at
55), so the closure uses a variable that it does not have. With the cursor in the closure, the `$a` in `use` and in the
closure are changed but not the ones around it, so `use` takes a variable that does not exist. -/
theorem C72_false_closure : Parsed sampleRename.ctx sampleRename.root ∧ Supported sampleRename.ctx sampleRename.root ∧
    editsAt sampleRename ⟨1, 73⟩ = [11, 20, 44, 72] ∧ editsAt sampleRename ⟨1, 56⟩ = [44, 55] :=
  ⟨sampleRename_parsed, sampleRename_supported, by decide +kernel, by decide +kernel⟩

/-- C72 does not hold with the cursor on a parameter: nothing is changed. -/
theorem C72_false_parameter : Parsed sampleRename.ctx sampleRename.root ∧ Supported sampleRename.ctx sampleRename.root ∧
    (∃ e ks, InDocument sampleRename.ctx sampleRename.root e (.phr .parameterDeclaration ks) ∧
      (decide (sampleRename.ctx.range (.phr .parameterDeclaration ks) = ⟨⟨1, 11⟩, ⟨1, 13⟩⟩)) = true) ∧
    editsAt sampleRename ⟨1, 12⟩ = [] :=
  ⟨sampleRename_parsed, sampleRename_supported,
    phrase_of (P := fun _ n => decide (sampleRename.ctx.range n = ⟨⟨1, 11⟩, ⟨1, 13⟩⟩)) [1,0,4,0] (by decide +kernel),
    by decide +kernel⟩

/-- C72 does not hold for variables that the analysis loses: in `$x = 1;f($x ?? 2);` the second `$x` (at 9) is not
changed. And in `$x = 1;$f = function($q)use(&$x){return $x;};` that in `use` (at 29) is not. -/
theorem C72_false_lost : editsAt lostCoalesce ⟨1, 1⟩ = [0] ∧ editsAt lostReference ⟨1, 1⟩ = [0] := by decide +kernel

open Src in
/-- `class A{function __construct($q){$this->a = $b = 1;}}` -/
def sampleTwice : Src := doc [classDecl b!"A" [
  methodDecl b!"__construct" [param b!"$q"] [
    stmt (assign (.p .propertyAccessExpression [var b!"$this", .t .arrow b!"->", .p .memberName [nm b!"a"]])
      (assign (var b!"$b") (num b!"1")))]]]

/-- C72 does not hold for constructors: a variable that is assigned to on the right of an assignment to a property is
recorded twice, and there are two edits for one place, which clients refuse. -/
theorem C72_false_twice : editsAt sampleTwice ⟨1, 45⟩ = [44, 44] := by decide +kernel

end Verif.Analyser
