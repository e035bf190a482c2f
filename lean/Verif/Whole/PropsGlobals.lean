import Verif.Decl.Globals
import Verif.Whole.PropsTypes

/-! C135: what is known about global variables, from the `global` statements of the files. -/

namespace Verif.Whole

open Verif.Encoding Verif.Store Verif.Decl
open Verif.Analyser (Node PType)

variable {env : Store.Env} {root : Bytes} {h : List HOp} {s : Store}

/-! ### Model -/

/-- The `GlobalVariable` (`globalVariable.go:10-16`) in the model of the index. -/
def toGlobal (uri : Bytes) (r : GlobalRec) : GlobalVariable :=
  { location := Show.toLocation uri r.range, description := r.description, name := r.name, types := r.types.map Show.toType }

/-! ### Specification -/

/-- The symbol as a global variable. -/
def asGlobal : Sym → Option GlobalVariable
  | .gloVar g => some g
  | _ => none

/-- The global variables among the symbols of the document are those of `es`. -/
def GlobalsFrom (d : Store.Doc) (es : List GlobalEvent) : Prop :=
  d.symbols.filterMap asGlobal = (globalsOf es).map (toGlobal d.uri) ∧
    ∀ e v, .declare e v ∈ es → e.ctx.nodeText v ≠ [] ∧ GlobalDocOK e v

/-- The file says that `n` is a type of the global variable `name`: the last of its `global` statements for the variable
that has any type has this one. -/
def FileGives (es : List GlobalEvent) (name n : Bytes) : Prop :=
  ∃ pre e v post, es = pre ++ .declare e v :: post ∧ e.ctx.nodeText v = name ∧ GlobalHas pre post e v n ∧
    ∀ pre' e' v' post', es = pre' ++ .declare e' v' :: post' → pre.length < pre'.length → e'.ctx.nodeText v' = name →
      ∀ n', RealType n' → ¬ GlobalHas pre' post' e' v' n'

/-! ### Proofs -/

theorem declaredCount_append (a b : List GlobalEvent) : declaredCount (a ++ b) = declaredCount a + declaredCount b := by
  induction a with
  | nil => simp [declaredCount]
  | cons e a ih => cases e <;> simp [declaredCount, ih] <;> omega

theorem declared_at (es : List GlobalEvent) (i : Nat) (hi : i < declaredCount es) :
    ∃ pre e v post, es = pre ++ .declare e v :: post ∧ declaredCount pre = i := by
  induction es generalizing i with
  | nil => simp [declaredCount] at hi
  | cons a es ih =>
    cases a with
    | declare e v =>
      cases i with
      | zero => exact ⟨[], e, v, es, rfl, rfl⟩
      | succ i =>
        obtain ⟨pre, e', v', post, rfl, hp⟩ := ih i (by simp [declaredCount] at hi; omega)
        exact ⟨.declare e v :: pre, e', v', post, rfl, by simp [declaredCount, hp]⟩
    | assign nm t =>
      obtain ⟨pre, e', v', post, rfl, hp⟩ := ih i (by simpa [declaredCount] using hi)
      exact ⟨.assign nm t :: pre, e', v', post, rfl, by simp [declaredCount, hp]⟩

/-- Of two declarations in a document, the one that comes later has more before it. -/
theorem later_count {es pre pre' post post' : List GlobalEvent} {e e' : Decl.Env} {v v' : Node}
    (h1 : es = pre ++ .declare e v :: post) (h2 : es = pre' ++ .declare e' v' :: post') :
    pre.length < pre'.length ↔ declaredCount pre < declaredCount pre' := by
  have key : ∀ {pre pre' post post' : List GlobalEvent} {e e' : Decl.Env} {v v' : Node},
      es = pre ++ .declare e v :: post → es = pre' ++ .declare e' v' :: post' → pre.length < pre'.length →
      declaredCount pre < declaredCount pre' := by
    intro pre pre' post post' e e' v v' h1 h2 hl
    have : pre ++ [.declare e v] <+: pre' := by
      refine List.prefix_of_prefix_length_le (l₃ := es) ⟨post, by rw [h1]; simp⟩ ⟨_, h2.symm⟩ (by simp; omega)
    obtain ⟨r, rfl⟩ := this
    simp only [declaredCount_append, declaredCount]
    omega
  refine ⟨key h1 h2, fun hc => ?_⟩
  by_contra hl
  rcases Nat.lt_or_ge pre'.length pre.length with h | h
  · have := key h2 h1 h; omega
  · have hp : pre <+: es := ⟨_, h1.symm⟩
    have hp' : pre' <+: es := ⟨_, h2.symm⟩
    have : pre = pre' := (List.prefix_of_prefix_length_le hp hp' (by omega)).eq_of_length (by omega)
    subst this
    omega

/-- C135: a `global` statement with a list of variables declares each of them. -/
theorem C135_declared (e : Decl.Env) (ty : PType) (ks ls vs : List Node)
    (hl : OnlyPhrase .variableNameList ks (.phr .variableNameList ls)) (hv : Listed .simpleVariable ls vs) :
    Decl.newGlobalDeclaration e (.phr ty ks) = vs.map (newGlobalVariable e) := by
  have h1 : ∀ {ty : PType} {ks es : List Node}, Listed ty ks es → ks.filter (fun k => typ? k = some ty) = es := by
    intro ty ks es h
    induction h with
    | nil => rfl
    | take hk _ ih => rw [List.filter_cons_of_pos (by simpa using (typ_iff _ _).2 hk), ih]
    | skip hk _ ih => rw [List.filter_cons_of_neg (by simpa using fun h => hk ((typ_iff _ _).1 h)), ih]
  obtain ⟨pre, post, rfl, -, hn⟩ := hl
  have none : ∀ l : List Node, (∀ k ∈ l, k ∈ pre ++ post) → l.filter (fun k => typ? k = some PType.variableNameList) = [] := by
    intro l hl
    refine List.filter_eq_nil_iff.2 fun k hk hc => hn k (hl k hk) ((typ_iff _ _).1 (by simpa using hc))
  unfold Decl.newGlobalDeclaration globalNames
  rw [show (Node.phr ty (pre ++ .phr .variableNameList ls :: post)).kids = pre ++ .phr .variableNameList ls :: post from rfl,
    List.filter_append, none pre (fun k hk => by simp [hk]), List.nil_append, List.filter_cons_of_pos (by rfl),
    none post (fun k hk => by simp [hk])]
  simp only [List.flatMap_cons, List.flatMap_nil, List.append_nil]
  rw [show (Node.phr PType.variableNameList ls).kids = ls from rfl, h1 hv]

/-- C135 for one file: each variable of a `global` statement is recorded, at its place, with the types that the doc comment
above gives it, and, for the first statement for the variable, the types of what is assigned to it later. -/
theorem C135_file (pre post : List GlobalEvent) (e : Decl.Env) (v : Node) (hname : e.ctx.nodeText v ≠ [])
    (hok : GlobalDocOK e v) :
    ∃ r, (globalsOf (pre ++ .declare e v :: post))[declaredCount pre]? = some r ∧ r.name = e.ctx.nodeText v ∧
      r.range = e.ctx.range v ∧ ∀ n, RealType n → (n ∈ r.types.map Types.Ty.fqn ↔ GlobalHas pre post e v n) := by
  have hl := globalsOf_length pre
  have e1 : globalsOf (pre ++ .declare e v :: post) = post.foldl globalStep (globalsOf pre ++ [newGlobalVariable e v]) := by
    unfold globalsOf
    rw [List.foldl_append, List.foldl_cons]
    rfl
  obtain ⟨h1, h2, h3, h4⟩ := newGlobalVariable_spec e v hname hok
  obtain ⟨r, k1, k2, k3, -, k5⟩ := after_declare (declaredCount pre) post (globalsOf pre ++ [newGlobalVariable e v])
    (newGlobalVariable e v) (by rw [← hl]; simp)
  refine ⟨r, by rw [e1]; exact k1, k2.trans h1, k3.trans h2, fun n hn => (k5 n hn).trans ?_⟩
  rw [h4, h1]
  unfold GlobalHas
  refine or_congr Iff.rfl (and_congr ?_ Iff.rfl)
  rw [declared_iff, List.mem_map]
  constructor
  · rintro hno ⟨q, hq, hqn⟩
    obtain ⟨j, hj⟩ := List.mem_iff_getElem?.1 hq
    have hjl := (List.getElem?_eq_some_iff.1 hj).1
    exact hno j (by omega) q (by rw [List.getElem?_append_left hjl]; exact hj) hqn
  · intro hno j hj q hq hqn
    rw [List.getElem?_append_left (by omega)] at hq
    exact hno ⟨q, List.mem_of_getElem? hq, hqn⟩

theorem types_indexed (uri : Bytes) (r : GlobalRec) :
    typesEmpty (toGlobal uri r).types = false ↔ ∃ n, RealType n ∧ n ∈ r.types.map Types.Ty.fqn := by
  rw [← Bool.not_eq_true]
  unfold typesEmpty
  rw [List.all_eq_true]
  push Not
  constructor
  · rintro ⟨t, ht, hn⟩
    obtain ⟨q, hq, rfl⟩ := List.mem_map.1 ht
    have hn : RealType q.fqn := by
      constructor <;> intro h <;> refine hn ?_ <;> simp [Show.toType, h]
    exact ⟨q.fqn, hn, List.mem_map.2 ⟨q, hq, rfl⟩⟩
  · rintro ⟨n, hn, hm⟩
    obtain ⟨q, hq, rfl⟩ := List.mem_map.1 hm
    refine ⟨Show.toType q, List.mem_map.2 ⟨q, hq, rfl⟩, ?_⟩
    intro hc
    simp only [Show.toType, Bool.or_eq_true, beq_iff_eq] at hc
    exact hc.elim hn.1 hn.2

/-- Which global variables are current. -/
theorem live_global (L : Bytes → Option Store.Doc) (g : GlobalVariable) :
    Live env L (.gloVar g) ↔ ∃ u d gpre gpost, L u = some d ∧ d.symbols.filterMap asGlobal = gpre ++ g :: gpost ∧
      typesEmpty g.types = false ∧ ∀ g' ∈ gpost, typesEmpty g'.types = false → g'.name ≠ g.name := by
  constructor
  · rintro ⟨u, d, pre, post, hL, hd, hi, hno⟩
    refine ⟨u, d, pre.filterMap asGlobal, post.filterMap asGlobal, hL, by rw [hd]; simp [asGlobal], hi, fun g' hg' hi' hn => ?_⟩
    obtain ⟨y, hy, he⟩ := List.mem_filterMap.1 hg'
    cases y <;> simp only [asGlobal, reduceCtorEq, Option.some.injEq] at he
    subst he
    exact hno _ hy ⟨hi', rfl, by simp [Sym.path, hn], trivial⟩
  · rintro ⟨u, d, gpre, gpost, hL, hd, hi, hno⟩
    obtain ⟨l1, l2, e, e1, e2⟩ := List.filterMap_eq_append_iff.1 hd
    obtain ⟨l3, x, l4, rfl, hx, ha, hp⟩ := List.filterMap_eq_cons_iff.1 e2
    have : x = .gloVar g := by
      cases x <;> simp only [asGlobal, reduceCtorEq, Option.some.injEq] at ha
      subst ha; rfl
    subst this
    refine ⟨u, d, l1 ++ l3, l4, hL, by rw [e]; simp, hi, ?_⟩
    rintro y hy ⟨hi', hk, hpath, -⟩
    cases y with
    | gloVar g' =>
      refine hno g' (by rw [← hp]; exact List.mem_filterMap.2 ⟨_, hy, rfl⟩) hi' ?_
      simpa [Sym.path] using hpath.symm
    | _ => cases hk

/-- The current global variables of a name and their types, in terms of the files. -/
theorem global_types (L : Bytes → Option Store.Doc) (ev : Bytes → List GlobalEvent)
    (hev : ∀ u d, L u = some d → GlobalsFrom d (ev u)) (name n : Bytes) (hn : RealType n) :
    (∃ g, Live env L (.gloVar g) ∧ g.name = name ∧ n ∈ g.types.map TypeString.fqn) ↔
      ∃ u d, L u = some d ∧ FileGives (ev u) name n := by
  have fq : ∀ (uri : Bytes) (r : GlobalRec), (toGlobal uri r).types.map TypeString.fqn = r.types.map Types.Ty.fqn := by
    intro uri r
    simp only [toGlobal, List.map_map]
    rfl
  have at_ : ∀ {u d pre e v post}, L u = some d → ev u = pre ++ .declare e v :: post →
      ∃ r, (globalsOf (ev u))[declaredCount pre]? = some r ∧ r.name = e.ctx.nodeText v ∧
        ∀ n, RealType n → (n ∈ r.types.map Types.Ty.fqn ↔ GlobalHas pre post e v n) := by
    intro u d pre e v post hL he
    obtain ⟨h1, h2⟩ := (hev u d hL).2 e v (by rw [he]; simp)
    obtain ⟨r, k1, k2, -, k4⟩ := C135_file pre post e v h1 h2
    exact ⟨r, by rw [he]; exact k1, k2, k4⟩
  constructor
  · rintro ⟨g, hg, rfl, hm⟩
    obtain ⟨u, d, gpre, gpost, hL, hd, hi, hno⟩ := (live_global L g).1 hg
    refine ⟨u, d, hL, ?_⟩
    rw [(hev u d hL).1] at hd
    have hlen := congrArg List.length hd
    simp only [List.length_map, List.length_append, List.length_cons] at hlen
    obtain ⟨pre, e, v, post, he, hc⟩ := declared_at (ev u) gpre.length (by rw [← globalsOf_length]; omega)
    obtain ⟨r, k1, k2, k3⟩ := at_ hL he
    have hr : toGlobal d.uri r = g := by
      have := congrArg (fun l => l[gpre.length]?) hd
      simp only [List.getElem?_map] at this
      rw [← hc, k1, hc] at this
      simpa using this
    subst hr
    rw [fq] at hm
    refine ⟨pre, e, v, post, he, k2.symm, (k3 n hn).1 hm, fun pre' e' v' post' he' hlt hn' n' hty hh => ?_⟩
    obtain ⟨r', j1, j2, j3⟩ := at_ hL he'
    have hlt := (later_count he he').1 hlt
    rw [hc] at hlt
    have hin : toGlobal d.uri r' ∈ gpost := by
      have := congrArg (fun l => l[declaredCount pre']?) hd
      simp only [List.getElem?_map] at this
      rw [j1, List.getElem?_append_right (by omega), show declaredCount pre' - gpre.length =
        (declaredCount pre' - gpre.length - 1) + 1 by omega, List.getElem?_cons_succ] at this
      exact List.mem_of_getElem? this.symm
    exact hno _ hin ((types_indexed _ _).2 ⟨n', hty, (j3 n' hty).2 hh⟩) (j2.trans hn')
  · rintro ⟨u, d, hL, pre, e, v, post, he, rfl, hh, hlast⟩
    obtain ⟨r, k1, k2, k3⟩ := at_ hL he
    refine ⟨toGlobal d.uri r, (live_global L _).2 ⟨u, d, ((globalsOf (ev u)).take (declaredCount pre)).map (toGlobal d.uri),
      ((globalsOf (ev u)).drop (declaredCount pre + 1)).map (toGlobal d.uri), hL, ?_,
      (types_indexed _ _).2 ⟨n, hn, (k3 n hn).2 hh⟩, ?_⟩, k2, by rw [fq]; exact (k3 n hn).2 hh⟩
    · rw [(hev u d hL).1, ← List.map_cons, ← List.map_append]
      congr 1
      obtain ⟨hlt, hk⟩ := List.getElem?_eq_some_iff.1 k1
      rw [← hk, ← List.drop_eq_getElem_cons hlt, List.take_append_drop]
    · intro g' hg' hi' hname
      obtain ⟨r', hr', rfl⟩ := List.mem_map.1 hg'
      obtain ⟨j, hj⟩ := List.mem_iff_getElem?.1 hr'
      rw [List.getElem?_drop] at hj
      obtain ⟨pre', e', v', post', he', hc⟩ := declared_at (ev u) (declaredCount pre + 1 + j) (by
        have := (List.getElem?_eq_some_iff.1 hj).1
        rwa [globalsOf_length] at this)
      obtain ⟨r'', j1, j2, j3⟩ := at_ hL he'
      rw [hc, hj] at j1
      obtain rfl := Option.some.inj j1
      obtain ⟨n', hty, hm⟩ := (types_indexed _ _).1 hi'
      exact hlast pre' e' v' post' he' ((later_count he he').2 (by omega)) (j2.symm.trans (hname.trans k2)) n' hty
        ((j3 n' hty).1 hm)

/-- C135: after any history, what is known about a global variable by its name is what the current files say about it:
every type that one of them gives, and nothing else. -/
theorem C135_known (he : EnvOK env) (hok : HistOK env h) (hs : run env root h = some s) (ev : Bytes → List GlobalEvent)
    (hev : ∀ u d, latest h u = some d → GlobalsFrom d (ev u)) (name n : Bytes) (hn : RealType n) :
    (∃ g ∈ (s.getGlobalVariables name).getD [], n ∈ g.types.map TypeString.fqn) ↔
      ∃ u d, latest h u = some d ∧ FileGives (ev u) name n := by
  rw [← global_types (env := env) (latest h) ev hev name n hn]
  constructor
  · rintro ⟨g, hg, hm⟩
    obtain ⟨h1, h2⟩ := (mem_globals he hok hs name g).1 hg
    exact ⟨g, h1, h2, hm⟩
  · rintro ⟨g, h1, h2, hm⟩
    exact ⟨g, (mem_globals he hok hs name g).2 ⟨h1, h2⟩, hm⟩

/-- C135, for the types of expressions: what `C133_nothing_made_up` and `C133_known` take for the types of a global
variable are the types that the current files give it. -/
theorem C135_in_expressions (ev : Bytes → List GlobalEvent) (hev : ∀ u d, latest h u = some d → GlobalsFrom d (ev u))
    (last : Imports.Table) (o : Infer.Outside) (ho : Declared env (latest h) last o) (name n : Bytes) (hn : RealType n) :
    (∃ t ∈ o.globals name, t.fqn = n) ↔ ∃ u d, latest h u = some d ∧ FileGives (ev u) name n := by
  rw [← global_types (env := env) (latest h) ev hev name n hn]
  constructor
  · rintro ⟨t, ht, rfl⟩
    obtain ⟨g, h1, h2, h3⟩ := (ho.globals name t).1 ht
    obtain ⟨q, hq, rfl⟩ := List.mem_map.1 h3
    exact ⟨g, h1, h2, List.mem_map.2 ⟨q, hq, rfl⟩⟩
  · rintro ⟨g, h1, h2, hm⟩
    obtain ⟨q, hq, rfl⟩ := List.mem_map.1 hm
    exact ⟨Show.ofType q, (ho.globals name _).2 ⟨g, h1, h2, List.mem_map.2 ⟨q, hq, rfl⟩⟩, rfl⟩

/-- C135 promises nothing about descriptions: what a `@global` tag says about its variable is dropped. -/
theorem C135_no_description (e : Decl.Env) (v : Node) (hname : e.ctx.nodeText v ≠ []) (hok : GlobalDocOK e v) :
    (newGlobalVariable e v).description = [] := (newGlobalVariable_spec e v hname hok).2.2.1

/-! ### Examples -/

namespace Demo

open Verif.Analyser (Src)

/-- `/** @global type var the one */` -/
def gDoc (type var : Bytes) : Src :=
  .p .documentComment
    [tk b!"/** ", .p (.docTag 0) [.t .docTagName b!"@global", ws b!" ", .p .typeDeclaration [nm type], ws b!" ",
      .t .variableName var, ws b!" ", .p docDescription [tk b!"the one"]], tk b!" */"]

/-- `global $x, $y;` under a doc comment, and `global $x;` under another one. -/
def gSrc : Src :=
  .p (.opaque 0) [tk b!"<?php\n", gDoc b!"Foo" b!"$x", ws b!"\n",
    .p .globalDeclaration [tk b!"global", ws b!" ", .p .variableNameList
      [.p .simpleVariable [.t .variableName b!"$x"], tk b!",", ws b!" ", .p .simpleVariable [.t .variableName b!"$y"]], tk b!";"],
    ws b!"\n", gDoc b!"Bar" b!"$x", ws b!"\n",
    .p .globalDeclaration [tk b!"global", ws b!" ", .p .variableNameList [.p .simpleVariable [.t .variableName b!"$x"]], tk b!";"]]

def gPart (i : Nat) : Node := gSrc.root.kids.getD i gSrc.root
def gEnv0 : Decl.Env := { senv0 with ctx := gSrc.ctx }
/-- at the first statement -/
def gEnv1 : Decl.Env := { gEnv0 with doc := some (newPhpDoc gEnv0 (gPart 1)) }
/-- at the second statement -/
def gEnv2 : Decl.Env := { gEnv0 with doc := some (newPhpDoc gEnv0 (gPart 5)) }
/-- `$x`, `$y` and `$x` again -/
def gX : Node := sub (sub (gPart 3) 2) 0
def gY : Node := sub (sub (gPart 3) 2) 3
def gX2 : Node := sub (sub (gPart 7) 2) 0

theorem gX_doc : DocApplies gEnv1 gX (some (gPart 1)) := ⟨rfl, by decide +kernel⟩
theorem gY_doc : DocApplies gEnv1 gY (some (gPart 1)) := ⟨rfl, by decide +kernel⟩
theorem gX2_doc : DocApplies gEnv2 gX2 (some (gPart 5)) := ⟨rfl, by decide +kernel⟩

theorem gX_tag : GlobalTag gEnv1.ctx (gPart 1) (gEnv1.ctx.nodeText gX) (sub (gPart 1) 1) :=
  ⟨(gPart 1).kids.take 1, (gPart 1).kids.drop 2, rfl, IsTag.of 0 _ _ rfl rfl (by decide +kernel),
    ⟨_, OnlyToken.of_filter rfl, by decide +kernel⟩, by
      intro q hq ⟨⟨i, ks, e⟩, _⟩
      obtain rfl : q = sub (gPart 1) 0 := List.mem_singleton.1 hq
      cases e⟩

theorem gX2_tag : GlobalTag gEnv2.ctx (gPart 5) (gEnv2.ctx.nodeText gX2) (sub (gPart 5) 1) :=
  ⟨(gPart 5).kids.take 1, (gPart 5).kids.drop 2, rfl, IsTag.of 0 _ _ rfl rfl (by decide +kernel),
    ⟨_, OnlyToken.of_filter rfl, by decide +kernel⟩, by
      intro q hq ⟨⟨i, ks, e⟩, _⟩
      obtain rfl : q = sub (gPart 5) 0 := List.mem_singleton.1 hq
      cases e⟩

theorem gY_tag : NoGlobalTag gEnv1.ctx (gPart 1) (gEnv1.ctx.nodeText gY) := by
  intro q hq ht t hm hty
  have : q = sub (gPart 1) 0 ∨ q = sub (gPart 1) 1 ∨ q = sub (gPart 1) 2 := by
    have hq : q ∈ [sub (gPart 1) 0, sub (gPart 1) 1, sub (gPart 1) 2] := hq
    simpa using hq
  rcases this with rfl | rfl | rfl
  · obtain ⟨⟨_, _, e⟩, _⟩ := ht; cases e
  · have e : Node.tok t = sub (sub (gPart 1) 1) 4 := by
      have hm' : Node.tok t ∈ (sub (gPart 1) 1).kids.filter (fun k => tokType? k = some .variableName) :=
        List.mem_filter.2 ⟨hm, by simp [tokType?, hty]⟩
      exact List.mem_singleton.1 hm'
    cases e
    decide +kernel
  · obtain ⟨⟨_, _, e⟩, _⟩ := ht; cases e

theorem gX_ok : GlobalDocOK gEnv1 gX := .inr ⟨_, gX_doc, .inr ⟨_, gX_tag⟩⟩
theorem gY_ok : GlobalDocOK gEnv1 gY := .inr ⟨_, gY_doc, .inl gY_tag⟩
theorem gX2_ok : GlobalDocOK gEnv2 gX2 := .inr ⟨_, gX2_doc, .inr ⟨_, gX2_tag⟩⟩

/-- The file: both statements, and an assignment to `$y` in between. -/
def gEvents : List GlobalEvent :=
  [.declare gEnv1 gX, .declare gEnv1 gY, .assign b!"$y" [⟨b!"\\Baz", b!"Baz", 0⟩], .declare gEnv2 gX2]

/-- `b.php` with these variables -/
def gFile : Store.Doc where
  uri := Store.Demo.uB
  hash := b!"6"
  symbols := [.gloVar ⟨⟨Store.Demo.uB, ⟨⟨2, 7⟩, ⟨2, 9⟩⟩⟩, [⟨b!"\\Lib\\Foo", b!"Foo", 0⟩], [], b!"$x"⟩, .fn find,
    .gloVar ⟨⟨Store.Demo.uB, ⟨⟨2, 11⟩, ⟨2, 13⟩⟩⟩, [⟨b!"\\Baz", b!"Baz", 0⟩], [], b!"$y"⟩,
    .gloVar ⟨⟨Store.Demo.uB, ⟨⟨4, 7⟩, ⟨4, 9⟩⟩⟩, [⟨b!"\\App\\Bar", b!"Bar", 0⟩], [], b!"$x"⟩]
  namespaces := []
  refs := []

/-- `b.php` is indexed twice. -/
def gHist : List HOp := [.upgrade b!"v0.0.16", .index b5, .restart, .index gFile]

theorem gFile_ok : DocOK Store.Demo.env gFile where
  uri := Store.Demo.uB_ok
  len := by decide
  syms := by
    have : ∀ x ∈ gFile.symbols, x.WF := by
      simp [gFile, find, Sym.WF, Function.WF, GlobalVariable.WF, Location.WF, Store.Demo.loc, Store.Demo.uB, Str,
        Store.Demo.ty, TypeString.WF, Types.WF, ListWF, DeprecatedWF]
    intro x hx
    exact Store.Demo.sym_ok (this x hx) ((by decide +kernel : ∀ x ∈ gFile.symbols, ∀ n ∈ x.names, sep ∉ n) x hx)
      ((by decide +kernel : ∀ x ∈ gFile.symbols, x.location.uri = Store.Demo.uB) x hx)
      ((by decide +kernel : ∀ x ∈ gFile.symbols, (x.key Store.Demo.env).length < 1000) x hx)
  refsLen := by decide
  refs := by simp [gFile]

theorem gHist_ok : HistOK Store.Demo.env gHist where
  docs := by
    rw [show docs gHist = [b5, gFile] from rfl]
    simp [b5_ok, gFile_ok]
  consts := by
    intro d1 h1 d2 h2 c1 c2 m1 m2 _ _
    rw [show docs gHist = [b5, gFile] from rfl] at h1 h2
    simp only [List.mem_cons, List.not_mem_nil, or_false] at h1 h2
    rcases h1 with rfl | rfl <;> rcases h2 with rfl | rfl <;> rfl
  crashes := by simp [Store.Keeps, gHist]

theorem gHist_latest {u : Bytes} {d : Store.Doc} (hu : latest gHist u = some d) : d = gFile := by
  simp only [latest, gHist, List.foldl_cons, List.foldl_nil, latestStep] at hu
  split at hu
  · exact (Option.some.inj hu).symm
  · rename_i h2
    rw [if_neg (show ¬ u = b5.uri from h2)] at hu
    cases hu

theorem gHist_from (u : Bytes) (d : Store.Doc) (hu : latest gHist u = some d) : GlobalsFrom d gEvents := by
  rw [gHist_latest hu]
  refine ⟨by decide +kernel, fun e v hm => ?_⟩
  simp only [gEvents, List.mem_cons, List.not_mem_nil, or_false, GlobalEvent.declare.injEq, reduceCtorEq, false_or] at hm
  rcases hm with ⟨rfl, rfl⟩ | ⟨rfl, rfl⟩ | ⟨rfl, rfl⟩
  · exact ⟨by decide +kernel, gX_ok⟩
  · exact ⟨by decide +kernel, gY_ok⟩
  · exact ⟨by decide +kernel, gX2_ok⟩

theorem gX_documented : GlobalDocumented gEnv1 gX b!"\\Lib\\Foo" :=
  ((newGlobalVariable_spec gEnv1 gX (by decide +kernel) gX_ok).2.2.2 _).1 (by decide +kernel)

theorem gX2_documented : GlobalDocumented gEnv2 gX2 b!"\\App\\Bar" :=
  ((newGlobalVariable_spec gEnv2 gX2 (by decide +kernel) gX2_ok).2.2.2 _).1 (by decide +kernel)

theorem gX2_last {pre' post' : List GlobalEvent} {e' : Decl.Env} {v' : Node} (he : gEvents = pre' ++ .declare e' v' :: post') :
    ¬ 3 < pre'.length := by
  have := congrArg List.length he
  simp [gEvents] at this
  omega

theorem gX_given : FileGives gEvents b!"$x" b!"\\App\\Bar" :=
  ⟨gEvents.take 3, gEnv2, gX2, [], rfl, by decide +kernel, .inl gX2_documented,
    fun pre' e' v' post' he hlt => absurd hlt (gX2_last he)⟩

theorem gY_given : FileGives gEvents b!"$y" b!"\\Baz" := by
  refine ⟨gEvents.take 1, gEnv1, gY, gEvents.drop 2, rfl, by decide +kernel,
    .inr ⟨?_, [⟨b!"\\Baz", b!"Baz", 0⟩], ?_, by simp⟩, fun pre' e' v' post' he hlt hn => ?_⟩
  · rw [declared_iff]; decide +kernel
  · rw [show gEnv1.ctx.nodeText gY = b!"$y" by decide +kernel]; simp [gEvents]
  · have hl : pre'.length = 2 ∨ pre'.length = 3 := by
      have := gX2_last he
      have h1 : (gEvents.take 1).length = 1 := rfl
      omega
    have hi := congrArg (fun l => l[pre'.length]?) he
    simp only [List.getElem?_append_right (Nat.le_refl _), Nat.sub_self, List.getElem?_cons_zero] at hi
    rcases hl with hl | hl <;> rw [hl] at hi
    · cases hi
    · obtain ⟨rfl, rfl⟩ := GlobalEvent.declare.inj (Option.some.inj hi)
      exact absurd hn (by decide +kernel)

end Demo

/-- C135 speaks of the last statement with a type in a file: the types that a doc comment gives a variable in one `global`
statement are forgotten when another statement of the file gives it other ones. -/
theorem C135_needs_last_statement :
    GlobalDocumented Demo.gEnv1 Demo.gX b!"\\Lib\\Foo" ∧ .declare Demo.gEnv1 Demo.gX ∈ Demo.gEvents ∧
    Demo.gEnv1.ctx.nodeText Demo.gX = b!"$x" ∧ ¬ FileGives Demo.gEvents b!"$x" b!"\\Lib\\Foo" := by
  refine ⟨Demo.gX_documented, by simp [Demo.gEvents], by decide +kernel, ?_⟩
  rintro ⟨pre, e, v, post, he, hn, hh, hlast⟩
  have h3 := Demo.gX2_last he
  have hlast := hlast (Demo.gEvents.take 3) Demo.gEnv2 Demo.gX2 [] rfl
  rcases Nat.lt_or_ge pre.length 3 with hl | hl
  · exact hlast hl (by decide +kernel) _ (by unfold RealType; decide) (.inl Demo.gX2_documented)
  · have hl : pre.length = 3 := by omega
    have hi := congrArg (fun l => l[pre.length]?) he
    simp only [List.getElem?_append_right (Nat.le_refl _), Nat.sub_self, List.getElem?_cons_zero] at hi
    rw [hl] at hi
    obtain ⟨rfl, rfl⟩ := GlobalEvent.declare.inj (Option.some.inj hi)
    rcases hh with hh | ⟨-, types, hm, -⟩
    · have := ((newGlobalVariable_spec Demo.gEnv2 Demo.gX2 (by decide +kernel) Demo.gX2_ok).2.2.2 _).2 hh
      exact absurd this (by decide +kernel)
    · have := congrArg List.length he
      have hp : post = [] := by
        simp [Demo.gEvents, hl] at this
        exact List.length_eq_zero_iff.1 (by omega)
      subst hp
      cases hm

example : HistOK Store.Demo.env Demo.gHist ∧
    (∀ u d, latest Demo.gHist u = some d → GlobalsFrom d Demo.gEvents) ∧
    (∃ u d, latest Demo.gHist u = some d ∧ FileGives Demo.gEvents b!"$x" b!"\\App\\Bar") ∧
    (∃ u d, latest Demo.gHist u = some d ∧ FileGives Demo.gEvents b!"$y" b!"\\Baz") ∧
    RealType b!"\\App\\Bar" ∧
    ∃ s, run Store.Demo.env Store.Demo.root Demo.gHist = some s ∧
      ((s.getGlobalVariables b!"$x").getD []).map (fun g => g.types.map TypeString.fqn) = [[b!"\\App\\Bar"]] := by
  have e : latest Demo.gHist Store.Demo.uB = some Demo.gFile := by decide +kernel
  exact ⟨Demo.gHist_ok, Demo.gHist_from, ⟨_, _, e, Demo.gX_given⟩, ⟨_, _, e, Demo.gY_given⟩,
    by unfold RealType; decide, Store.Demo.observe _ _ (by decide +kernel)⟩

example : OnlyPhrase .variableNameList (Demo.gPart 3).kids (.phr .variableNameList (sub (Demo.gPart 3) 2).kids) ∧
    Listed .simpleVariable (sub (Demo.gPart 3) 2).kids [Demo.gX, Demo.gY] ∧
    Demo.gEnv1.ctx.nodeText Demo.gX ≠ [] ∧ GlobalDocOK Demo.gEnv1 Demo.gX ∧ GlobalDocOK Demo.gEnv1 Demo.gY ∧
    ((Decl.newGlobalDeclaration Demo.gEnv1 (Demo.gPart 3)).map (·.name) = [b!"$x", b!"$y"]) :=
  ⟨OnlyPhrase.of_filter rfl, Listed.of_filter rfl, by decide +kernel, Demo.gX_ok, Demo.gY_ok, by decide +kernel⟩

end Verif.Whole
