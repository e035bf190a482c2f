import Verif.Marks.Hints
import Verif.Symbols.PropsTree
import Verif.Symbols.PropsLookup
import Verif.Symbols.PropsArgs
import Verif.Analyser.PropsOrder
import Verif.Analyser.Geometry
import Verif.Analyser.Sample
import Verif.Common.Tactics
import Mathlib.Data.List.Forall2

/-! C122: the names of parameters that are shown at the arguments of calls. -/

namespace Verif.Marks
open Verif.Analyser (Node Tok Ctx PType TokType toks toksOf Chain WF WFs Increasing Le Parsed infosOf)
open Verif.Symbols (Info Path ArgChild)
open Verif.Position (Before)

/-! ### the arguments of a call -/

theorem arguments_blanks {c : Ctx} (bs ks : List Node) (h : ∀ n ∈ bs, Blank c n) :
    arguments c (bs ++ ks) = arguments c ks := by
  induction bs with
  | nil => rfl
  | cons b bs ih =>
    have ih := ih fun n hn => h n (List.mem_cons_of_mem _ hn)
    rcases h b List.mem_cons_self with ⟨t, rfl, h1, h2⟩ | ⟨t, rfl⟩
    · simp [arguments, h1, h2, ih]
    · simp [arguments, ih]

theorem arguments_expression {c : Ctx} {e : Node} (ks : List Node) (h : Expression c e) :
    arguments c (e :: ks) = e :: arguments c ks := by
  rcases h with ⟨ty, kids, rfl⟩ | ⟨t, rfl, h1, h2⟩
  · rfl
  · simp [arguments, h1, h2]

/-- C122: the arguments of a call are the expressions between its commas, in that order. -/
theorem C122_arguments {c : Ctx} {kids es : List Node} (h : Lists c kids es) :
    argumentRanges c kids = es.map c.range := by
  unfold argumentRanges
  congr 1
  induction h with
  | nil bs hb => have := arguments_blanks bs [] hb; simpa [arguments] using this
  | last bs as e hb he ha =>
    have := arguments_blanks as [] ha
    rw [arguments_blanks _ _ hb, arguments_expression _ he]
    simpa [arguments] using this
  | cons bs as e t rest es hb he ha ht _ ih =>
    rw [arguments_blanks _ _ hb, arguments_expression _ he, arguments_blanks _ _ ha]
    simp [arguments, ht, ih]

/-! ### the argument the cursor is in -/

/-- The commas of an argument list. -/
def commaToks : List Node → List Tok
  | [] => []
  | .tok t :: ks => if t.type = .comma then t :: commaToks ks else commaToks ks
  | _ :: ks => commaToks ks

theorem commas_eq (c : Ctx) (kids : List Node) :
    Symbols.commas (argChildren c kids) = (commaToks kids).map fun t => c.posAt t.offset := by
  induction kids with
  | nil => rfl
  | cons k ks ih =>
    unfold argChildren at ih ⊢
    cases k with
    | tok t =>
      by_cases ht : t.type = .comma
      · simp [commaToks, ht, Symbols.commas, ih]
      · simp [commaToks, ht, Symbols.commas, ih]
    | phr ty kids => simp [commaToks, Symbols.commas, ih]
    | err t => simp [commaToks, Symbols.commas, ih]

theorem commaToks_append (xs ys : List Node) : commaToks (xs ++ ys) = commaToks xs ++ commaToks ys := by
  induction xs with
  | nil => rfl
  | cons x xs ih =>
    cases x with
    | tok t => by_cases ht : t.type = .comma <;> simp [commaToks, ht, ih]
    | phr ty kids => simp [commaToks, ih]
    | err t => simp [commaToks, ih]

theorem commaToks_blanks {c : Ctx} {bs : List Node} (h : ∀ n ∈ bs, Blank c n) : commaToks bs = [] := by
  induction bs with
  | nil => rfl
  | cons b bs ih =>
    have ih := ih fun n hn => h n (List.mem_cons_of_mem _ hn)
    rcases h b List.mem_cons_self with ⟨t, rfl, h1, h2⟩ | ⟨t, rfl⟩
    · simp [commaToks, h1, ih]
    · simp [commaToks, ih]

theorem commaToks_expression {c : Ctx} {e : Node} (ks : List Node) (h : Expression c e) :
    commaToks (e :: ks) = commaToks ks := by
  rcases h with ⟨ty, kids, rfl⟩ | ⟨t, rfl, h1, h2⟩
  · rfl
  · simp [commaToks, h1]

theorem commaToks_sublist (ks : List Node) : (commaToks ks).Sublist (toksOf ks) := by
  induction ks with
  | nil => exact .slnil
  | cons k ks ih =>
    rw [toksOf]
    cases k with
    | tok t =>
      by_cases ht : t.type = .comma
      · simp only [commaToks, ht, if_true, toks, List.singleton_append]
        exact ih.cons₂ t
      · simp only [commaToks, ht, if_false]
        exact ih.trans (List.sublist_append_right _ _)
    | phr ty kids => exact ih.trans (List.sublist_append_right _ _)
    | err t => exact ih.trans (List.sublist_append_right _ _)

theorem chain_mem {a b : Nat} {ts : List Tok} (h : Chain a b ts) {t : Tok} (ht : t ∈ ts) :
    a ≤ t.offset ∧ t.offset + t.length ≤ b := by
  induction ts generalizing a with
  | nil => cases ht
  | cons x xs ih =>
    obtain ⟨h1, h2⟩ := h
    rcases List.mem_cons.mp ht with rfl | ht
    · exact ⟨h1, Analyser.chain_le h2⟩
    · have := ih h2 ht
      exact ⟨by omega, this.2⟩

theorem chain_sorted {a b : Nat} {ts : List Tok} (h : Chain a b ts) (hl : ∀ t ∈ ts, 0 < t.length) :
    ts.Pairwise fun t u => t.offset < u.offset := by
  induction ts generalizing a with
  | nil => exact .nil
  | cons x xs ih =>
    obtain ⟨h1, h2⟩ := h
    refine .cons (fun u hu => ?_) (ih h2 fun t ht => hl t (List.mem_cons_of_mem _ ht))
    have := (chain_mem h2 hu).1
    have := hl x List.mem_cons_self
    omega

theorem lists_mem {c : Ctx} {ks es : List Node} (hl : Lists c ks es) : ∀ x ∈ es, x ∈ ks := by
  induction hl with
  | nil => simp
  | last => simp
  | cons bs as e t rest es _ _ _ _ _ ih =>
    intro x hx
    rcases List.mem_cons.mp hx with rfl | hx
    · simp
    · have := ih x hx
      simp [this]

/-- The commas in front of a position inside an argument. -/
theorem commas_before {c : Ctx} (hinc : Increasing c) {kids es : List Node} (h : Lists c kids es) :
    ∀ {a b : Nat} (_ : WFs c kids) (_ : Chain a b (toksOf kids)) (i : Nat) (e : Node) (_ : es[i]? = some e) (pos : Pos)
      (_ : Symbols.Inside pos (c.range e)),
      ((commaToks kids).filter fun t => decide (¬ Before pos (c.posAt t.offset))).length = i := by
  induction h with
  | nil bs hb => intro a b _ _ i e he; simp at he
  | last bs as e' hb he' ha =>
    intro a b _ _ i e he pos _
    rw [commaToks_append, commaToks_blanks hb, commaToks_expression _ he', commaToks_blanks ha]
    cases i with
    | zero => rfl
    | succ i => simp at he
  | cons bs as e' t rest es hb he' ha ht hr ih =>
    intro a b hw hc i e he pos hin
    rw [commaToks_append, commaToks_blanks hb, commaToks_expression _ he', commaToks_append, commaToks_blanks ha]
    simp only [commaToks, ht, if_true, List.nil_append]
    simp only [Analyser.toksOf_append, toksOf, toks, List.singleton_append] at hc
    obtain ⟨m1, -, hc⟩ := Analyser.chain_append.mp hc
    obtain ⟨m2, hce, hc⟩ := Analyser.chain_append.mp hc
    obtain ⟨m3, hca, hc⟩ := Analyser.chain_append.mp hc
    have hm := Analyser.chain_le hca
    obtain ⟨hc1, hc2⟩ := hc
    cases i with
    | zero =>
      simp only [List.getElem?_cons_zero, Option.some.injEq] at he
      subst he
      have hwe : WF c e' := Analyser.wfs_mem hw (by simp)
      have hstop := (Analyser.range_in hinc hwe hce).2
      have hall : ∀ u ∈ t :: commaToks rest, Before pos (c.posAt u.offset) := by
        intro u hu
        have hm2 : m2 ≤ u.offset := by
          rcases List.mem_cons.mp hu with rfl | hu
          · omega
          · have := (chain_mem hc2 ((commaToks_sublist rest).mem hu)).1
            omega
        exact Analyser.before_le hin.2 (hstop.trans (hinc.le hm2))
      rw [List.length_eq_zero_iff, List.filter_eq_nil_iff]
      intro u hu
      simpa using hall u hu
    | succ i =>
      simp only [List.getElem?_cons_succ] at he
      have hwr : WFs c rest := by
        have : ∀ (xs ys : List Node), WFs c (xs ++ ys) → WFs c ys := by
          intro xs
          induction xs with
          | nil => intro ys h; exact h
          | cons x xs ih => intro ys h; exact ih ys h.2
        have h1 := this bs _ hw
        exact (this as _ h1.2).2
      have hlen := ih hwr hc2 i e he pos hin
      have her : e ∈ rest := lists_mem hr e (List.mem_of_getElem? he)
      have hcomma : ¬ Before pos (c.posAt t.offset) := by
        obtain ⟨xs, ys, rfl⟩ := List.append_of_mem her
        rw [Analyser.toksOf_append, toksOf] at hc2
        obtain ⟨n1, hx, hc2⟩ := Analyser.chain_append.mp hc2
        obtain ⟨n2, hce', -⟩ := Analyser.chain_append.mp hc2
        have hwe : WF c e := Analyser.wfs_mem hwr her
        have hstart := (Analyser.range_in hinc hwe hce').1
        have hn := Analyser.chain_le hx
        have h2 := hinc.le (show t.offset ≤ n1 by omega)
        exact (h2.trans hstart).trans hin.1
      rw [List.filter_cons_of_pos (by simpa using hcomma), List.length_cons, hlen]

/-- C122: a cursor inside argument number `i` has parameter number `i` highlighted by signature help, so the name that is
shown at the argument is the name of the parameter that is highlighted. -/
theorem C122_active {c : Ctx} (hinc : Increasing c) {ty : PType} {kids es : List Node} (hw : WF c (.phr ty kids)) {a b : Nat}
    (hc : Chain a b (toksOf kids)) (hl : ∀ t ∈ commaToks kids, 0 < t.length) (h : Lists c kids es) (i : Nat) (e : Node)
    (he : es[i]? = some e) (pos : Pos) (hin : Symbols.Inside pos (c.range e)) :
    Symbols.activeParameter (c.range (.phr ty kids)) (argChildren c kids) pos = i := by
  obtain ⟨i0, j0, hr, -, -, hch⟩ := Analyser.range_spec hw (show Chain a b (toks (.phr ty kids)) from hc)
  have hks : WFs c kids := hw.2
  have hch : Chain i0 j0 (toksOf kids) := hch
  have hcom : Symbols.CommasInOrder (c.range (.phr ty kids)) (argChildren c kids) := by
    unfold Symbols.CommasInOrder
    rw [commas_eq, hr]
    constructor
    · rw [List.pairwise_map]
      exact (chain_sorted (Analyser.chain_sublist (commaToks_sublist kids) hch) hl).imp fun h => hinc _ _ h
    · intro p hp
      obtain ⟨t, ht, rfl⟩ := List.mem_map.mp hp
      have h1 := chain_mem hch ((commaToks_sublist kids).mem ht)
      have h2 := hl t ht
      exact ⟨hinc.le h1.1, hinc _ _ (by omega)⟩
  have hinl : ¬ Before pos (c.range (.phr ty kids)).start ∧ Before pos (c.range (.phr ty kids)).stop := by
    rw [hr]
    have her : e ∈ kids := lists_mem h e (List.mem_of_getElem? he)
    obtain ⟨xs, ys, rfl⟩ := List.append_of_mem her
    rw [Analyser.toksOf_append, toksOf] at hch
    obtain ⟨n1, hx, hch⟩ := Analyser.chain_append.mp hch
    obtain ⟨n2, hce, hy⟩ := Analyser.chain_append.mp hch
    obtain ⟨h1, h2⟩ := Analyser.range_in hinc (Analyser.wfs_mem hks her) hce
    refine ⟨((hinc.le (Analyser.chain_le hx)).trans h1).trans hin.1, ?_⟩
    exact Analyser.before_le hin.2 (h2.trans (hinc.le (Analyser.chain_le hy)))
  rw [Symbols.C46_commas _ _ _ hcom hinl, commas_eq, List.filter_map, List.length_map]
  exact commas_before hinc h hks hch i e he pos hin

/-! ### the hints of a document -/

theorem callAll_befores {σ α : Type} (pre : σ → Symbols.Tree α → σ) (ts : List (Symbols.Tree α)) (x : σ)
    (cs : List Symbols.Call) : Symbols.callAll pre (fun y _ => y) ts x cs =
      (Symbols.befores cs).foldl (fun y p => (Symbols.symAt ts p).elim y (pre y)) x := by
  induction cs generalizing x with
  | nil => rfl
  | cons k ks ih =>
    cases k with
    | before p =>
      simp only [Symbols.callAll, Symbols.befores, List.foldl_cons, Symbols.symAt]
      split <;> rename_i h <;> simp only [h, Option.elim] <;> exact ih _
    | after p =>
      simp only [Symbols.callAll, Symbols.befores]
      split <;> exact ih _

theorem documentHints_eq (doc : List (Symbols.Tree Info)) (ranges : Info → List Rng) (resolve : Info → List (List Bytes)) :
    documentHints doc ranges resolve = (Symbols.pathsFrom [] 0 doc).flatMap fun p =>
      match Symbols.symAt doc p with
      | some s => hintsAt doc ranges resolve s
      | none => [] := by
  unfold documentHints
  rw [← Symbols.calls_all _ _ doc doc [] 0 [] [] (fun j k hj => by simp [Symbols.spineAt, hj]), callAll_befores,
    Symbols.befores_callsFrom]
  generalize Symbols.pathsFrom [] 0 doc = ps
  suffices ∀ out : List Hint,
      ps.foldl (fun y p => (Symbols.symAt doc p).elim y fun s => y ++ hintsAt doc ranges resolve s) out = out ++ ps.flatMap fun p => match Symbols.symAt doc p with
      | some s => hintsAt doc ranges resolve s
      | none => [] by simpa using this []
  induction ps with
  | nil => simp
  | cons p ps ih =>
    intro out
    simp only [List.foldl_cons, List.flatMap_cons, ih]
    cases Symbols.symAt doc p <;> simp

theorem hintLoop_get (ranges : List Rng) (names : List Bytes) (i k : Nat) (x : Hint) :
    (hintLoop ranges i names)[k]? = some x ↔
      ∃ name r, names[k]? = some name ∧ ranges[i + k]? = some r ∧ x = ⟨name, r⟩ := by
  induction names generalizing i k with
  | nil => simp [hintLoop]
  | cons n ns ih =>
    unfold hintLoop
    cases hr : ranges[i]? with
    | none =>
      simp only [List.getElem?_nil, reduceCtorEq, false_iff, not_exists, not_and]
      rintro name r - h
      have := (List.getElem?_eq_some_iff.mp h).1
      have := List.getElem?_eq_none_iff.mp hr
      omega
    | some r =>
      cases k with
      | zero =>
        simp only [List.getElem?_cons_zero, Option.some.injEq, Nat.add_zero, hr]
        constructor
        · rintro rfl; exact ⟨n, r, rfl, rfl, rfl⟩
        · rintro ⟨_, _, rfl, rfl, rfl⟩; rfl
      | succ k =>
        simp only [List.getElem?_cons_succ, ih]
        rw [show i + 1 + k = i + (k + 1) by omega]

/-- C122: the names that are shown at arguments, for syntax trees that are `Parsed`. The argument lists of the document
are gone through in the order of the text. For each of them the call in front of it is found; the names of the parameters
of the first declaration it refers to are shown, the name of parameter `i` at argument `i`, as long as there are both. -/
theorem C122_hints {c : Ctx} {root : Node} (h : Parsed c root) (ranges : Info → List Rng)
    (resolve : Info → List (List Bytes)) :
    ∃ (ps : List Path) (groups : List (List Hint)), ps.Pairwise (List.Lex (· < ·)) ∧
      (∀ p, p ∈ ps ↔ ∃ s, Symbols.symAt (infosOf c root) p = some s ∧ s.info.kind = .args) ∧
      List.Forall₂ (Hinted (infosOf c root) ranges resolve) ps groups ∧
      documentHints (infosOf c root) ranges resolve = groups.flatten := by
  have hbefore := fun pos => Analyser.C65_analysed_before_partial h pos
  revert hbefore
  generalize infosOf c root = doc
  intro hbefore
  let isArgs : Path → Bool := fun p => match Symbols.symAt doc p with
    | some s => decide (s.info.kind = .args)
    | none => false
  let at_ : Path → List Hint := fun p => match Symbols.symAt doc p with
    | some s => hintsAt doc ranges resolve s
    | none => []
  refine ⟨(Symbols.pathsFrom [] 0 doc).filter isArgs, ((Symbols.pathsFrom [] 0 doc).filter isArgs).map at_,
    (Symbols.pathsFrom_sorted [] 0 doc).filter _, fun p => ?_, ?_, ?_⟩
  · rw [List.mem_filter, Symbols.mem_paths, ← Symbols.symAt_isSome]
    constructor
    · rintro ⟨⟨s, hs⟩, hp⟩
      exact ⟨s, hs, by simpa [isArgs, hs] using hp⟩
    · rintro ⟨s, hs, hk⟩
      exact ⟨⟨s, hs⟩, by simp [isArgs, hs, hk]⟩
  · rw [List.forall₂_map_right_iff, List.forall₂_same]
    intro p hp
    have hp := (List.mem_filter.mp hp).2
    cases hs : Symbols.symAt doc p with
    | none => simp [isArgs, hs] at hp
    | some s =>
      have hk : s.info.kind = .args := by simpa [isArgs, hs] using hp
      simp only [at_, hs, hintsAt, hk, if_true]
      have hl := hbefore s.info.range.start
      cases hc : Symbols.hasTypesBeforePos doc s.info.range.start with
      | none =>
        rw [hc] at hl
        refine ⟨s, none, [], hs, hl, rfl, ?_⟩
        simp
      | some call =>
        rw [hc] at hl
        by_cases hp : call.info.hasParams = true
        · refine ⟨s, some call, (resolve call.info).headD [], hs, hl, .inl ⟨hp, rfl⟩, ?_⟩
          intro i x
          simp only [hp, if_true]
          cases resolve call.info with
          | nil => simp
          | cons first _ => simpa using hintLoop_get (ranges s.info) first 0 i x
        · refine ⟨s, some call, [], hs, hl, .inr ⟨by simpa using hp, rfl⟩, ?_⟩
          simp [hp]
  · rw [documentHints_eq]
    generalize Symbols.pathsFrom [] 0 doc = ps
    induction ps with
    | nil => rfl
    | cons p ps ih =>
      rw [List.flatMap_cons, ih]
      by_cases hp : isArgs p = true
      · rw [List.filter_cons_of_pos hp, List.map_cons, List.flatten_cons]
      · rw [List.filter_cons_of_neg hp]
        have : (match Symbols.symAt doc p with
          | some s => hintsAt doc ranges resolve s
          | none => []) = [] := by
          cases hs : Symbols.symAt doc p with
          | none => rfl
          | some s =>
            have : s.info.kind ≠ .args := fun hk => hp (by simp [isArgs, hs, hk])
            simp [hintsAt, this]
        rw [this, List.nil_append]

/-! ### examples -/

/-- The arguments of the calls in `class A{function m($x){$y = $x;return $y->n(1,$x);}}$a = new A();$a->m(2);`. -/
def sampleRanges (i : Info) : List Rng :=
  if i.range.start.character = 43 then [⟨⟨1, 44⟩, ⟨1, 45⟩⟩, ⟨⟨1, 46⟩, ⟨1, 48⟩⟩]
  else if i.range.start.character = 70 then [⟨⟨1, 71⟩, ⟨1, 72⟩⟩] else []

/-- `n` has two declarations, the first with three parameters; `m` has one parameter. -/
def sampleResolve (i : Info) : List (List Bytes) :=
  if i.tag = b!"n" then [[b!"$first", b!"$second", b!"$third"], [b!"$other"]]
  else if i.tag = b!"m" then [[b!"$x"]] else []

example : documentHints (infosOf Analyser.sample.ctx Analyser.sample.root) sampleRanges sampleResolve =
    [⟨b!"$first", ⟨⟨1, 44⟩, ⟨1, 45⟩⟩⟩, ⟨b!"$second", ⟨⟨1, 46⟩, ⟨1, 48⟩⟩⟩, ⟨b!"$x", ⟨⟨1, 71⟩, ⟨1, 72⟩⟩⟩] := by
  decide +kernel

example : Parsed Analyser.sample.ctx Analyser.sample.root := Analyser.sample_parsed

open Analyser.Src in
/-- `(1, $x )` -/
def sampleArgs : Analyser.Src :=
  .p .argumentExpressionList [par b!"(", num b!"1", .t .comma b!",", sp, var b!"$x", sp, par b!")"]

/-- The children of the list. -/
def sampleKids : List Node := sampleArgs.root.kids

theorem sampleKids_lists : Lists sampleArgs.ctx sampleKids
    [.tok ⟨.other 1, 1, 1⟩, .phr .simpleVariable [.tok ⟨.variableName, 4, 2⟩]] := by
  refine .cons [.tok ⟨.other 2, 0, 1⟩] [] _ ⟨.comma, 2, 1⟩
    [.tok ⟨.whitespace, 3, 1⟩, .phr .simpleVariable [.tok ⟨.variableName, 4, 2⟩], .tok ⟨.whitespace, 6, 1⟩, .tok ⟨.other 2, 7, 1⟩]
    _ ?_ (.inr ⟨_, rfl, by decide, by decide⟩) (by simp) rfl (.last [.tok ⟨.whitespace, 3, 1⟩] [.tok ⟨.whitespace, 6, 1⟩, .tok ⟨.other 2, 7, 1⟩] _ ?_ (.inl ⟨_, _, rfl⟩) ?_)
  · intro n hn; rw [List.mem_singleton] at hn; subst hn; exact .inl ⟨_, rfl, by decide, by decide⟩
  · intro n hn; rw [List.mem_singleton] at hn; subst hn; exact .inl ⟨_, rfl, by decide, by decide⟩
  · intro n hn
    simp only [List.mem_cons, List.not_mem_nil, or_false] at hn
    rcases hn with rfl | rfl <;> exact .inl ⟨_, rfl, by decide, by decide⟩

example : argumentRanges sampleArgs.ctx sampleKids = [⟨⟨0, 1⟩, ⟨0, 2⟩⟩, ⟨⟨0, 4⟩, ⟨0, 6⟩⟩] := by decide +kernel

example : Symbols.activeParameter (sampleArgs.ctx.range (.phr .argumentExpressionList sampleKids))
    (argChildren sampleArgs.ctx sampleKids) ⟨0, 5⟩ = 1 :=
  C122_active (ty := .argumentExpressionList) (a := 0) (b := 8) (Analyser.ofText_increasing _ _ _) (by decide +kernel)
    (by simp [sampleKids, sampleArgs, Analyser.Src.root, Analyser.Src.node, Analyser.Src.nodes, Node.kids, toksOf, toks, Chain,
      Analyser.Src.par, Analyser.Src.num, Analyser.Src.sp, Analyser.Src.var, Analyser.Src.text, Analyser.Src.textOf])
    (by decide +kernel) sampleKids_lists 1 _ rfl ⟨0, 5⟩ (by unfold Symbols.Inside Before; decide +kernel)

open Analyser.Src in
/-- C122 needs one expression per argument: in `f(/** a */ $x)` the doc comment counts as an argument, so the name of the
first parameter is shown at the comment and the name of the second one at `$x`. -/
theorem C122_needs_expressions : ∃ s : Analyser.Src, s.text = b!"(/** a */$x)" ∧
    hintLoop (argumentRanges s.ctx s.root.kids) 0 [b!"$first", b!"$second"]
      = [⟨b!"$first", ⟨⟨0, 1⟩, ⟨0, 9⟩⟩⟩, ⟨b!"$second", ⟨⟨0, 9⟩, ⟨0, 11⟩⟩⟩] :=
  ⟨.p .argumentExpressionList [par b!"(", .p .documentComment [o b!"/** a */"], var b!"$x", par b!")"], by decide +kernel,
    by decide +kernel⟩

end Verif.Marks
