import Verif.Whole.HoverVariables
import Verif.Whole.PropsTypes
import Verif.Types.Props

/-!
# C139: What hovering over a variable shows

A variable is shown with its name and the types that it has at that place, each once.
-/

namespace Verif.Infer

open Verif.Types (Ty Union add merge hasFQN mergeWithArrayLevel)

/-! ## Specification -/

/-- The expressions of a program, in the order in which they are read, with their places; for a variable its name. -/
def places : Src → List (Rng × Option Bytes)
  | .skip | .global _ => []
  | .both a b => places a ++ places b
  | .var name r _ => [(r, some name)]
  | .property r _ s _ | .cls r _ _ s | .staticProperty r _ s _ | .staticConstant r s | .derived r s => places s ++ [(r, none)]
  | .method r _ s _ args | .staticMethod r _ s _ args => places s ++ (r, none) :: places args
  | .constant r => [(r, none)]
  | .call r _ c args | .create r _ c args => (r, none) :: (places c ++ places args)
  | .assign name r _ v _ => places v ++ [(r, some name)]
  | .each c name r _ body => places c ++ (r, some name) :: places body
  | .test i r _ _ => places i ++ [(r, none)]
  | .closure uses _ _ body => uses.map (fun u => (u.2.1, some u.1)) ++ places body

/-- How a type reads: its name, with `[]` for each depth of the array. -/
def written (k : Kind) : Bytes := k.1 ++ Show.brackets k.2.toNat

/-- The text is `name` after these types, separated by `|`, in a block of code. -/
def VariableReads (ts : List Kind) (name text : Bytes) : Prop :=
  text = b!"```\n" ++ (if ts = [] then [] else b!"|".intercalate (ts.map written) ++ b!" ") ++ name ++ b!"\n```\n"

/-- It is the name of something. -/
def Real (k : Kind) : Prop := k.1 ≠ [] ∧ k.1 ≠ b!"\\"

/-- The variable is shown under its name, with types of which no class occurs twice: none but those in `most`, and all
those in `least`. -/
def VariableShown (least most : List Kind) (name text : Bytes) : Prop :=
  ∃ ts, VariableReads ts name text ∧ (ts.map Prod.fst).Nodup ∧ (∀ k ∈ ts, k ∈ most ∧ Real k) ∧
    ∀ k ∈ least, Real k → k ∈ ts

/-- No class occurs twice in a union. -/
def Once (u : Union) : Prop := (u.map Ty.fqn).Nodup

/-- The types that parameters are declared with do not name a class twice. -/
def ParamsOnce : Src → Prop
  | .skip | .global _ | .var .. | .constant _ => True
  | .both a b => ParamsOnce a ∧ ParamsOnce b
  | .property _ _ s _ | .cls _ _ _ s | .staticProperty _ _ s _ | .staticConstant _ s | .derived _ s => ParamsOnce s
  | .method _ _ s _ args | .staticMethod _ _ s _ args => ParamsOnce s ∧ ParamsOnce args
  | .call _ _ c args | .create _ _ c args => ParamsOnce c ∧ ParamsOnce args
  | .assign _ _ _ v _ => ParamsOnce v
  | .each c _ _ _ body => ParamsOnce c ∧ ParamsOnce body
  | .test i _ _ _ => ParamsOnce i
  | .closure _ params _ body => (∀ q ∈ params, Once q.2.2) ∧ ParamsOnce body

/-! ## Which expressions are recorded -/

/-- The name of a variable. -/
def varName : Expr → Option Bytes
  | .variable name .. => some name
  | _ => none

/-- What an expression is recorded as. -/
def tagged (x : Rng × Expr) : Rng × Option Bytes := (x.1, varName x.2)

theorem varName_resolve (w : World) (e : Expr) : varName (e.resolve w) = varName e := by
  cases e <;> simp only [Expr.resolve] <;> (try split) <;> rfl

theorem varName_mergeWith (e e' : Expr) : varName (mergeWith e e') = varName e := by cases e <;> rfl

theorem varName_mergeWith? (e : Expr) (o : Option Expr) : varName (mergeWith? e o) = varName e := by
  cases o <;> simp [mergeWith?, varName_mergeWith]

theorem varName_setExpression (e s : Expr) : varName (e.setExpression s) = varName e := by cases e <;> rfl

theorem varName_allowGlobal (e : Expr) : varName (allowGlobal e) = varName e := by cases e <;> rfl

theorem varName_mergeTypes (ts : Union) (e : Expr) : varName (e.mergeTypes ts) = varName e := by cases e <;> rfl

theorem varName_merged (st : St) (n : Bytes) (e : Expr) (pos : Pos) : varName (st.merged n e pos) = varName e := by
  simp only [St.merged]
  split
  · rw [varName_allowGlobal, varName_mergeWith?]
  · rw [varName_mergeWith?]

theorem varName_newVariable (cls : Union) (name : Bytes) (doc : Union) : varName (newVariable cls name doc) = some name := rfl

theorem map_modify {α β : Type} (g : α → β) (f : α → α) (h : ∀ x, g (f x) = g x) (l : List α) (i : Nat) :
    (l.modify i f).map g = l.map g := by
  induction l generalizing i with
  | nil => simp
  | cons a l ih => cases i <;> simp [h, ih]

theorem useVariable_seen (cls : Union) (sts : St × St) (u : Bytes × Rng × Union) (h : sts.1.seen = sts.2.seen) :
    (useVariable cls sts u).1.seen.map tagged = sts.1.seen.map tagged ++ [(u.2.1, some u.1)] ∧
    (useVariable cls sts u).1.seen = (useVariable cls sts u).2.seen := by
  obtain ⟨outer, inner⟩ := sts
  obtain ⟨name, range, doc⟩ := u
  simp only [useVariable, List.map_append, List.map_cons, List.map_nil, tagged, varName_mergeWith?, varName_merged,
    varName_newVariable, and_self]

theorem uses_seen (cls : Union) (us : List (Bytes × Rng × Union)) (sts : St × St) (h : sts.1.seen = sts.2.seen) :
    (us.foldl (useVariable cls) sts).1.seen.map tagged = sts.1.seen.map tagged ++ us.map (fun u => (u.2.1, some u.1)) ∧
    (us.foldl (useVariable cls) sts).1.seen = (us.foldl (useVariable cls) sts).2.seen := by
  induction us generalizing sts with
  | nil => simp [h]
  | cons u us ih =>
    obtain ⟨h1, h2⟩ := useVariable_seen cls sts u h
    obtain ⟨h3, h4⟩ := ih _ h2
    refine ⟨?_, h4⟩
    rw [List.foldl_cons, h3, h1]
    simp

theorem params_seen (header : Pos) (ps : List (Bytes × Rng × Union)) (st : St) :
    (ps.foldl (addParam header) st).seen = st.seen := by
  induction ps generalizing st with
  | nil => rfl
  | cons p ps ih => rw [List.foldl_cons, ih]; rfl

theorem scan_seen (cls : Union) (p : Src) (st : St) :
    (scan cls p st).1.seen.map tagged = st.seen.map tagged ++ places p := by
  induction p generalizing st with
  | skip => simp [scan, places]
  | both a b iha ihb => simp [scan, places, iha, ihb]
  | var name r doc => simp [scan, places, St.see, St.add, tagged, varName_merged, varName_newVariable]
  | property r here s name ih => simp [scan, places, St.see, ih, tagged, varName]
  | method r here s name args ih iha => simp [scan, places, St.see, ih, iha, tagged, varName]
  | cls r name ts s ih => simp [scan, places, St.see, ih, tagged, varName]
  | staticProperty r here s name ih => simp [scan, places, St.see, ih, tagged, varName]
  | staticMethod r here s name args ih iha => simp [scan, places, St.see, ih, iha, tagged, varName]
  | staticConstant r s ih => simp [scan, places, St.see, ih, tagged, varName]
  | constant r => simp [scan, places, St.see, tagged, varName]
  | call r name c args ihc iha => simp [scan, places, St.see, ihc, iha, tagged, varName]
  | create r ts c args ihc iha => simp [scan, places, St.see, ihc, iha, tagged, varName]
  | derived r s ih => simp [scan, places, St.see, ih, tagged, varName]
  | assign name r doc v stop ih =>
    simp only [scan, places, St.see, St.add, List.map_append, ih, List.map_cons, List.map_nil, tagged, List.append_assoc]
    congr 4
    split
    · rw [varName_merged, varName_newVariable]
    · rw [varName_setExpression, varName_merged, varName_newVariable]
  | each c name r doc body ihc ihb =>
    simp only [scan, places, ihb, St.see, St.add, List.map_append, ihc, List.map_cons, List.map_nil, tagged,
      List.append_assoc, varName_setExpression, varName_merged, varName_newVariable, List.cons_append, List.nil_append]
  | test i r name ts ih =>
    simp only [scan, places, St.see, List.map_append, List.map_cons, List.map_nil]
    rw [← List.append_assoc, ← ih]
    congr 1
    split
    · simp only [St.changeLast]
      exact map_modify tagged _ (fun x => by simp only [tagged, varName_mergeTypes]) _ _
    · rfl
  | closure uses params header body ih =>
    simp only [scan, places]
    rw [ih, params_seen]
    obtain ⟨h1, h2⟩ := uses_seen cls uses (st, { objects := st.objects, top := false, seen := st.seen }) rfl
    rw [← h2, h1, List.append_assoc]
  | global name => simp [scan, places]

/-- The expressions that are recorded for a program are its expressions, and its variables are recorded as variables. -/
theorem analyse_places (cls : Union) (p : Src) : (analyse cls p).map tagged = places p := by
  rw [analyse, scan_seen]; rfl

/-! ## No class twice -/

theorem once_nil : Once [] := List.nodup_nil

theorem add_once {u : Union} (h : Once u) (t : Ty) : Once (add u t) := by
  unfold add
  split
  · exact h
  · rename_i hn
    unfold Once
    rw [List.map_append, List.nodup_append]
    refine ⟨h, by simp, fun a ha b hb e => hn ?_⟩
    obtain ⟨x, hx, rfl⟩ := List.mem_map.1 ha
    simp only [List.map_cons, List.map_nil, List.mem_singleton] at hb
    exact List.any_eq_true.2 ⟨x, hx, by simp [e, hb]⟩

theorem foldl_once {α : Type} (f : Union → α → Union) (hf : ∀ u a, Once u → Once (f u a)) (l : List α) {u : Union}
    (h : Once u) : Once (l.foldl f u) := by
  induction l generalizing u with
  | nil => exact h
  | cons a l ih => exact ih (hf u a h)

theorem merge_once {u : Union} (h : Once u) (ts : Union) : Once (merge u ts) := foldl_once _ (fun _ t h => add_once h t) ts h

theorem mergeLevel_once {u : Union} (h : Once u) (ts : Union) (l : Int) : Once (mergeWithArrayLevel u ts l) :=
  foldl_once _ (fun _ _ h => add_once h _) ts h

theorem dearrayAll_once (u : Union) : Once (dearrayAll u) :=
  foldl_once _ (fun v t h => by unfold addElement; split; exacts [add_once h _, h]) u once_nil

theorem memberLoop_once (o : Bytes → List Union) (on : Union) {u : Union} (h : Once u) : Once (memberLoop o on u) := by
  unfold memberLoop
  exact foldl_once _ (fun v t h => foldl_once _ (fun w x h => merge_once h x) _ h) on h

theorem methodLoop_once (o : Bytes → List Union) (on : Union) {u : Union} (h : Once u) : Once (methodLoop o on u) := by
  unfold methodLoop
  exact foldl_once _ (fun v t h => foldl_once _ (fun w x h => merge_once h _) _ h) on h

/-- The types that an expression keeps do not name a class twice. -/
def Tidy : Expr → Prop
  | .nothing | .element _ => True
  | .variable _ ts _ _ s => Once ts ∧ Tidy s
  | .derived _ s => Tidy s
  | .relative ts | .property _ _ ts _ _ | .method _ _ ts _ _ | .staticProperty _ _ ts _ _ | .staticMethod _ _ ts _ _
  | .call _ ts _ | .known ts | .classAccess _ ts _ _ => Once ts

theorem Tidy.getTypes {e : Expr} (h : Tidy e) : Once e.getTypes := by
  induction e with
  | nothing => exact once_nil
  | relative ts => exact h
  | «variable» n ts c d s ih =>
    simp only [Expr.getTypes]
    split
    · exact h.1
    · exact merge_once (ih h.2) _
  | derived d s ih =>
    simp only [Expr.getTypes]
    split
    · exact once_nil
    · exact ih h
  | element s _ =>
    simp only [Expr.getTypes]
    split
    · exact once_nil
    · exact dearrayAll_once _
  | _ => exact h

theorem Tidy.resolve (w : World) {e : Expr} (h : Tidy e) : Tidy (e.resolve w) := by
  induction e with
  | nothing => exact trivial
  | relative ts => exact h
  | known ts => exact h
  | «variable» n ts c d s ih =>
    simp only [Expr.resolve]
    split
    · exact h
    · refine ⟨?_, ih h.2⟩
      split
      · exact foldl_once _ (fun u x h => merge_once h x) _ h.1
      · exact h.1
  | derived d s ih =>
    simp only [Expr.resolve]
    split
    · exact h
    · exact ih h
  | element s _ => exact trivial
  | call n ts d =>
    simp only [Expr.resolve]
    split
    · exact h
    · exact foldl_once _ (fun u x h => merge_once h x) _ h
  | property a b ts d s _ =>
    simp only [Expr.resolve]
    split
    · exact h
    · exact memberLoop_once _ _ h
  | staticProperty a b ts d s _ =>
    simp only [Expr.resolve]
    split
    · exact h
    · exact memberLoop_once _ _ h
  | method a b ts d s _ =>
    simp only [Expr.resolve]
    split
    · exact h
    · exact methodLoop_once _ _ h
  | staticMethod a b ts d s _ =>
    simp only [Expr.resolve]
    split
    · exact h
    · exact methodLoop_once _ _ h
  | classAccess a ts d s _ =>
    simp only [Expr.resolve]
    split
    · exact h
    · exact merge_once h _

theorem tidy_mergeWith {e e' : Expr} (h : Tidy e) (h' : Tidy e') : Tidy (mergeWith e e') := by
  cases e with
  | «variable» n ts c d s =>
    refine ⟨merge_once h.1 _, ?_⟩
    split
    · split
      · exact h'.2
      · exact h.2
    · exact h.2
  | _ => exact h

theorem tidy_mergeWith? {e : Expr} {o : Option Expr} (h : Tidy e) (h' : ∀ x, o = some x → Tidy x) : Tidy (mergeWith? e o) := by
  cases o with
  | none => exact h
  | some x => exact tidy_mergeWith h (h' x rfl)

theorem tidy_setExpression {e s : Expr} (h : Tidy e) (hs : Tidy s) : Tidy (e.setExpression s) := by
  cases e with
  | «variable» n ts c d s' => exact ⟨h.1, hs⟩
  | _ => exact h

theorem tidy_allowGlobal {e : Expr} (h : Tidy e) : Tidy (allowGlobal e) := by
  cases e with
  | «variable» n ts c d s' => exact h
  | _ => exact h

theorem tidy_mergeTypes {e : Expr} (ts : Union) (h : Tidy e) : Tidy (e.mergeTypes ts) := by
  cases e with
  | «variable» n ts c d s' => exact ⟨merge_once h.1 _, h.2⟩
  | _ => exact h

theorem tidy_newVariable {cls : Union} (hc : Once cls) (name : Bytes) (doc : Union) : Tidy (newVariable cls name doc) := by
  refine ⟨merge_once once_nil _, ?_⟩
  split
  · exact hc
  · exact trivial

/-- What the analysis keeps does not name a class twice. -/
def TidySt (st : St) : Prop := (∀ e ∈ st.objects, Tidy e) ∧ ∀ x ∈ st.seen, Tidy x.2

theorem TidySt.find {st : St} (h : TidySt st) (n : Bytes) (pos : Pos) (x : Expr) (hx : st.find n pos = some x) : Tidy x := by
  unfold St.find at hx
  split at hx
  · exact h.1 x (List.mem_of_getElem? hx)
  · cases hx

theorem TidySt.merged {st : St} (h : TidySt st) (n : Bytes) {e : Expr} (he : Tidy e) (pos : Pos) : Tidy (st.merged n e pos) := by
  simp only [St.merged]
  split
  · exact tidy_allowGlobal (tidy_mergeWith? he (h.find n pos))
  · exact tidy_mergeWith? he (h.find n pos)

theorem TidySt.add {st : St} (h : TidySt st) (n : Bytes) (r : Rng) {e : Expr} (he : Tidy e) (pos : Pos) (d : Bool) :
    TidySt (st.add n r e pos d) := by
  refine ⟨fun x hx => ?_, h.2⟩
  rcases List.mem_append.1 hx with hx | hx
  · exact h.1 x hx
  · rw [List.mem_singleton.1 hx]; exact he

theorem TidySt.see {st : St} (h : TidySt st) (r : Rng) {e : Expr} (he : Tidy e) : TidySt (st.see r e) := by
  refine ⟨h.1, fun x hx => ?_⟩
  rcases List.mem_append.1 hx with hx | hx
  · exact h.2 x hx
  · rw [List.mem_singleton.1 hx]; exact he

theorem all_modify {α : Type} {P : α → Prop} {f : α → α} (hf : ∀ x, P x → P (f x)) {l : List α} (h : ∀ x ∈ l, P x) (i : Nat) :
    ∀ x ∈ l.modify i f, P x := by
  induction l generalizing i with
  | nil => simp
  | cons a l ih =>
    cases i with
    | zero =>
      intro x hx
      simp only [List.modify_zero_cons, List.mem_cons] at hx
      rcases hx with rfl | hx
      · exact hf _ (h a List.mem_cons_self)
      · exact h x (List.mem_cons_of_mem _ hx)
    | succ i =>
      intro x hx
      simp only [List.modify_succ_cons, List.mem_cons] at hx
      rcases hx with rfl | hx
      · exact h _ List.mem_cons_self
      · exact ih (fun y hy => h y (List.mem_cons_of_mem _ hy)) i x hx

theorem TidySt.changeLast {st : St} (h : TidySt st) {f : Expr → Expr} (hf : ∀ e, Tidy e → Tidy (f e)) :
    TidySt (st.changeLast f) :=
  ⟨all_modify hf h.1 _, all_modify (P := fun x : Rng × Expr => Tidy x.2) (fun x hx => hf x.2 hx) h.2 _⟩

theorem useVariable_tidy {cls : Union} (hc : Once cls) (sts : St × St) (u : Bytes × Rng × Union) (h : TidySt sts.1)
    (h' : TidySt sts.2) : TidySt (useVariable cls sts u).1 ∧ TidySt (useVariable cls sts u).2 := by
  obtain ⟨outer, inner⟩ := sts
  obtain ⟨name, range, doc⟩ := u
  have hv := h'.merged name (tidy_newVariable hc name doc) range.stop
  have ht : TidySt { outer with table := outer.table.add ⟨name, range, outer.objects.length⟩ range.stop false } := h
  have hm := tidy_mergeWith? hv (ht.find name range.start)
  have ho : ∀ x ∈ outer.objects ++ [_], Tidy x := fun x hx => (List.mem_append.1 hx).elim (h.1 x)
    (fun hx => by rw [List.mem_singleton.1 hx]; exact hm)
  have hs : ∀ x ∈ outer.seen ++ [(range, _)], Tidy x.2 := fun x hx => (List.mem_append.1 hx).elim (h.2 x)
    (fun hx => by rw [List.mem_singleton.1 hx]; exact hm)
  exact ⟨⟨ho, hs⟩, ⟨ho, hs⟩⟩

theorem uses_tidy {cls : Union} (hc : Once cls) (us : List (Bytes × Rng × Union)) (sts : St × St) (h : TidySt sts.1)
    (h' : TidySt sts.2) : TidySt (us.foldl (useVariable cls) sts).1 ∧ TidySt (us.foldl (useVariable cls) sts).2 := by
  induction us generalizing sts with
  | nil => exact ⟨h, h'⟩
  | cons u us ih => exact ih _ (useVariable_tidy hc sts u h h').1 (useVariable_tidy hc sts u h h').2

theorem params_tidy (header : Pos) (ps : List (Bytes × Rng × Union)) (hp : ∀ q ∈ ps, Once q.2.2) {st : St} (h : TidySt st) :
    TidySt (ps.foldl (addParam header) st) := by
  induction ps generalizing st with
  | nil => exact h
  | cons p ps ih =>
    exact ih (fun q hq => hp q (List.mem_cons_of_mem _ hq))
      (h.add p.1 p.2.1 (e := .variable p.1 p.2.2 false false .nothing) ⟨hp p List.mem_cons_self, trivial⟩ header true)

theorem scan_tidy {cls : Union} (hc : Once cls) (p : Src) (hp : ParamsOnce p) (st : St) (h : TidySt st) :
    TidySt (scan cls p st).1 ∧ Tidy (scan cls p st).2 := by
  induction p generalizing st with
  | skip => exact ⟨h, trivial⟩
  | both a b iha ihb => exact ⟨(ihb hp.2 _ (iha hp.1 st h).1).1, trivial⟩
  | var name r doc =>
    have he := h.merged name (tidy_newVariable hc name doc) r.stop
    exact ⟨(h.add _ _ he _ _).see _ he, he⟩
  | property r here s name ih => exact ⟨(ih hp st h).1.see _ once_nil, once_nil⟩
  | method r here s name args ih iha =>
    exact ⟨(iha hp.2 _ ((ih hp.1 st h).1.see r (e := .method here name [] false _) once_nil)).1, once_nil⟩
  | cls r name ts s ih => exact ⟨(ih hp st h).1.see _ (merge_once once_nil _), merge_once once_nil _⟩
  | staticProperty r here s name ih => exact ⟨(ih hp st h).1.see _ once_nil, once_nil⟩
  | staticMethod r here s name args ih iha =>
    exact ⟨(iha hp.2 _ ((ih hp.1 st h).1.see r (e := .staticMethod here name [] false _) once_nil)).1, once_nil⟩
  | staticConstant r s ih => exact ⟨(ih hp st h).1.see _ once_nil, once_nil⟩
  | constant r => exact ⟨h.see _ once_nil, once_nil⟩
  | call r name c args ihc iha =>
    exact ⟨(iha hp.2 _ (ihc hp.1 _ (h.see r (e := .call name [] false) once_nil)).1).1, once_nil⟩
  | create r ts c args ihc iha =>
    exact ⟨(iha hp.2 _ (ihc hp.1 _ (h.see r (e := .known (merge [] ts)) (merge_once once_nil _))).1).1, merge_once once_nil _⟩
  | derived r s ih => exact ⟨(ih hp st h).1.see _ (ih hp st h).2, (ih hp st h).2⟩
  | assign name r doc v stop ih =>
    obtain ⟨h1, h2⟩ := ih hp st h
    have he := h1.merged name (tidy_newVariable hc name doc) stop
    simp only [scan]
    refine ⟨?_, trivial⟩
    split
    · exact (h1.add _ _ he _ _).see _ he
    · have he' := tidy_setExpression he h2
      exact (h1.add _ _ he' _ _).see _ he'
  | each c name r doc body ihc ihb =>
    obtain ⟨h1, h2⟩ := ihc hp.1 st h
    have he := tidy_setExpression (h1.merged name (tidy_newVariable hc name doc) r.stop) (s := .element (scan cls c st).2) trivial
    exact ⟨(ihb hp.2 _ ((h1.add _ _ he _ _).see _ he)).1, trivial⟩
  | test i r name ts ih =>
    obtain ⟨h1, h2⟩ := ih hp st h
    simp only [scan]
    refine ⟨TidySt.see ?_ _ (merge_once once_nil _), trivial⟩
    split
    · exact h1.changeLast fun e he => tidy_mergeTypes _ he
    · exact h1
  | closure uses params header body ih =>
    obtain ⟨h1, h2⟩ := uses_tidy hc uses (st, { objects := st.objects, top := false, seen := st.seen }) h h
    exact ⟨(ih hp.2 _ (params_tidy header params hp.1 h2)).1, trivial⟩
  | global name => exact ⟨h, trivial⟩

/-- The types of an expression do not name a class twice. -/
theorem typesIn_once {cls : Union} (hc : Once cls) {p : Src} (hp : ParamsOnce p) (w : World) {x : Rng × Expr}
    (hx : x ∈ analyse cls p) : Once (x.2.typesIn w) :=
  ((((scan_tidy hc p hp {} ⟨by simp, by simp⟩).1).2 x hx).resolve w).getTypes

end Verif.Infer

namespace Verif.Whole

open Verif.Encoding Verif.Storage Verif.Store Verif.Query

/-! ## The text -/

/-- The types that are shown of a union. -/
def shownKinds (u : Types.Union) : List Infer.Kind := (u.filter fun t => !t.isEmpty).map Infer.kind

theorem variableText_reads (u : Types.Union) (name : Bytes) :
    Infer.VariableReads (shownKinds u) name (variableText u name) := by
  have he : (Types.unionIsEmpty u = true) ↔ shownKinds u = [] := by
    unfold Types.unionIsEmpty shownKinds
    rw [List.map_eq_nil_iff, List.filter_eq_nil_iff, Bool.or_eq_true, List.all_eq_true]
    constructor
    · rintro (h | h) t ht
      · rw [List.length_eq_zero_iff.1 (beq_iff_eq.1 h)] at ht; cases ht
      · simp [h t ht]
    · intro h
      refine .inr fun t ht => ?_
      simpa using h t ht
  have hb : Types.unionToBytes u = b!"|".intercalate ((shownKinds u).map Infer.written) := by
    unfold Types.unionToBytes shownKinds
    rw [Show.joinB_eq, List.map_map]
    rfl
  unfold Infer.VariableReads variableText wrapCode
  by_cases h : shownKinds u = []
  · rw [if_pos (he.2 h), if_pos h]; simp
  · rw [if_neg (fun x => h (he.1 x)), if_neg h, hb]; simp [List.append_assoc]

theorem mem_shownKinds {u : Types.Union} {k : Infer.Kind} : k ∈ shownKinds u ↔ k ∈ Infer.kinds u ∧ Infer.Real k := by
  unfold shownKinds Infer.kinds Infer.Real
  simp only [List.mem_map, List.mem_filter]
  constructor
  · rintro ⟨t, ⟨ht, hn⟩, rfl⟩
    refine ⟨⟨t, ht, rfl⟩, ?_⟩
    simpa [Types.Ty.isEmpty, Infer.kind] using hn
  · rintro ⟨⟨t, ht, rfl⟩, h⟩
    exact ⟨t, ⟨ht, by simpa [Types.Ty.isEmpty, Infer.kind] using h⟩, rfl⟩

/-- A variable of the document is shown with the types that it has. -/
theorem hover_shown {cls : Types.Union} (hc : Infer.Once cls) {p : Infer.Src} (hp : Infer.ParamsOnce p) (w : Infer.World)
    {x : Rng × Infer.Expr} (hx : x ∈ Infer.analyse cls p) {name : Bytes} (hn : Infer.varName x.2 = some name)
    (least most : List Infer.Kind) (hl : ∀ k ∈ least, ∃ t ∈ x.2.typesIn w, Infer.kind t = k)
    (hm : ∀ t ∈ x.2.typesIn w, Infer.kind t ∈ most) :
    ∃ text, variableHover w x.2 = some text ∧ Infer.VariableShown least most name text := by
  have hv := Infer.varName_resolve w x.2
  rw [hn] at hv
  have ho := Infer.typesIn_once hc hp w hx
  have htext : variableHover w x.2 = some (variableText (x.2.typesIn w) name) := by
    unfold variableHover Infer.Expr.typesIn
    cases hr : x.2.resolve w <;> rw [hr] at hv <;> simp [Infer.varName] at hv
    subst hv
    rfl
  refine ⟨_, htext, shownKinds (x.2.typesIn w), variableText_reads _ _, ?_, fun k hk => ?_, fun k hk hr => ?_⟩
  · unfold shownKinds
    rw [List.map_map]
    exact ho.sublist (List.Sublist.map _ List.filter_sublist)
  · obtain ⟨h1, h2⟩ := mem_shownKinds.1 hk
    obtain ⟨t, ht, rfl⟩ := List.mem_map.1 h1
    exact ⟨hm t ht, h2⟩
  · obtain ⟨t, ht, rfl⟩ := hl k hk
    exact mem_shownKinds.2 ⟨List.mem_map_of_mem ht, hr⟩

theorem forall₂_zip {α β γ : Type} {R : α → β → Prop} {S : α → γ → Prop} {T : α → β × γ → Prop}
    (h : ∀ a b c, R a b → S a c → T a (b, c)) {l : List α} {m : List β} {n : List γ} (h1 : List.Forall₂ R l m)
    (h2 : List.Forall₂ S l n) : List.Forall₂ T l (m.zip n) := by
  induction h1 generalizing n with
  | nil => cases h2; exact .nil
  | cons hr _ ih =>
    cases h2 with
    | cons hs h2 => exact .cons (h _ _ _ hr hs) (ih h2)

theorem forall₂_mem {α β : Type} {R : α → β → Prop} {l : List α} {m : List β} (h : List.Forall₂ R l m) :
    List.Forall₂ (fun a b => a ∈ l ∧ R a b) l m := by
  induction h with
  | nil => exact .nil
  | cons hr _ ih =>
    exact .cons ⟨List.mem_cons_self, hr⟩ (Infer.forall₂_imp (fun _ _ h => ⟨List.mem_cons_of_mem _ h.1, h.2⟩) ih)

theorem forall₂_tagged (l : List (Rng × Infer.Expr)) :
    List.Forall₂ (fun x y => x ∈ l ∧ Infer.tagged x = y) l (l.map Infer.tagged) := by
  refine forall₂_mem (R := fun x y => Infer.tagged x = y) ?_
  induction l with
  | nil => exact .nil
  | cons a l ih => exact .cons rfl ih

variable {env : Env} {root : Bytes} {h : List HOp} {s : Store}

/-- C139: hovering over a variable shows its name, and before it, separated by `|` and none twice, types that the file
itself or declarations of the current versions of the files give it: evaluating the program on types, where a variable
keeps all types it was ever given and calls and accesses have exactly the types that the current files declare, yields each
of them at that place. So at every place of the program, after any history of the index. -/
theorem C139_right (he : EnvOK env) (hsl : env.LowerSlash) (hok : HistOK env h) (hs : run env root h = some s)
    (ho : OneEach env (latest h)) (last : Imports.Table) (n ni : Nat) (st)
    (hst : ∀ u a c name, Reachable (worldOf env s) (st u a c name)) (cls : Types.Union) (hcls : Infer.Once cls)
    (p : Infer.Src) (hp : Infer.ParamsOnce p) (a b : Pos) (hf : Infer.Fits p a b) :
    ∃ o, Declared env (latest h) last o ∧
      List.Forall₂ (fun x y => x.1 = y.1.1 ∧ x.1 = y.2.1 ∧ ∀ name, y.1.2 = some name →
          ∃ text, variableHover (resolvedIn env s last n ni st) x.2 = some text ∧
            Infer.VariableShown [] y.2.2 name text)
        (Infer.analyse cls p) ((Infer.places p).zip (Infer.typesOf o (Infer.kinds cls) true p)) := by
  obtain ⟨o, hd, h2⟩ := C133_nothing_made_up he hsl hok hs ho last n ni st hst cls p a b hf
  refine ⟨o, hd, ?_⟩
  have h1 := forall₂_tagged (Infer.analyse cls p)
  rw [Infer.analyse_places] at h1
  refine forall₂_zip (fun x y z hxy hxz => ?_) h1 h2
  obtain ⟨hx, rfl⟩ := hxy
  exact ⟨rfl, hxz.1, fun name hn => hover_shown hcls hp _ hx hn [] _ (fun _ h => by cases h) hxz.2⟩

/-- C139: and all types are shown that evaluating the program on types yields at that place, where a variable has the types
of the value it was assigned last, and with the types that the current files declare for functions, global variables and
the public members that the classes declare themselves (`lo`). For programs that do not use the value of an assignment,
without expressions that may have the same class at two array depths, and without cycles of classes; with enough rounds for
the searches, which then end. -/
theorem C139_known (he : EnvOK env) (hsl : env.LowerSlash) (hok : HistOK env h) (hs : run env root h = some s)
    (ho : OneEach env (latest h)) (hac : Acyclic env (latest h)) (last : Imports.Table) (st)
    (hst : ∀ u a c name, Resolving (worldOf env s) (st u a c name)) (lo : Infer.Outside)
    (hlo : Stated env (latest h) last lo) (cls : Types.Union) (hcls : Infer.Once cls) (p : Infer.Src)
    (hp : Infer.ParamsOnce p) (a b : Pos) (hf : Infer.Fits p a b) (hpl : Infer.Plain p)
    (hcl : ∀ o, Declared env (latest h) last o → ∀ q ∈ Infer.typesOf o (Infer.kinds cls) true p, Infer.Clean q.2) :
    ∃ o N, Declared env (latest h) last o ∧ ∀ n ni, N ≤ n → N ≤ ni →
      List.Forall₂ (fun x y => x.1 = y.1.1 ∧ x.1 = y.2.1.1 ∧ x.1 = y.2.2.1 ∧ ∀ name, y.1.2 = some name →
          ∃ text, variableHover (resolvedIn env s last n ni st) x.2 = some text ∧
            Infer.VariableShown y.2.1.2 y.2.2.2 name text)
        (Infer.analyse cls p) ((Infer.places p).zip ((Infer.typesOf lo (Infer.kinds cls) false p).zip
          (Infer.typesOf o (Infer.kinds cls) true p))) := by
  obtain ⟨N, hN⟩ := C133_known he hsl hok hs ho hac last st hst lo hlo cls p a b hf hpl hcl
  obtain ⟨o, hd⟩ := declared_exists he hok hs last
  refine ⟨o, N, hd, fun n ni hn hni => ?_⟩
  have h3 := Infer.C74_nothing_made_up cls _ o
    (covers_of he hsl hok hs ho last n ni st (fun _ _ _ _ => (hst _ _ _ _).reachable) o hd) p a b hf
  have h1 := forall₂_tagged (Infer.analyse cls p)
  rw [Infer.analyse_places] at h1
  refine forall₂_zip (fun x y z hxy hxz => ?_) h1 (forall₂_zip (T := fun x z => (x.1 = z.1.1 ∧
    ∀ k ∈ z.1.2, ∃ t ∈ x.2.typesIn (resolvedIn env s last n ni st), Infer.kind t = k) ∧ x.1 = z.2.1 ∧
    ∀ t ∈ x.2.typesIn (resolvedIn env s last n ni st), Infer.kind t ∈ z.2.2) (fun _ _ _ h h' => ⟨h, h'⟩) (hN n ni hn hni) h3)
  obtain ⟨hx, rfl⟩ := hxy
  exact ⟨rfl, hxz.1.1, hxz.2.1, fun name hname => hover_shown hcls hp _ hx hname _ _ hxz.1.2 hxz.2.2⟩

/-- Non-vacuity, with the history and the program `$x = find(); $x->next(); $g` of C133: the variables are shown with the
class that the current files give them. -/
example : Infer.Once [] ∧ Infer.ParamsOnce Demo.typesSrc ∧
    (Infer.places Demo.typesSrc).filterMap (·.2) = [b!"$x", b!"$x", b!"$g"] ∧
    ∃ s, run Store.Demo.env Store.Demo.root Demo.typesHist = some s ∧
      (Infer.analyse [] Demo.typesSrc).map (fun x => variableHover
        (resolvedIn Store.Demo.env s (Imports.newTable ⟨0, 0⟩) 9 9 fun _ _ _ _ => St.new) x.2) =
      [none, some b!"```\n\\Base $x\n```\n", some b!"```\n\\Base $x\n```\n", none, some b!"```\n\\Base $g\n```\n"] := by
  refine ⟨List.nodup_nil, by simp [Demo.typesSrc, Infer.ParamsOnce], by decide +kernel, Store.Demo.observe _ _ (by decide +kernel)⟩

end Verif.Whole
