import Verif.References.Spec
import Verif.Analyser.Order
import Verif.Types.Props
import Verif.Common.Tactics

/-! Find references: which places are listed. -/

namespace Verif.References
open Verif.Types
open Verif.Imports (Table importTableAtPos inNamespace)
open Verif.Encoding (Range Position)
open Verif.Analyser (Node Tok PType Ctx toks toksOf Chain)
open Verif.Store (Env Store Doc HOp EnvOK HistOK RefsOK run)

/-! ### the token under the cursor -/

theorem up_append {root p q : Node} {ps qs : List Node} (h : Up q p ps) (hq : Up root q qs) (hps : ps ≠ []) :
    Up root p (ps ++ qs) := by
  induction ps generalizing p with
  | nil => exact absurd rfl hps
  | cons x xs ih =>
    refine ⟨h.1, ?_⟩
    cases xs with
    | nil =>
      have : x = q := h.2
      subst this
      exact hq
    | cons y ys => exact ih h.2 (by simp)

mutual

theorem mem_spines : ∀ (n : Node) (ps qs : List Node) (t : Tok), (qs, t) ∈ spines ps n ↔ ∃ xs, qs = xs ++ ps ∧ Spine n t xs
  | .tok t', ps, qs, t => by
    simp only [spines, List.mem_singleton, Prod.mk.injEq]
    constructor
    · rintro ⟨rfl, rfl⟩; exact ⟨[], rfl, rfl⟩
    · rintro ⟨xs, rfl, h⟩
      cases xs with
      | nil => have : Node.tok t = Node.tok t' := h; injection this with this; exact ⟨rfl, this⟩
      | cons x xs =>
        exfalso
        have : ∀ (xs : List Node) (p x : Node), Up (.tok t') p (x :: xs) → False := by
          intro xs
          induction xs with
          | nil => rintro p x ⟨h1, h2⟩; have : x = Node.tok t' := h2; subst this; simp [Node.kids] at h1
          | cons y ys ih => rintro p x ⟨-, h2⟩; exact ih _ _ h2
        exact this _ _ _ h
  | .err e, ps, qs, t => by
    simp only [spines, List.not_mem_nil, false_iff]
    rintro ⟨xs, -, h⟩
    cases xs with
    | nil => have : Node.tok t = Node.err e := h; cases this
    | cons x xs =>
      have : ∀ (xs : List Node) (p x : Node), Up (.err e) p (x :: xs) → False := by
        intro xs
        induction xs with
        | nil => rintro p x ⟨h1, h2⟩; have : x = Node.err e := h2; subst this; simp [Node.kids] at h1
        | cons y ys ih => rintro p x ⟨-, h2⟩; exact ih _ _ h2
      exact this _ _ _ h
  | .phr ty ks, ps, qs, t => by
    simp only [spines]
    rw [mem_spinesOf ks (.phr ty ks :: ps) qs t]
    constructor
    · rintro ⟨k, hk, xs, rfl, h⟩
      refine ⟨xs ++ [.phr ty ks], by simp, ?_⟩
      cases xs with
      | nil =>
        have : Node.tok t = k := h
        subst this
        exact ⟨hk, rfl⟩
      | cons x xs => exact up_append h ⟨hk, rfl⟩ (by simp)
    · rintro ⟨xs, rfl, h⟩
      have key : ∀ (xs : List Node) (p : Node), Up (.phr ty ks) p xs → p ≠ .phr ty ks ∨ xs ≠ [] →
          ∃ k ∈ ks, ∃ ys, xs = ys ++ [.phr ty ks] ∧ Up k p ys := by
        intro xs
        induction xs with
        | nil => intro p h hp; exact absurd (show p = .phr ty ks from h) (by simpa using hp)
        | cons x xs ih =>
          intro p h _
          cases xs with
          | nil =>
            have : x = .phr ty ks := h.2
            subst this
            exact ⟨p, h.1, [], rfl, rfl⟩
          | cons y ys =>
            obtain ⟨k, hk, zs, e, hu⟩ := ih x h.2 (.inr (by simp))
            exact ⟨k, hk, x :: zs, by simp [e], h.1, hu⟩
      obtain ⟨k, hk, ys, e, hu⟩ := key xs _ h (.inl (by simp))
      exact ⟨k, hk, ys, by simp [e], hu⟩

theorem mem_spinesOf : ∀ (ks ps qs : List Node) (t : Tok), (qs, t) ∈ spinesOf ps ks ↔
    ∃ k ∈ ks, ∃ xs, qs = xs ++ ps ∧ Spine k t xs
  | [], ps, qs, t => by simp [spinesOf]
  | k :: ks, ps, qs, t => by
    simp only [spinesOf, List.mem_append]
    rw [mem_spines k ps qs t, mem_spinesOf ks ps qs t]
    simp

end

mutual

theorem spines_toks : ∀ (n : Node) (ps : List Node), ((spines ps n).map (·.2)).Sublist (toks n)
  | .tok t, ps => by simp [spines, toks]
  | .err e, ps => by simp [spines, toks]
  | .phr ty ks, ps => by simp only [spines, toks]; exact spinesOf_toks ks _

theorem spinesOf_toks : ∀ (ks ps : List Node), ((spinesOf ps ks).map (·.2)).Sublist (toksOf ks)
  | [], ps => by simp [spinesOf, toksOf]
  | k :: ks, ps => by
    simp only [spinesOf, toksOf, List.map_append]
    exact (spines_toks k ps).append (spinesOf_toks ks ps)

end

theorem chain_later {a b : Nat} {ts : List Tok} (h : Chain a b ts) : ∀ t ∈ ts, a ≤ t.offset := by
  induction ts generalizing a with
  | nil => simp
  | cons x xs ih =>
    intro t ht
    rcases List.mem_cons.1 ht with rfl | ht
    · exact h.1
    · have := ih h.2 t ht
      have := h.1
      omega

theorem touched_once {a b : Nat} (offset : Nat) (xs : List (List Node × Tok)) (h : Chain a b (xs.map (·.2))) :
    (xs.filter fun x => touches offset x.2).length ≤ 1 := by
  induction xs generalizing a with
  | nil => simp
  | cons x xs ih =>
    rw [List.filter_cons]
    split
    · rename_i ht
      have : xs.filter (fun x => touches offset x.2) = [] := by
        rw [List.filter_eq_nil_iff]
        intro y hy hty
        have h1 : x.2.offset + x.2.length ≤ y.2.offset := chain_later h.2 y.2 (List.mem_map_of_mem hy)
        simp only [touches, Bool.and_eq_true, decide_eq_true_eq] at ht hty
        omega
      simp [this]
    · exact ih h.2

/-- In a tree whose tokens are one after the other, `NodeSpineAt` finds the token that the cursor is in or directly
behind, with its parents. -/
theorem nodeSpineAt_eq {root : Node} {a b offset : Nat} (hc : Chain a b (toks root)) {t : Tok} {ps : List Node}
    (hs : Spine root t ps) (ht : Touched offset t) : nodeSpineAt root offset = some (ps, t) := by
  unfold nodeSpineAt
  have hm : (ps, t) ∈ (spines [] root).filter fun x => touches offset x.2 := by
    rw [List.mem_filter]
    refine ⟨(mem_spines root [] ps t).2 ⟨ps, by simp, hs⟩, ?_⟩
    simpa [touches, Touched] using ht
  have h1 := touched_once offset (spines [] root) (Analyser.chain_sublist (spines_toks root []) hc)
  generalize (spines [] root).filter (fun x => touches offset x.2) = l at hm h1
  match l, hm, h1 with
  | [x], hm, _ => simp at hm; simp [hm]
  | _ :: _ :: _, _, h1 => simp at h1

/-- There is no token under the cursor. -/
theorem nodeSpineAt_none {root : Node} {offset : Nat} (h : ∀ ps t, Spine root t ps → ¬ Touched offset t) :
    nodeSpineAt root offset = none := by
  unfold nodeSpineAt
  rw [List.getLast?_eq_none_iff, List.filter_eq_nil_iff]
  rintro ⟨ps, t⟩ hm ht
  obtain ⟨xs, -, hs⟩ := (mem_spines root [] ps t).1 hm
  exact h xs t hs (by simpa [touches, Touched] using ht)

/-! ### what is recorded -/

theorem mapM_flatten {α β : Type} (f : α → Option (List β)) (xs : List α) (l : List β)
    (h : (xs.mapM f).map List.flatten = some l) (y : β) : y ∈ l ↔ ∃ x ∈ xs, ∃ ys, f x = some ys ∧ y ∈ ys := by
  induction xs generalizing l with
  | nil => simp at h; subst h; simp
  | cons x xs ih =>
    rw [List.mapM_cons] at h
    cases hx : f x with
    | none => simp [hx] at h
    | some ys =>
      cases hxs : xs.mapM f with
      | none => simp [hx, hxs] at h
      | some zs =>
        simp [hx, hxs] at h
        subst h
        have := ih zs.flatten (by simp [hxs])
        rw [List.mem_append, this]
        simp [hx]

theorem mem_recorded {f : File} {l : List (Bytes × Range)} (h : recorded f = some l) (ref : Bytes) (r : Range) :
    (ref, r) ∈ l ↔ ∃ s ∈ f.symbols, ∃ ys, symbolRefs f.tables s = some ys ∧ (ref, r) ∈ ys :=
  mapM_flatten _ _ _ h _

/-- What a symbol records. -/
def Records (tables : List Table) (s : Symbol) (ref : Bytes) (r : Range) : Prop :=
  ∃ ys, symbolRefs tables s = some ys ∧ (ref, r) ∈ ys

theorem uses_iff {src : Doc → File} {h : List HOp} (hr : Recorded src h) (hd : ∀ u d, Store.latest h u = some d → d ∈ Store.docs h)
    (u ref : Bytes) (r : Range) : r ∈ Store.uses (Store.latest h) u ref ↔
      Somewhere src h (fun f s r => Records f.tables s ref r) u r := by
  unfold Store.uses Somewhere
  cases hl : Store.latest h u with
  | none => simp
  | some d =>
    have e := mem_recorded (hr d (hd u d hl)) ref r
    by_cases hh : Store.haveReferences u = true
    · simp only [hh, if_true, List.mem_map, List.mem_filter]
      constructor
      · rintro ⟨⟨a, b⟩, ⟨h1, h2⟩, rfl⟩
        simp only [beq_iff_eq] at h2
        subst h2
        exact ⟨d, rfl, trivial, e.1 h1⟩
      · rintro ⟨d', h1, -, h2⟩
        injection h1 with h1
        subst h1
        exact ⟨(ref, r), ⟨e.2 h2, by simp⟩, rfl⟩
    · simp [hh]

theorem latest_docs (h : List HOp) (u : Bytes) (d : Doc) (hl : Store.latest h u = some d) : d ∈ Store.docs h := by
  have key : ∀ (h : List HOp) (L : Bytes → Option Doc), (h.foldl Store.latestStep L) u = some d → d ∈ Store.docs h ∨ ∃ v, L v = some d := by
    intro h
    induction h with
    | nil => intro L hl; exact .inr ⟨u, hl⟩
    | cons o h ih =>
      intro L hl
      rcases ih _ hl with h1 | ⟨v, h1⟩
      · left
        unfold Store.docs at h1 ⊢
        rw [List.filterMap_cons]
        split
        · exact h1
        · exact List.mem_cons_of_mem _ h1
      · cases o with
        | index d' =>
          simp only [Store.latestStep] at h1
          split at h1
          · injection h1 with h1; subst h1; left; simp [Store.docs]
          · exact .inr ⟨v, h1⟩
        | delete w =>
          simp only [Store.latestStep] at h1
          split at h1
          · cases h1
          · exact .inr ⟨v, h1⟩
        | restart => exact .inr ⟨v, h1⟩
        | crash d' k =>
          simp only [Store.latestStep] at h1
          split at h1
          · injection h1 with h1; subst h1; left; simp [Store.docs]
          · exact .inr ⟨v, h1⟩
        | upgrade x => simp [Store.latestStep] at h1
  rcases key h _ hl with h1 | ⟨v, h1⟩
  · exact h1
  · cases h1

section
variable {env : Env} {root : Bytes} {h : List HOp} {st : Store} {src : Doc → File}

theorem search_answers (hr : Ready env root h st src) (refs : List Bytes) :
    Answers src h (fun f s r => ∃ ref ∈ refs, Records f.tables s ref r) (search env st refs) := by
  induction refs with
  | nil => exact ⟨[], rfl, by simp [Somewhere]⟩
  | cons ref refs ih =>
    obtain ⟨res, e, hres⟩ := ih
    obtain ⟨res', e', hres'⟩ := Store.C18_references_exact hr.environment hr.filter hr.hist hr.inside hr.result ref
    refine ⟨res' ++ res, by simp [search, e, e'], fun u r => ?_⟩
    have h1 : (u, r) ∈ res' ↔ r ∈ Store.uses (Store.latest h) u ref := by
      rw [← hres' u]
      simp
    rw [List.mem_append, h1, hres, uses_iff hr.recorded (latest_docs h)]
    unfold Somewhere
    constructor
    · rintro (⟨d, h1, h2, s, h3, h4⟩ | ⟨d, h1, h2, s, h3, x, h4, h5⟩)
      · exact ⟨d, h1, h2, s, h3, ref, by simp, h4⟩
      · exact ⟨d, h1, h2, s, h3, x, by simp [h4], h5⟩
    · rintro ⟨d, k1, k2, s, k3, x, k4, k5⟩
      rcases List.mem_cons.1 k4 with e4 | k4
      · exact .inl ⟨d, k1, k2, s, k3, e4 ▸ k5⟩
      · exact .inr ⟨d, k1, k2, s, k3, x, k4, k5⟩

theorem answers_congr {P Q : File → Symbol → Range → Prop} {a : Option (List (Bytes × Range))} (ha : Answers src h P a)
    (hpq : ∀ u d, Store.latest h u = some d → ∀ s ∈ (src d).symbols, ∀ r, P (src d) s r ↔ Q (src d) s r) : Answers src h Q a := by
  obtain ⟨res, e, hres⟩ := ha
  refine ⟨res, e, fun u r => (hres u r).trans ?_⟩
  unfold Somewhere
  constructor
  · rintro ⟨d, h1, h2, s, h3, h4⟩; exact ⟨d, h1, h2, s, h3, (hpq u d h1 s h3 r).1 h4⟩
  · rintro ⟨d, h1, h2, s, h3, h4⟩; exact ⟨d, h1, h2, s, h3, (hpq u d h1 s h3 r).2 h4⟩

end

/-! ### names and what is recorded -/

theorem records_iff (tables : List Table) (s : Symbol) (ref : Bytes) (r : Range) : Records tables s ref r ↔
    ∃ refs, symToRefs tables s = some refs ∧ ((s.mark.referenceFQN = some ref ∧ r = s.nameRange) ∨ (ref ∈ refs ∧ r = s.range)) := by
  unfold Records symbolRefs
  constructor
  · rintro ⟨ys, h1, h2⟩
    cases h3 : symToRefs tables s with
    | none => simp [h3] at h1
    | some refs =>
      rw [h3, Option.map_some] at h1
      injection h1 with h1
      subst h1
      refine ⟨refs, rfl, ?_⟩
      rw [List.mem_append] at h2
      rcases h2 with h2 | h2
      · left
        cases h4 : s.mark.referenceFQN with
        | none => simp [h4] at h2
        | some x => simp [h4] at h2; simp [h2]
      · right
        obtain ⟨x, hx, e⟩ := List.mem_map.1 h2
        injection e with e1 e2
        exact ⟨e1 ▸ hx, e2.symm⟩
  · rintro ⟨refs, h1, h2⟩
    refine ⟨_, by rw [h1]; rfl, ?_⟩
    rw [List.mem_append]
    rcases h2 with ⟨h2, rfl⟩ | ⟨h2, rfl⟩
    · left; simp [h2]
    · right; exact List.mem_map.2 ⟨ref, h2, rfl⟩

theorem call_refs {tables : List Table} {pos : Pos} {name : Bytes} {refs : List Bytes} (h : callRefs tables pos name = some refs) :
    ∃ i t, importTableAtPos tables pos = some i ∧ newTypeString name = some t ∧ refs = (i.functionPossibleFQNs t).map (· ++ b!"()") := by
  unfold callRefs at h
  cases h1 : importTableAtPos tables pos with
  | none => simp [h1] at h
  | some i =>
    cases h2 : newTypeString name with
    | none => simp [h1, h2] at h
    | some t => simp [h1, h2] at h; exact ⟨i, t, rfl, rfl, h.symm⟩

theorem setNamespace_isFQN (t : Ty) (ns : Bytes) : isFQN (t.setNamespace ns).fqn = true := by
  rw [Imports.setNamespace_fqn]
  split
  · assumption
  · rw [Imports.isFQN_iff]; right; unfold inNamespace; split <;> simp [Imports.FullyQualified]

theorem possible_isFQN (i : Table) (t : Ty) : ∀ F ∈ i.functionPossibleFQNs t, isFQN F = true := by
  intro F hF
  unfold Imports.Table.functionPossibleFQNs at hF
  have hg : isFQN (Imports.globalFQN t) = true := by
    unfold Imports.globalFQN
    split
    · assumption
    · rw [Imports.isFQN_iff]; right; simp [Imports.FullyQualified]
  split at hF
  · rename_i fqn he
    unfold Imports.Table.importedFQN at he
    simp only [Option.map_eq_some_iff] at he
    obtain ⟨x, -, rfl⟩ := he
    simp only [List.mem_singleton] at hF
    subst hF
    rw [Imports.isFQN_iff]; right; simp [Imports.FullyQualified]
  · have hn := setNamespace_isFQN t i.getNamespace
    dsimp only at hF
    split at hF
    · simp only [List.mem_cons, List.not_mem_nil, or_false] at hF
      rcases hF with rfl | rfl
      · exact hg
      · exact hn
    · simp only [List.mem_singleton] at hF
      subst hF
      exact hg

theorem isFQN_no_dot {F : Bytes} (h : isFQN F = true) : F.head? ≠ some 46 := by
  rw [Imports.isFQN_iff] at h
  rcases h with h | h
  · have : ∀ n ∈ natives, n.head? ≠ some 46 := by decide
    exact this F h
  · unfold Imports.FullyQualified at h
    rw [h]; decide

theorem open_paren (n : Bytes) : (40 : UInt8) ∈ n ++ b!"()" := by simp

/-- Under the name of a class exactly the names of the class are recorded. -/
theorem records_class (tables : List Table) (s : Symbol) {X : Bytes} (hX : ClassName X) (r : Range) :
    Records tables s X r ↔ NamesClass X s r := by
  rw [records_iff]
  obtain ⟨m, a, b⟩ := s
  obtain ⟨h40, h46⟩ := hX
  have hp : ∀ n : Bytes, X ≠ n ++ b!"()" := fun n e => h40 (e ▸ open_paren n)
  have hdot : ∀ n : Bytes, X ≠ 46 :: n := fun n e => h46 (by rw [e]; rfl)
  constructor
  · rintro ⟨refs, h1, h2⟩
    rcases h2 with ⟨h2, rfl⟩ | ⟨h2, rfl⟩
    · cases m <;> simp [Mark.referenceFQN] at h2
      · subst h2; exact .class_ _ _
      · subst h2; exact .interface _ _
      · exact absurd h2.symm (hp _)
      · exact absurd h2.symm (hdot _)
      · exact absurd h2.symm (hdot _)
      · exact absurd h2.symm (hdot _)
    · cases m with
      | call name =>
        obtain ⟨i, t, -, -, rfl⟩ := call_refs h1
        obtain ⟨F, -, e⟩ := List.mem_map.1 h2
        exact absurd e.symm (hp F)
      | classUse kind name types =>
        simp only [symToRefs] at h1
        split at h1
        · injection h1 with h1; subst h1; simp at h2
        · rename_i hs
          injection h1 with h1
          subst h1
          obtain ⟨t, ht, e⟩ := List.mem_map.1 h2
          refine .used kind name types t _ _ ht e ?_
          rintro ⟨rfl, h⟩
          apply hs
          simp only [isNameRelative, Bool.and_eq_true, beq_self_eq_true, true_and, Bool.or_eq_true, beq_iff_eq]
          rcases h with h | h | h <;> simp [h]
      | _ =>
        simp only [symToRefs, Option.some.injEq] at h1
        subst h1
        simp only [Option.mem_toList, Option.map_eq_some_iff] at h2
        obtain ⟨n, -, e⟩ := h2
        exact absurd e.symm (hdot n)
  · intro h
    cases h with
    | class_ => exact ⟨_, rfl, .inl ⟨rfl, rfl⟩⟩
    | interface => exact ⟨_, rfl, .inl ⟨rfl, rfl⟩⟩
    | used kind name types t a b ht hX hs =>
      refine ⟨types.map (·.fqn), ?_, .inr ⟨List.mem_map.2 ⟨t, ht, hX⟩, rfl⟩⟩
      simp only [symToRefs]
      rw [if_neg]
      intro hc
      simp only [isNameRelative, Bool.and_eq_true, Bool.or_eq_true, beq_iff_eq] at hc
      exact hs ⟨hc.1, by rcases hc.2 with (h | h) | h <;> simp [h]⟩

theorem append_paren {n m : Bytes} : n ++ b!"()" = m ++ b!"()" ↔ n = m := List.append_left_inj _

theorem records_method (tables : List Table) (s : Symbol) {n : Bytes} (hn : (40 : UInt8) ∉ n) (hs : Named s) (r : Range) :
    Records tables s (46 :: (n ++ b!"()")) r ↔ NamesMethod n s r := by
  rw [records_iff]
  obtain ⟨m, a, b⟩ := s
  have hp : ∀ x : Bytes, (40 : UInt8) ∉ x → x ≠ n ++ b!"()" := fun x hx e => hx (e ▸ open_paren n)
  constructor
  · rintro ⟨refs, h1, h2⟩
    rcases h2 with ⟨h2, rfl⟩ | ⟨h2, rfl⟩
    · cases m <;> simp only [Mark.referenceFQN, Option.some.injEq, reduceCtorEq] at h2
      · subst h2; exact absurd rfl hs.2
      · subst h2; exact absurd rfl hs.2
      · rename_i f
        cases f with
        | nil => cases h2
        | cons c f => injection h2 with h2 _; subst h2; exact absurd rfl hs
      · injection h2 with _ h2
        rw [append_paren] at h2
        subst h2
        exact .declared _ _
      · injection h2 with _ h2; exact absurd h2 (hp _ hs.1)
      · injection h2 with _ h2; exact absurd h2 (hp _ hs.1)
    · cases m with
      | call name =>
        obtain ⟨i, t, -, -, rfl⟩ := call_refs h1
        obtain ⟨F, hF, e⟩ := List.mem_map.1 h2
        have := isFQN_no_dot (possible_isFQN i t F hF)
        cases F with
        | nil => cases e
        | cons c F => injection e with e _; subst e; exact absurd rfl this
      | classUse kind name types =>
        simp only [symToRefs] at h1
        split at h1
        · injection h1 with h1; subst h1; simp at h2
        · injection h1 with h1
          subst h1
          obtain ⟨t, ht, e⟩ := List.mem_map.1 h2
          have := (hs t ht).2
          rw [e] at this
          exact absurd rfl this
      | propertyAccess x =>
        simp only [symToRefs, Option.some.injEq] at h1
        subst h1
        simp only [Option.mem_toList, Option.map_eq_some_iff] at h2
        obtain ⟨y, h3, e⟩ := h2
        injection e with _ e
        subst e
        cases x with
        | nil => exact absurd rfl hs.2.2
        | cons c x =>
          simp only [Mark.memberName, Option.some.injEq] at h3
          split at h3
          · exact absurd h3 (hp _ hs.1)
          · refine absurd h3 (hp _ ?_)
            have := hs.1
            simp only [List.mem_cons, not_or] at this ⊢
            exact ⟨by decide, this⟩
      | methodAccess x =>
        simp only [symToRefs, Option.some.injEq] at h1
        subst h1
        simp only [Option.mem_toList, Option.map_eq_some_iff] at h2
        obtain ⟨y, h3, e⟩ := h2
        injection e with _ e
        subst e
        simp only [Mark.memberName, Option.some.injEq, append_paren] at h3
        subst h3
        exact .called _ _
      | scopedMethodAccess x =>
        simp only [symToRefs, Option.some.injEq] at h1
        subst h1
        simp only [Option.mem_toList, Option.map_eq_some_iff] at h2
        obtain ⟨y, h3, e⟩ := h2
        injection e with _ e
        subst e
        simp only [Mark.memberName, Option.some.injEq, append_paren] at h3
        subst h3
        exact .static _ _
      | scopedPropertyAccess x =>
        simp only [symToRefs, Option.some.injEq] at h1
        subst h1
        simp only [Option.mem_toList, Option.map_eq_some_iff] at h2
        obtain ⟨y, h3, e⟩ := h2
        injection e with _ e
        subst e
        simp only [Mark.memberName, Option.some.injEq] at h3
        exact absurd h3 (hp _ hs.1)
      | scopedConstantAccess x =>
        simp only [symToRefs, Option.some.injEq] at h1
        subst h1
        simp only [Option.mem_toList, Option.map_eq_some_iff] at h2
        obtain ⟨y, h3, e⟩ := h2
        injection e with _ e
        subst e
        simp only [Mark.memberName, Option.some.injEq] at h3
        exact absurd h3 (hp _ hs.1)
      | _ =>
        simp only [symToRefs, Option.some.injEq] at h1
        subst h1
        simp [Mark.memberName] at h2
  · intro h
    cases h with
    | declared => exact ⟨_, rfl, .inl ⟨rfl, rfl⟩⟩
    | called => exact ⟨_, rfl, .inr ⟨by simp [Mark.memberName], rfl⟩⟩
    | static => exact ⟨_, rfl, .inr ⟨by simp [Mark.memberName], rfl⟩⟩

/-- Which member names are recorded under a name without parentheses. -/
theorem records_member (tables : List Table) (s : Symbol) {n : Bytes} (hn : (40 : UInt8) ∉ n) (hs : Named s) (r : Range) :
    Records tables s (46 :: n) r ↔
      ((s.mark = .property n ∨ s.mark = .classConst n) ∧ r = s.nameRange) ∨
      ((s.mark = .scopedPropertyAccess n ∨ s.mark = .scopedConstantAccess n ∨ ∃ x, s.mark = .propertyAccess x ∧ n = 36 :: x) ∧
        r = s.range) := by
  rw [records_iff]
  obtain ⟨m, a, b⟩ := s
  have hp : ∀ x : Bytes, x ++ b!"()" ≠ n := fun x e => hn (e ▸ open_paren x)
  constructor
  · rintro ⟨refs, h1, h2⟩
    rcases h2 with ⟨h2, rfl⟩ | ⟨h2, rfl⟩
    · cases m <;> simp only [Mark.referenceFQN, Option.some.injEq, reduceCtorEq] at h2
      · subst h2; exact absurd rfl hs.2
      · subst h2; exact absurd rfl hs.2
      · rename_i f
        cases f with
        | nil => cases h2
        | cons c f => injection h2 with h2 _; subst h2; exact absurd rfl hs
      · injection h2 with _ h2; exact absurd h2 (hp _)
      · injection h2 with _ h2; subst h2; exact .inl ⟨.inl rfl, rfl⟩
      · injection h2 with _ h2; subst h2; exact .inl ⟨.inr rfl, rfl⟩
    · cases m with
      | call name =>
        obtain ⟨i, t, -, -, rfl⟩ := call_refs h1
        obtain ⟨F, hF, e⟩ := List.mem_map.1 h2
        have := isFQN_no_dot (possible_isFQN i t F hF)
        cases F with
        | nil => cases e
        | cons c F => injection e with e _; subst e; exact absurd rfl this
      | classUse kind name types =>
        simp only [symToRefs] at h1
        split at h1
        · injection h1 with h1; subst h1; simp at h2
        · injection h1 with h1
          subst h1
          obtain ⟨t, ht, e⟩ := List.mem_map.1 h2
          have := (hs t ht).2
          rw [e] at this
          exact absurd rfl this
      | propertyAccess x =>
        simp only [symToRefs, Option.some.injEq] at h1
        subst h1
        simp only [Option.mem_toList, Option.map_eq_some_iff] at h2
        obtain ⟨y, h3, e⟩ := h2
        injection e with _ e
        subst e
        cases x with
        | nil => exact absurd rfl hs.2.2
        | cons c x =>
          simp only [Mark.memberName, Option.some.injEq] at h3
          split at h3
          · rename_i hc; subst hc; exact absurd rfl hs.2.1
          · exact .inr ⟨.inr (.inr ⟨_, rfl, h3.symm⟩), rfl⟩
      | methodAccess x =>
        simp only [symToRefs, Option.some.injEq] at h1
        subst h1
        simp only [Option.mem_toList, Option.map_eq_some_iff] at h2
        obtain ⟨y, h3, e⟩ := h2
        injection e with _ e
        subst e
        simp only [Mark.memberName, Option.some.injEq] at h3
        exact absurd h3 (hp _)
      | scopedMethodAccess x =>
        simp only [symToRefs, Option.some.injEq] at h1
        subst h1
        simp only [Option.mem_toList, Option.map_eq_some_iff] at h2
        obtain ⟨y, h3, e⟩ := h2
        injection e with _ e
        subst e
        simp only [Mark.memberName, Option.some.injEq] at h3
        exact absurd h3 (hp _)
      | scopedPropertyAccess x =>
        simp only [symToRefs, Option.some.injEq] at h1
        subst h1
        simp only [Option.mem_toList, Option.map_eq_some_iff] at h2
        obtain ⟨y, h3, e⟩ := h2
        injection e with _ e
        subst e
        simp only [Mark.memberName, Option.some.injEq] at h3
        subst h3
        exact .inr ⟨.inl rfl, rfl⟩
      | scopedConstantAccess x =>
        simp only [symToRefs, Option.some.injEq] at h1
        subst h1
        simp only [Option.mem_toList, Option.map_eq_some_iff] at h2
        obtain ⟨y, h3, e⟩ := h2
        injection e with _ e
        subst e
        simp only [Mark.memberName, Option.some.injEq] at h3
        subst h3
        exact .inr ⟨.inr (.inl rfl), rfl⟩
      | _ =>
        simp only [symToRefs, Option.some.injEq] at h1
        subst h1
        simp [Mark.memberName] at h2
  · rintro (⟨h | h, rfl⟩ | ⟨h | h | ⟨x, h, e⟩, rfl⟩)
    · simp only at h; subst h; exact ⟨_, rfl, .inl ⟨rfl, rfl⟩⟩
    · simp only at h; subst h; exact ⟨_, rfl, .inl ⟨rfl, rfl⟩⟩
    · simp only at h; subst h; exact ⟨_, rfl, .inr ⟨by simp [Mark.memberName], rfl⟩⟩
    · simp only at h; subst h; exact ⟨_, rfl, .inr ⟨by simp [Mark.memberName], rfl⟩⟩
    · simp only at h
      subst h e
      refine ⟨_, rfl, .inr ⟨?_, rfl⟩⟩
      cases x with
      | nil => exact absurd rfl hs.2.2
      | cons c x =>
        have : c ≠ 36 := by rintro rfl; exact hs.2.1 rfl
        simp [Mark.memberName, this]

theorem records_property (tables : List Table) (s : Symbol) {n : Bytes} (hn : (40 : UInt8) ∉ n) (hs : Named s) (r : Range) :
    Records tables s (46 :: 36 :: n) r ↔ NamesProperty n s r := by
  rw [records_member tables s (by simpa using hn) hs]
  obtain ⟨m, a, b⟩ := s
  constructor
  · rintro (⟨h | h, rfl⟩ | ⟨h | h | ⟨x, h, e⟩, rfl⟩)
    · simp only at h; subst h; exact .declared _ _
    · simp only at h; subst h; exact absurd rfl hs.2
    · simp only at h; subst h; exact .static _ _
    · simp only at h; subst h; exact absurd rfl hs.2
    · simp only at h; subst h; injection e with _ e; subst e; exact .used _ _
  · intro h
    cases h with
    | declared => exact .inl ⟨.inl rfl, rfl⟩
    | used => exact .inr ⟨.inr (.inr ⟨n, rfl, rfl⟩), rfl⟩
    | static => exact .inr ⟨.inl rfl, rfl⟩

theorem records_constant (tables : List Table) (s : Symbol) {n : Bytes} (hn : (40 : UInt8) ∉ n) (h36 : n.head? ≠ some 36)
    (hs : Named s) (r : Range) : Records tables s (46 :: n) r ↔ NamesConstant n s r := by
  rw [records_member tables s hn hs]
  obtain ⟨m, a, b⟩ := s
  constructor
  · rintro (⟨h | h, rfl⟩ | ⟨h | h | ⟨x, h, e⟩, rfl⟩)
    · simp only at h; subst h; exact absurd hs.2 h36
    · simp only at h; subst h; exact .declared _ _
    · simp only at h; subst h; exact absurd hs.2 h36
    · simp only at h; subst h; exact .used _ _
    · subst e; exact absurd rfl h36
  · intro h
    cases h with
    | declared => exact .inl ⟨.inr rfl, rfl⟩
    | used => exact .inr ⟨.inr (.inl rfl), rfl⟩

theorem records_function (tables : List Table) (s : Symbol) {F : Bytes} (hF : F.head? ≠ some 46) (h0 : F ≠ []) (hs : Named s) (r : Range) :
    Records tables s (F ++ b!"()") r ↔ NamesFunction tables F s r := by
  rw [records_iff]
  obtain ⟨m, a, b⟩ := s
  have hdot : ∀ n : Bytes, 46 :: n ≠ F ++ b!"()" := by
    intro n e
    cases F with
    | nil => exact h0 rfl
    | cons c F => injection e with e _; subst e; exact hF rfl
  have hp : ∀ x : Bytes, (40 : UInt8) ∉ x → x ≠ F ++ b!"()" := fun x hx e => hx (e ▸ open_paren F)
  constructor
  · rintro ⟨refs, h1, h2⟩
    rcases h2 with ⟨h2, rfl⟩ | ⟨h2, rfl⟩
    · cases m <;> simp only [Mark.referenceFQN, Option.some.injEq, reduceCtorEq] at h2
      · exact absurd h2 (hp _ hs.1)
      · exact absurd h2 (hp _ hs.1)
      · rw [append_paren] at h2; subst h2; exact .declared _ _
      · exact absurd h2 (hdot _)
      · exact absurd h2 (hdot _)
      · exact absurd h2 (hdot _)
    · cases m with
      | call name =>
        obtain ⟨i, t, hi, ht, rfl⟩ := call_refs h1
        obtain ⟨F', hF', e⟩ := List.mem_map.1 h2
        rw [append_paren] at e
        subst e
        exact .called name t i _ _ hi ht hF'
      | classUse kind name types =>
        simp only [symToRefs] at h1
        split at h1
        · injection h1 with h1; subst h1; simp at h2
        · injection h1 with h1
          subst h1
          obtain ⟨t, ht, e⟩ := List.mem_map.1 h2
          exact absurd e (hp _ (hs t ht).1)
      | _ =>
        simp only [symToRefs, Option.some.injEq] at h1
        subst h1
        simp only [Option.mem_toList, Option.map_eq_some_iff] at h2
        obtain ⟨n, -, e⟩ := h2
        exact absurd e (hdot n)
  · intro h
    cases h with
    | declared => exact ⟨_, rfl, .inl ⟨rfl, rfl⟩⟩
    | called name t i a b hi ht hF' =>
      refine ⟨(i.functionPossibleFQNs t).map (· ++ b!"()"), ?_, .inr ⟨List.mem_map.2 ⟨F, hF', rfl⟩, rfl⟩⟩
      simp [symToRefs, callRefs, hi, ht]

end Verif.References
