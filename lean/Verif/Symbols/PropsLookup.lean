import Verif.Symbols.Lookup
import Verif.Symbols.PropsTree

/-! C63, C64, C65: finding symbols at a position. -/

namespace Verif.Symbols
open Verif.Position

theorem symAt_isSome {α : Type} (doc : List (Tree α)) (p : Path) : (∃ s, symAt doc p = some s) ↔ Valid doc p := by
  have hlen : ∀ (p : Path) (ts : List (Tree α)) (l : List (Tree α)), spineAt ts p = some l → l.length = p.length := by
    intro p
    induction p with
    | nil => intro ts l h; simp [spineAt] at h; simp [h]
    | cons i p ih =>
      intro ts l h
      simp only [spineAt] at h
      cases hi : ts[i]? with
      | none => simp [hi] at h
      | some s =>
        simp only [hi, Option.map_eq_some_iff] at h
        obtain ⟨l', h1, rfl⟩ := h
        simp [ih _ _ h1]
  unfold symAt Valid
  cases h : spineAt doc p with
  | none => simp
  | some l =>
    have := hlen p doc l h
    cases l with
    | nil => cases p with
      | nil => simp
      | cons => simp at this
    | cons a l => cases p with
      | nil => simp at this
      | cons => simp [List.getLast?_cons]

theorem spineAt_of_symAt {α : Type} {doc : List (Tree α)} {p : Path} {s : Tree α} (h : symAt doc p = some s) :
    ∃ sp, spineAt doc p = some (sp ++ [s]) := by
  unfold symAt at h
  cases hs : spineAt doc p with
  | none => simp [hs] at h
  | some l =>
    simp only [hs, Option.bind_some] at h
    obtain ⟨ys, rfl⟩ := List.getLast?_eq_some_iff.mp h
    exact ⟨ys, rfl⟩

/-- What a visitor finds that notes the last symbol it is interested in. -/
theorem visit_last_core (fn : Visitor (Option (Tree Info)) Info) (T stop skip : Info → Bool)
    (hfn : ∀ x sp s, fn x .new (sp ++ [s]) = (if T s.info then some s else x, ⟨stop s.info, skip s.info⟩))
    (doc : List (Tree Info))
    (hstop : ∀ p q s t, symAt doc p = some s → symAt doc q = some t → List.Lex (· < ·) p q → stop s.info = true →
      T t.info = false) :
    ∀ (ps done : List Path) (refused : List Path) (x : Option (Tree Info)),
      InOrder (done ++ ps) → (∀ p, p ∈ done ++ ps ↔ Valid doc p) →
      (∀ q ∈ ps, (∃ r ∈ refused, r <+: q) ↔ ∃ r ∈ done, ∃ t, symAt doc r = some t ∧ skip t.info = true ∧ r <+: q) →
      (visitAll fn doc refused x ps = x ∧ ∀ p ∈ ps, ∀ s, symAt doc p = some s →
        ¬ (T s.info = true ∧ ∀ r t, symAt doc r = some t → r <+: p → r ≠ p → skip t.info = false)) ∨
      ∃ p ∈ ps, ∃ s, symAt doc p = some s ∧ visitAll fn doc refused x ps = some s ∧
        (T s.info = true ∧ ∀ r t, symAt doc r = some t → r <+: p → r ≠ p → skip t.info = false) ∧
        ∀ q ∈ ps, ∀ t, symAt doc q = some t →
          (T t.info = true ∧ ∀ r u, symAt doc r = some u → r <+: q → r ≠ q → skip u.info = false) →
          q = p ∨ List.Lex (· < ·) q p := by
  intro ps
  induction ps with
  | nil => intro done refused x _ _ _; left; exact ⟨rfl, by simp⟩
  | cons p ps ih =>
    intro done refused x hord hmem hinv
    have hord' : InOrder ((done ++ [p]) ++ ps) := by simpa using hord
    have hmem' : ∀ q, q ∈ (done ++ [p]) ++ ps ↔ Valid doc q := by intro q; rw [← hmem]; simp
    obtain ⟨s, hs⟩ := (symAt_isSome doc p).mpr ((hmem p).mp (by simp))
    have hafter : ∀ q ∈ ps, List.Lex (· < ·) p q := by
      intro q hq
      have := (List.pairwise_append.mp hord).2.1
      exact (List.pairwise_cons.mp this).1 q hq
    have hbefore : ∀ q ∈ done, List.Lex (· < ·) q p := fun q hq =>
      (List.pairwise_append.mp hord).2.2 q hq p (by simp)
    have hirr : ∀ p : Path, ¬ List.Lex (· < ·) p p := by
      intro p
      induction p with
      | nil => intro h; cases h
      | cons a p ih => intro h; cases h with
        | cons h => exact ih h
        | rel h => exact absurd h (Nat.lt_irrefl _)
    have hpre : ∀ a b : Path, a <+: b → a ≠ b → List.Lex (· < ·) a b := by
      rintro a b ⟨c, rfl⟩ hne
      cases c with
      | nil => simp at hne
      | cons c cs =>
        have := lex_append_left a (List.Lex.nil (r := (· < ·)) (a := c) (l := cs))
        simpa using this
    have hasym : ∀ a b : Path, List.Lex (· < ·) a b → ¬ List.Lex (· < ·) b a := by
      intro p q h1
      induction h1 with
      | nil => intro h; cases h
      | cons _ ih => intro h; cases h with
        | cons h => exact ih h
        | rel h => exact absurd h (Nat.lt_irrefl _)
      | rel h => intro h'; cases h' with
        | cons h'' => exact absurd h (Nat.lt_irrefl _)
        | rel h'' => exact absurd h (Nat.lt_asymm h'')
    -- whether the path is left out says whether it is below a refused symbol
    have hgood : (∃ r ∈ refused, r <+: p) ↔ ∃ r t, symAt doc r = some t ∧ r <+: p ∧ r ≠ p ∧ skip t.info = true := by
      rw [hinv p (by simp)]
      constructor
      · rintro ⟨r, hr, t, h1, h2, h3⟩
        refine ⟨r, t, h1, h3, ?_, h2⟩
        rintro rfl
        exact hirr _ (hbefore _ hr)
      · rintro ⟨r, t, h1, h2, h3, h4⟩
        have hv : r ∈ done ++ p :: ps := (hmem r).mpr ((symAt_isSome doc r).mp ⟨t, h1⟩)
        have hlex := hpre r p h2 h3
        rcases List.mem_append.mp hv with hv | hv
        · exact ⟨r, hv, t, h1, h4, h2⟩
        · rcases List.mem_cons.mp hv with rfl | hv
          · exact absurd rfl h3
          · exact absurd hlex (hasym _ _ (hafter r hv))
    by_cases hcov : ∃ r ∈ refused, r <+: p
    · have hany : refused.any (fun r => r.isPrefixOf p) = true := by
        obtain ⟨r, hr, hrp⟩ := hcov
        exact List.any_eq_true.mpr ⟨r, hr, List.isPrefixOf_iff_prefix.mpr hrp⟩
      simp only [visitAll, hany, if_true]
      obtain ⟨r0, t0, h01, h02, h03, h04⟩ := hgood.mp hcov
      have hbad : ¬ (T s.info = true ∧ ∀ r t, symAt doc r = some t → r <+: p → r ≠ p → skip t.info = false) := by
        rintro ⟨_, h⟩
        rw [h r0 t0 h01 h02 h03] at h04
        cases h04
      have hinv' : ∀ q ∈ ps, (∃ r ∈ refused, r <+: q) ↔
          ∃ r ∈ done ++ [p], ∃ t, symAt doc r = some t ∧ skip t.info = true ∧ r <+: q := by
        intro q hq
        rw [hinv q (List.mem_cons_of_mem _ hq)]
        constructor
        · rintro ⟨r, hr, h⟩; exact ⟨r, List.mem_append_left _ hr, h⟩
        · rintro ⟨r, hr, t, h1, h2, h3⟩
          rcases List.mem_append.mp hr with hr | hr
          · exact ⟨r, hr, t, h1, h2, h3⟩
          · rw [List.mem_singleton] at hr
            subst hr
            have : r0 ∈ done := by
              have hv : r0 ∈ done ++ r :: ps := (hmem r0).mpr ((symAt_isSome doc r0).mp ⟨t0, h01⟩)
              rcases List.mem_append.mp hv with hv | hv
              · exact hv
              · rcases List.mem_cons.mp hv with rfl | hv
                · exact absurd rfl h03
                · exact absurd (hpre r0 r h02 h03) (hasym _ _ (hafter r0 hv))
            exact ⟨r0, this, t0, h01, h04, List.IsPrefix.trans h02 h3⟩
      rcases ih (done ++ [p]) refused x hord' hmem' hinv' with ⟨h1, h2⟩ | ⟨q, hq, t, h1, h2, h3, h4⟩
      · left
        refine ⟨h1, fun q hq t ht => ?_⟩
        rcases List.mem_cons.mp hq with rfl | hq
        · rw [hs] at ht; cases ht; exact hbad
        · exact h2 q hq t ht
      · right
        refine ⟨q, List.mem_cons_of_mem _ hq, t, h1, h2, h3, fun r hr u hu hG => ?_⟩
        rcases List.mem_cons.mp hr with rfl | hr
        · rw [hs] at hu; cases hu; exact absurd hG hbad
        · exact h4 r hr u hu hG
    · have hany : refused.any (fun r => r.isPrefixOf p) = false := by
        rw [List.any_eq_false]
        intro r hr h
        exact hcov ⟨r, hr, List.isPrefixOf_iff_prefix.mp h⟩
      have hopen : ∀ r t, symAt doc r = some t → r <+: p → r ≠ p → skip t.info = false := by
        intro r t h1 h2 h3
        by_contra h4
        exact hcov (hgood.mpr ⟨r, t, h1, h2, h3, by simpa using h4⟩)
      obtain ⟨sp, hsp⟩ := spineAt_of_symAt hs
      simp only [visitAll, hany, Bool.false_eq_true, if_false, hsp, Option.getD_some, hfn]
      by_cases hst : stop s.info = true
      · simp only [hst, if_true]
        have hnone : ∀ q ∈ ps, ∀ t, symAt doc q = some t → T t.info = false :=
          fun q hq t ht => hstop p q s t hs ht (hafter q hq) hst
        by_cases hT : T s.info = true
        · right
          refine ⟨p, by simp, s, hs, by simp [hT], ⟨hT, hopen⟩, fun q hq t ht hG => ?_⟩
          rcases List.mem_cons.mp hq with rfl | hq
          · exact .inl rfl
          · exact absurd hG.1 (by simp [hnone q hq t ht])
        · left
          refine ⟨by simp [hT], fun q hq t ht => ?_⟩
          rcases List.mem_cons.mp hq with rfl | hq
          · rw [hs] at ht; cases ht; exact fun h => hT h.1
          · exact fun h => absurd h.1 (by simp [hnone q hq t ht])
      · simp only [hst, Bool.false_eq_true, if_false]
        -- the rest
        have key : ∀ rf : List Path, (∀ q ∈ ps, (∃ r ∈ rf, r <+: q) ↔
            ∃ r ∈ done ++ [p], ∃ t, symAt doc r = some t ∧ skip t.info = true ∧ r <+: q) →
            (visitAll fn doc rf (if T s.info then some s else x) ps = x ∧ ∀ p' ∈ p :: ps, ∀ s, symAt doc p' = some s →
              ¬ (T s.info = true ∧ ∀ r t, symAt doc r = some t → r <+: p' → r ≠ p' → skip t.info = false)) ∨
            ∃ p' ∈ p :: ps, ∃ s', symAt doc p' = some s' ∧
              visitAll fn doc rf (if T s.info then some s else x) ps = some s' ∧
              (T s'.info = true ∧ ∀ r t, symAt doc r = some t → r <+: p' → r ≠ p' → skip t.info = false) ∧
              ∀ q ∈ p :: ps, ∀ t, symAt doc q = some t →
                (T t.info = true ∧ ∀ r u, symAt doc r = some u → r <+: q → r ≠ q → skip u.info = false) →
                q = p' ∨ List.Lex (· < ·) q p' := by
          intro rf hrf
          rcases ih (done ++ [p]) rf (if T s.info then some s else x) hord' hmem' hrf with
            ⟨h1, h2⟩ | ⟨q, hq, t, h1, h2, h3, h4⟩
          · by_cases hT : T s.info = true
            · right
              refine ⟨p, by simp, s, hs, by rw [h1]; simp [hT], ⟨hT, hopen⟩, fun q hq t ht hG => ?_⟩
              rcases List.mem_cons.mp hq with rfl | hq
              · exact .inl rfl
              · exact absurd hG (h2 q hq t ht)
            · left
              refine ⟨by rw [h1]; simp [hT], fun q hq t ht => ?_⟩
              rcases List.mem_cons.mp hq with rfl | hq
              · rw [hs] at ht; cases ht; exact fun h => hT h.1
              · exact h2 q hq t ht
          · right
            refine ⟨q, List.mem_cons_of_mem _ hq, t, h1, h2, h3, fun r hr u hu hG => ?_⟩
            rcases List.mem_cons.mp hr with rfl | hr
            · exact .inr (hafter q hq)
            · exact h4 r hr u hu hG
        by_cases hsk : skip s.info = true
        · simp only [hsk, if_true]
          refine key (p :: refused) (fun q hq => ?_)
          have := hinv q (List.mem_cons_of_mem _ hq)
          constructor
          · rintro ⟨r, hr, h⟩
            rcases List.mem_cons.mp hr with rfl | hr
            · exact ⟨r, by simp, s, hs, hsk, h⟩
            · obtain ⟨r', hr', h'⟩ := this.mp ⟨r, hr, h⟩
              exact ⟨r', List.mem_append_left _ hr', h'⟩
          · rintro ⟨r, hr, t, h1, h2, h3⟩
            rcases List.mem_append.mp hr with hr | hr
            · obtain ⟨r', hr', h'⟩ := this.mpr ⟨r, hr, t, h1, h2, h3⟩
              exact ⟨r', List.mem_cons_of_mem _ hr', h'⟩
            · rw [List.mem_singleton] at hr
              subst hr
              exact ⟨r, by simp, h3⟩
        · simp only [hsk, Bool.false_eq_true, if_false]
          refine key refused (fun q hq => ?_)
          rw [hinv q (List.mem_cons_of_mem _ hq)]
          constructor
          · rintro ⟨r, hr, h⟩; exact ⟨r, List.mem_append_left _ hr, h⟩
          · rintro ⟨r, hr, t, h1, h2, h3⟩
            rcases List.mem_append.mp hr with hr | hr
            · exact ⟨r, hr, t, h1, h2, h3⟩
            · rw [List.mem_singleton] at hr
              subst hr
              rw [hs] at h1
              cases h1
              exact absurd h2 hsk

theorem visit_last (fn : Visitor (Option (Tree Info)) Info) (T stop skip : Info → Bool)
    (hfn : ∀ x sp s, fn x .new (sp ++ [s]) = (if T s.info then some s else x, ⟨stop s.info, skip s.info⟩))
    (doc : List (Tree Info))
    (hstop : ∀ p q s t, symAt doc p = some s → symAt doc q = some t → List.Lex (· < ·) p q → stop s.info = true →
      T t.info = false) :
    IsLast doc (fun p i => T i = true ∧ ∀ r t, symAt doc r = some t → r <+: p → r ≠ p → skip t.info = false)
      (traverseDocument fn none doc) := by
  obtain ⟨ps, h1, h2, h3⟩ := C44_traversal fn none doc
  rw [h3]
  rcases visit_last_core fn T stop skip hfn doc hstop ps [] [] none h1 h2 (by simp) with ⟨h4, h5⟩ | ⟨p, hp, s, h4, h5, h6, h7⟩
  · exact .inl ⟨h4, fun p s hs => h5 p ((h2 p).mpr ((symAt_isSome doc p).mp ⟨s, hs⟩)) s hs⟩
  · exact .inr ⟨p, s, h4, h5, h6, fun q t ht hG => h7 q ((h2 q).mpr ((symAt_isSome doc q).mp ⟨t, ht⟩)) t ht hG⟩

theorem IsLast.congr {doc : List (Tree Info)} {G H : Path → Info → Prop} {r : Option (Tree Info)}
    (h : ∀ p s, symAt doc p = some s → (G p s.info ↔ H p s.info)) (hG : IsLast doc G r) : IsLast doc H r := by
  rcases hG with ⟨h1, h2⟩ | ⟨p, s, h1, h2, h3, h4⟩
  · exact .inl ⟨h1, fun p s hs hH => h2 p s hs ((h p s hs).mpr hH)⟩
  · exact .inr ⟨p, s, h1, h2, (h p s h1).mp h3, fun q t ht hH => h4 q t ht ((h q t ht).mpr hH)⟩

theorem rel_neg (pos : Pos) (r : Rng) : isInRange pos r < 0 ↔ Before pos r.start := by
  simp only [isInRange, Before]
  repeat' split
  all_goals omega

theorem rel_pos (pos : Pos) (r : Rng) : isInRange pos r > 0 ↔ ¬ Before pos r.start ∧ ¬ Before pos r.stop := by
  simp only [isInRange, Before]
  repeat' split
  all_goals omega

theorem rel_zero (pos : Pos) (r : Rng) : isInRange pos r = 0 ↔ Inside pos r := by
  simp only [isInRange, Inside, Before]
  repeat' split
  all_goals omega

theorem notAfter_trans {a b c : Pos} (h1 : ¬ Before b a) (h2 : ¬ Before c b) : ¬ Before c a := by
  simp only [Before] at *
  omega

/-- C63. In a document whose symbols with types are in the order of the text and end inside the symbols they are in,
the symbol found at a position is, in the order of the text, the last one with types that contains the position or
ends there; nothing is found only if there is none. -/
theorem C63_symbol_at (doc : List (Tree Info)) (pos : Pos)
    (hs : StartsInOrder doc (fun i => i.hasTypes = true)) (he : EndsInside doc (fun i => i.hasTypes = true)) :
    IsLast doc (fun _ i => i.hasTypes = true ∧ Touches pos i.range) (hasTypesAtPos doc pos) := by
  let hit : Info → Prop := fun i =>
    isInRange pos i.range = 0 ∨ (isInRange pos i.range > 0 ∧ comparePos pos i.range.stop = 0)
  have hhit : ∀ i, hit i ↔ (¬ Before pos i.range.start ∧ (Before pos i.range.stop ∨ pos = i.range.stop)) := by
    intro i
    show (_ ∨ _) ↔ _
    rw [rel_zero, rel_pos, (C50_compare pos i.range.stop).2.1]
    constructor
    · rintro (⟨h1, h2⟩ | ⟨⟨h1, _⟩, h2⟩)
      · exact ⟨h1, .inl h2⟩
      · exact ⟨h1, .inr h2⟩
    · rintro ⟨h1, h2 | h2⟩
      · exact .inl ⟨h1, h2⟩
      · refine .inr ⟨⟨h1, ?_⟩, h2⟩
        rw [h2]
        simp [Before]
  have htouch : ∀ i, hit i ↔ Touches pos i.range := by
    intro i
    rw [hhit]
    simp only [Touches, Before]
    constructor
    · rintro ⟨h1, h2 | h2⟩
      · exact ⟨h1, by omega⟩
      · exact ⟨h1, by rw [h2]; omega⟩
    · rintro ⟨h1, h2⟩
      refine ⟨h1, ?_⟩
      by_cases hb : pos.line < i.range.stop.line ∨ pos.line = i.range.stop.line ∧ pos.character < i.range.stop.character
      · exact .inl hb
      · right
        have e1 : pos.line = i.range.stop.line := by omega
        have e2 : pos.character = i.range.stop.character := by omega
        cases pos; cases h : i.range.stop
        simp_all
  classical
  have key := visit_last (atPosVisitor pos) (fun i => i.hasTypes && decide (hit i))
    (fun i => decide (Before pos i.range.start)) (fun i => decide (¬ Before pos i.range.start ∧ ¬ hit i))
    (by
      intro x sp s
      simp only [atPosVisitor, List.getLast?_append, List.getLast?_singleton, Option.some_or]
      by_cases h1 : hit s.info
      · have h2 : ¬ Before pos s.info.range.start := ((hhit _).mp h1).1
        rw [if_pos h1]
        simp only [h1, decide_true, Bool.and_true, h2, decide_false, not_true, and_false]
        rfl
      · rw [if_neg h1]
        by_cases h2 : Before pos s.info.range.start
        · rw [if_pos ((rel_neg _ _).mpr h2)]
          simp [h1, h2, Trav.new]
        · rw [if_neg (mt (rel_neg _ _).mp h2)]
          have h3 : isInRange pos s.info.range > 0 := by
            rw [rel_pos]
            refine ⟨h2, fun h => h1 ((hhit _).mpr ⟨h2, .inl h⟩)⟩
          rw [if_pos h3]
          simp [h1, h2, Trav.new])
    doc
    (by
      intro p q s t h1 h2 hlt h3
      simp only [decide_eq_true_eq] at h3
      cases ht : t.info.hasTypes with
      | false => simp
      | true =>
        simp only [Bool.true_and, decide_eq_false_iff_not]
        intro h4
        have h5 := hs p q s t h1 h2 hlt ht
        have h6 := ((hhit _).mp h4).1
        exact notAfter_trans h5 h6 h3)
  refine key.congr (fun p s hp => ?_)
  simp only [Bool.and_eq_true, decide_eq_true_eq, htouch, decide_eq_false_iff_not, not_and, not_not]
  constructor
  · exact fun h => h.1
  · intro h
    refine ⟨h, fun r t hr hrp _ h1 => ?_⟩
    refine ⟨h1, ?_⟩
    intro h3
    have h4 := he r p t s hr hp hrp h.1
    have h5 := h.2.2
    exact notAfter_trans h5 h4 h3

/-- C63. Of all symbols with types at the position, none begins after the one that is found. -/
theorem C63_closest (doc : List (Tree Info)) (pos : Pos)
    (hs : StartsInOrder doc (fun i => i.hasTypes = true)) (he : EndsInside doc (fun i => i.hasTypes = true))
    (s t : Tree Info) (q : Path) (hfound : hasTypesAtPos doc pos = some s)
    (hq : symAt doc q = some t) (ht : t.info.hasTypes = true) (htouch : Touches pos t.info.range) :
    ¬ Before s.info.range.start t.info.range.start := by
  rcases C63_symbol_at doc pos hs he with ⟨h1, _⟩ | ⟨p, s', h1, h2, h3, h4⟩
  · rw [h1] at hfound; cases hfound
  · rw [h2] at hfound
    cases hfound
    rcases h4 q t hq ⟨ht, htouch⟩ with rfl | hlt
    · rw [hq] at h1; cases h1; simp [Before]
    · exact hs q p t s hq h1 hlt h3.1

/-- C64. If the classes, interfaces and traits of a document are in the order of the text and end inside the symbols
they are in, the class found for a position is the innermost one around it. -/
theorem C64_class_at_partial (doc : List (Tree Info)) (pos : Pos)
    (hs : StartsInOrder doc (fun i => i.kind.classLike = true)) (he : EndsInside doc (fun i => i.kind.classLike = true)) :
    IsLast doc (fun _ i => i.kind.classLike = true ∧ Inside pos i.range) (classAt doc pos) := by
  classical
  have key := visit_last (classAtVisitor pos) (fun i => i.kind.classLike && decide (Inside pos i.range))
    (fun i => decide (Before pos i.range.start)) (fun i => decide (¬ Before pos i.range.start ∧ ¬ Before pos i.range.stop))
    (by
      intro x sp s
      simp only [classAtVisitor, List.getLast?_append, List.getLast?_singleton, Option.some_or]
      by_cases h1 : ¬ Before pos s.info.range.start ∧ ¬ Before pos s.info.range.stop
      · rw [if_pos ((rel_pos _ _).mpr h1)]
        have h2 : ¬ Inside pos s.info.range := fun h => h1.2 h.2
        simp [h1, h2, Trav.new]
      · rw [if_neg (mt (rel_pos _ _).mp h1)]
        by_cases h2 : Inside pos s.info.range
        · rw [if_pos ((rel_zero _ _).mpr h2)]
          have h3 : ¬ Before pos s.info.range.start := h2.1
          have h4 : Before pos s.info.range.stop := h2.2
          simp [h2, h3, h4, Trav.new]
        · rw [if_neg (mt (rel_zero _ _).mp h2)]
          have h3 : Before pos s.info.range.start := by
            by_contra h
            by_cases h4 : Before pos s.info.range.stop
            · exact h2 ⟨h, h4⟩
            · exact h1 ⟨h, h4⟩
          simp [h2, h3, Trav.new])
    doc
    (by
      intro p q s t h1 h2 hlt h3
      simp only [decide_eq_true_eq] at h3
      cases ht : t.info.kind.classLike with
      | false => simp
      | true =>
        simp only [Bool.true_and, decide_eq_false_iff_not]
        intro h4
        have h5 := hs p q s t h1 h2 hlt ht
        exact notAfter_trans h5 h4.1 h3)
  refine key.congr (fun p s hp => ?_)
  simp only [Bool.and_eq_true, decide_eq_true_eq, decide_eq_false_iff_not, not_and, not_not]
  constructor
  · exact fun h => h.1
  · intro h
    refine ⟨h, fun r t hr hrp _ h1 => ?_⟩
    have h4 := he r p t s hr hp hrp h.1
    have h5 := h.2.2
    simp only [Before] at h4 h5 ⊢
    omega

/-- C65. In a document whose symbols with types are in the order of the text, the symbol found before a position is,
in the order of the text, the last one with types that begins at or before the position and is not inside a symbol
that has already ended there. -/
theorem C65_symbol_before_partial (doc : List (Tree Info)) (pos : Pos)
    (hs : StartsInOrder doc (fun i => i.hasTypes = true)) :
    IsLast doc (fun p i => i.hasTypes = true ∧ ¬ Before pos i.range.start ∧ InOpen doc pos p)
      (hasTypesBeforePos doc pos) := by
  classical
  have key := visit_last (beforePosVisitor pos) (fun i => i.hasTypes && decide (¬ Before pos i.range.start))
    (fun i => decide (Before pos i.range.start)) (fun i => decide (¬ Before pos i.range.start ∧ ¬ Before pos i.range.stop))
    (by
      intro x sp s
      simp only [beforePosVisitor, List.getLast?_append, List.getLast?_singleton, Option.some_or]
      by_cases h1 : ¬ Before pos s.info.range.start ∧ ¬ Before pos s.info.range.stop
      · rw [if_pos ((rel_pos _ _).mpr h1)]
        simp [h1, Trav.new]
      · rw [if_neg (mt (rel_pos _ _).mp h1)]
        by_cases h2 : Before pos s.info.range.start
        · rw [if_pos ((rel_neg _ _).mpr h2)]
          simp [h2, Trav.new]
        · rw [if_neg (mt (rel_neg _ _).mp h2)]
          have h3 : Before pos s.info.range.stop := by
            by_contra h
            exact h1 ⟨h2, h⟩
          simp [h2, h3, Trav.new])
    doc
    (by
      intro p q s t h1 h2 hlt h3
      simp only [decide_eq_true_eq] at h3
      cases ht : t.info.hasTypes with
      | false => simp
      | true =>
        simp only [Bool.true_and, decide_eq_false_iff_not, not_not]
        have h5 := hs p q s t h1 h2 hlt ht
        simp only [Before] at h3 h5 ⊢
        omega)
  refine key.congr (fun p s hp => ?_)
  simp only [Bool.and_eq_true, decide_eq_true_eq, decide_eq_false_iff_not, not_and, not_not, InOpen, and_assoc]
  constructor
  · rintro ⟨h1, h2, h3⟩
    refine ⟨h1, h2, fun q t hq hqp hne => h3 q t hq hqp hne ?_⟩
    have hlt : List.Lex (· < ·) q p := by
      obtain ⟨c, rfl⟩ := hqp
      cases c with
      | nil => simp at hne
      | cons c cs => simpa using lex_append_left q (List.Lex.nil (r := (· < ·)) (a := c) (l := cs))
    have h5 := hs q p t s hq hp hlt h1
    exact notAfter_trans h5 h2
  · rintro ⟨h1, h2, h3⟩
    exact ⟨h1, h2, fun q t hq hqp hne _ => h3 q t hq hqp hne⟩

theorem visitAll_map {σ τ α : Type} (fn : Visitor σ α) (gn : Visitor τ α) (f : σ → τ)
    (h : ∀ x t sp, (gn (f x) t sp) = (f (fn x t sp).1, (fn x t sp).2)) (doc : List (Tree α)) :
    ∀ (ps refused : List Path) (x : σ), visitAll gn doc refused (f x) ps = f (visitAll fn doc refused x ps) := by
  intro ps
  induction ps with
  | nil => intro refused x; rfl
  | cons p ps ih =>
    intro refused x
    simp only [visitAll, h]
    split
    · exact ih _ _
    · split
      · rfl
      · split
        · exact ih _ _
        · exact ih _ _

/-- An argument list of an anonymous class, `new class(…) { … }`. -/
def OfAnonymousClass (doc : List (Tree Info)) (p : Path) : Prop :=
  ∃ sp d c a, spineAt doc p = some (sp ++ [d, c, a]) ∧ a.info.kind = .args ∧ c.info.kind = .class_ ∧
    d.info.kind = .designator

/-- C65. In a document whose argument lists and symbols with types are in the order of the text, and which has no
anonymous class with arguments, the argument list found for the cursor is the innermost one around it, and the call
found is the symbol found before its beginning if that is something with parameters. -/
theorem C65_call_partial (doc : List (Tree Info)) (pos : Pos)
    (hs : StartsInOrder doc (fun i => i.kind = .args)) (he : EndsInside doc (fun i => i.kind = .args))
    (hanon : ∀ p, ¬ OfAnonymousClass doc p) :
    IsLast doc (fun _ i => i.kind = .args ∧ Inside pos i.range) (argumentListAndFunctionCallAt doc pos).1 ∧
    (argumentListAndFunctionCallAt doc pos).2
      = ((argumentListAndFunctionCallAt doc pos).1.bind fun a => hasTypesBeforePos doc a.info.range.start).filter
          (·.info.hasParams) := by
  classical
  let one : Visitor (Option (Tree Info)) Info := fun x t spine =>
    ((argsVisitor pos (x, none) t spine).1.1, (argsVisitor pos (x, none) t spine).2)
  have hone : ∀ x t sp, one (Prod.fst x) t sp = ((argsVisitor pos x t sp).1.1, (argsVisitor pos x t sp).2) := by
    intro x t sp
    simp only [one, argsVisitor]
    split
    · rfl
    · split
      · split <;> rfl
      · split
        · rfl
        · split <;> rfl
  have key := visit_last one (fun i => decide (i.kind = .args) && decide (Inside pos i.range))
    (fun i => decide (Before pos i.range.start)) (fun i => decide (¬ Before pos i.range.start ∧ ¬ Before pos i.range.stop))
    (by
      intro x sp s
      simp only [one, argsVisitor, List.getLast?_append, List.getLast?_singleton, Option.some_or]
      by_cases h2 : Inside pos s.info.range
      · rw [if_pos ((rel_zero _ _).mpr h2)]
        have h3 : ¬ Before pos s.info.range.start := h2.1
        have h4 : Before pos s.info.range.stop := h2.2
        by_cases hk : s.info.kind = .args
        · simp [h2, h3, h4, hk, Trav.new]
        · simp [h2, h3, h4, hk, Trav.new]
      · rw [if_neg (mt (rel_zero _ _).mp h2)]
        by_cases h1 : Before pos s.info.range.start
        · rw [if_pos ((rel_neg _ _).mpr h1)]
          simp [h1, h2, Trav.new]
        · rw [if_neg (mt (rel_neg _ _).mp h1)]
          have h3 : ¬ Before pos s.info.range.stop := fun h => h2 ⟨h1, h⟩
          rw [if_pos ((rel_pos _ _).mpr ⟨h1, h3⟩)]
          simp [h1, h2, h3, Trav.new])
    doc
    (by
      intro p q s t h1 h2 hlt h3
      simp only [decide_eq_true_eq] at h3
      by_cases ht : t.info.kind = .args
      · have h5 := hs p q s t h1 h2 hlt ht
        have : ¬ Inside pos t.info.range := fun h => notAfter_trans h5 h.1 h3
        simp [this]
      · simp [ht])
  have key' : IsLast doc (fun _ i => i.kind = .args ∧ Inside pos i.range) (traverseDocument one none doc) := by
    refine key.congr (fun p s hp => ?_)
    simp only [Bool.and_eq_true, decide_eq_true_eq, decide_eq_false_iff_not, not_and, not_not]
    constructor
    · exact fun h => h.1
    · intro h
      refine ⟨h, fun r t hr hrp _ h1 => ?_⟩
      have h4 := he r p t s hr hp hrp h.1
      have h5 := h.2.2
      simp only [Before] at h4 h5 ⊢
      omega
  obtain ⟨ps, hp1, hp2, hp3⟩ := C44_traversal (argsVisitor pos) (none, none) doc
  obtain ⟨ps', hp1', hp2', hp3'⟩ := C44_traversal one none doc
  have hps : ps' = ps := C44_order_unique ps' ps hp1' hp1 (fun p => by rw [hp2, hp2'])
  subst hps
  have hfst : traverseDocument one none doc = (traverseDocument (argsVisitor pos) (none, none) doc).1 := by
    rw [hp3, hp3']
    exact visitAll_map (argsVisitor pos) one Prod.fst hone doc ps' [] (none, none)
  have hsnd : (traverseDocument (argsVisitor pos) (none, none) doc).2 = none := by
    rw [hp3]
    have : ∀ (qs refused : List Path) (x : Option (Tree Info) × Option (Tree Info)),
        (∀ q ∈ qs, q ∈ ps') → x.2 = none → (visitAll (argsVisitor pos) doc refused x qs).2 = none := by
      intro qs
      induction qs with
      | nil => intro _ x _ h; exact h
      | cons q qs ih =>
        intro refused x hq hx
        have hq' : ∀ r ∈ qs, r ∈ ps' := fun r hr => hq r (List.mem_cons_of_mem _ hr)
        obtain ⟨s, hsq⟩ := (symAt_isSome doc q).mpr ((hp2 q).mp (hq q (by simp)))
        obtain ⟨sp, hsp⟩ := spineAt_of_symAt hsq
        have hx' : (argsVisitor pos x .new (sp ++ [s])).1.2 = none := by
          simp only [argsVisitor, List.getLast?_append, List.getLast?_singleton, Option.some_or]
          split
          · split
            · rename_i hk
              simp only [List.reverse_append, List.reverse_cons, List.reverse_nil, List.nil_append, List.singleton_append]
              split
              · rename_i a c d l heq
                rw [if_neg]
                · exact hx
                · rintro ⟨hc, hd⟩
                  simp only [List.cons.injEq] at heq
                  obtain ⟨rfl, heq⟩ := heq
                  refine hanon q ⟨l.reverse, d, c, s, ?_, hk, hc, hd⟩
                  rw [hsp]
                  have := congrArg List.reverse heq
                  simp only [List.reverse_reverse, List.reverse_cons] at this
                  rw [this]
                  simp
              · exact hx
            · exact hx
          · split
            · exact hx
            · split <;> exact hx
        simp only [visitAll]
        split
        · exact ih _ _ hq' hx
        · simp only [hsp, Option.getD_some]
          split
          · exact hx'
          · split
            · exact ih _ _ hq' hx'
            · exact ih _ _ hq' hx'
    exact this ps' [] (none, none) (fun q hq => hq) rfl
  have hres : argumentListAndFunctionCallAt doc pos = (traverseDocument one none doc,
      ((traverseDocument one none doc).bind fun a => hasTypesBeforePos doc a.info.range.start).filter (·.info.hasParams)) := by
    unfold argumentListAndFunctionCallAt
    rw [hfst]
    cases hr : traverseDocument (argsVisitor pos) (none, none) doc with
    | mk a b =>
      rw [hr] at hsnd
      simp only at hsnd
      subst hsnd
      cases a with
      | none => rfl
      | some a =>
        simp only [Option.bind_some]
        cases hb : hasTypesBeforePos doc a.info.range.start with
        | none => rfl
        | some h => simp [Option.filter]
  rw [hres]
  exact ⟨key', rfl⟩

/-! ### examples -/

instance (a b : Pos) : Decidable (Before a b) := by unfold Before; infer_instance

theorem lex_asymm : ∀ a b : Path, List.Lex (· < ·) a b → ¬ List.Lex (· < ·) b a := by
  intro p q h1
  induction h1 with
  | nil => intro h; cases h
  | cons _ ih => intro h; cases h with
    | cons h => exact ih h
    | rel h => exact absurd h (Nat.lt_irrefl _)
  | rel h => intro h'; cases h' with
    | cons h'' => exact absurd h (Nat.lt_irrefl _)
    | rel h'' => exact absurd h (Nat.lt_asymm h'')

theorem lex_irrefl (a : Path) : ¬ List.Lex (· < ·) a a := fun h => lex_asymm a a h h

/-- Checking the order of a given document. -/
theorem startsInOrder_of {doc : List (Tree Info)} {G : Info → Prop}
    (h : (pathsFrom [] 0 doc).Pairwise (fun p q => ∀ s ∈ symAt doc p, ∀ t ∈ symAt doc q, G t.info →
      ¬ Before t.info.range.start s.info.range.start)) : StartsInOrder doc G := by
  intro p q s t hp hq hlt hG
  obtain ⟨i, hi, rfl⟩ := List.getElem_of_mem ((mem_paths doc p).mpr ((symAt_isSome doc p).mp ⟨s, hp⟩))
  obtain ⟨j, hj, rfl⟩ := List.getElem_of_mem ((mem_paths doc q).mpr ((symAt_isSome doc q).mp ⟨t, hq⟩))
  have hord := List.pairwise_iff_getElem.mp (pathsFrom_sorted [] 0 doc)
  have hij : i < j := by
    rcases Nat.lt_trichotomy i j with h | rfl | h
    · exact h
    · exact absurd hlt (lex_irrefl _)
    · exact absurd (hord j i hj hi h) (lex_asymm _ _ hlt)
  exact List.pairwise_iff_getElem.mp h i j hi hj hij s hp t hq hG

theorem endsInside_of {doc : List (Tree Info)} {G : Info → Prop}
    (h : ∀ p ∈ pathsFrom [] 0 doc, ∀ q ∈ pathsFrom [] 0 doc, p.isPrefixOf q = true →
      ∀ s ∈ symAt doc p, ∀ t ∈ symAt doc q, G t.info → ¬ Before s.info.range.stop t.info.range.stop) :
    EndsInside doc G := by
  intro p q s t hp hq hpq hG
  exact h p ((mem_paths doc p).mpr ((symAt_isSome doc p).mp ⟨s, hp⟩))
    q ((mem_paths doc q).mpr ((symAt_isSome doc q).mp ⟨t, hq⟩)) (List.isPrefixOf_iff_prefix.mpr hpq) s hp t hq hG

def exVar (l a b : Int) (n : Bytes) : Tree Info := .node ⟨⟨⟨l, a⟩, ⟨l, b⟩⟩, .other, true, false, n⟩ []
def exCall (l a b : Int) (n : Bytes) : Tree Info := .node ⟨⟨⟨l, a⟩, ⟨l, b⟩⟩, .other, true, true, n⟩ []
def exArgs (l a b : Int) (kids : List (Tree Info)) : Tree Info := .node ⟨⟨⟨l, a⟩, ⟨l, b⟩⟩, .args, false, false, []⟩ kids

/-- `f(g($x), $y)` -/
def exCalls : List (Tree Info) :=
  [exCall 0 0 1 b!"f", exArgs 0 1 13 [exCall 0 2 3 b!"g", exArgs 0 3 7 [exVar 0 4 6 b!"$x"], exVar 0 9 11 b!"$y"]]

/-- Non-vacuity of `C63_symbol_at`, `C63_closest` and `C65_symbol_before_partial`: the hypotheses
hold for the example, in which different symbols are found at different positions. -/
example : StartsInOrder exCalls (fun i => i.hasTypes = true) ∧ EndsInside exCalls (fun i => i.hasTypes = true)
    ∧ (hasTypesAtPos exCalls ⟨0, 5⟩).map (·.info.tag) = some b!"$x"
    ∧ (hasTypesAtPos exCalls ⟨0, 6⟩).map (·.info.tag) = some b!"$x"
    ∧ (hasTypesAtPos exCalls ⟨0, 1⟩).map (·.info.tag) = some b!"f"
    ∧ (hasTypesAtPos exCalls ⟨0, 8⟩).map (·.info.tag) = none
    ∧ (hasTypesBeforePos exCalls ⟨0, 8⟩).map (·.info.tag) = some b!"g" :=
  ⟨startsInOrder_of (by decide +kernel), endsInside_of (by decide +kernel), by decide +kernel⟩

/-- Non-vacuity of `C65_call_partial`: in `f(g($x), $y)` the call is `g` at `$x` and `f` at `$y`. -/
example : StartsInOrder exCalls (fun i => i.kind = .args) ∧ EndsInside exCalls (fun i => i.kind = .args)
    ∧ (∀ p, ¬ OfAnonymousClass exCalls p)
    ∧ (argumentListAndFunctionCallAt exCalls ⟨0, 5⟩).2.map (·.info.tag) = some b!"g"
    ∧ (argumentListAndFunctionCallAt exCalls ⟨0, 10⟩).2.map (·.info.tag) = some b!"f" := by
  refine ⟨startsInOrder_of (by decide +kernel), endsInside_of (by decide +kernel), ?_, by decide +kernel⟩
  rintro p ⟨sp, d, c, a, h, _, hc, _⟩
  have hv : p ∈ pathsFrom [] 0 exCalls := by
    rw [mem_paths, ← symAt_isSome]
    exact ⟨a, by simp [symAt, h]⟩
  have hall : ∀ p ∈ pathsFrom [] 0 exCalls, ∀ l ∈ spineAt exCalls p, ∀ t ∈ l, t.info.kind ≠ .class_ := by decide +kernel
  exact hall p hv _ h c (by simp) hc

/-- `new class(foo($x)) {}` -/
def exAnonymous : List (Tree Info) :=
  [.node ⟨⟨⟨0, 4⟩, ⟨0, 22⟩⟩, .designator, true, true, b!"new class"⟩
    [.node ⟨⟨⟨0, 4⟩, ⟨0, 22⟩⟩, .class_, false, false, b!"class"⟩
      [exArgs 0 9 18 [exCall 0 10 13 b!"foo", exArgs 0 13 17 [exVar 0 14 16 b!"$x"]]]]]

/-- C65 is false for calls in the arguments of an anonymous class: with the cursor at `$x` in
`new class(foo($x)) {}`, the argument list found is the one of `foo`, and `foo` is the symbol before it, but the
call found is the construction of the class. -/
theorem C65_false_anonymous_class : ∃ (doc : List (Tree Info)) (pos : Pos) (f : Tree Info),
    StartsInOrder doc (fun _ => True) ∧ EndsInside doc (fun _ => True) ∧
    IsLast doc (fun _ i => i.kind = .args ∧ Inside pos i.range) (argumentListAndFunctionCallAt doc pos).1 ∧
    ((argumentListAndFunctionCallAt doc pos).1.bind fun a => hasTypesBeforePos doc a.info.range.start) = some f ∧
    f.info.hasParams = true ∧
    (argumentListAndFunctionCallAt doc pos).2.map (·.info) ≠ some f.info := by
  refine ⟨exAnonymous, ⟨0, 15⟩, exCall 0 10 13 b!"foo", startsInOrder_of (by decide +kernel),
    endsInside_of (by decide +kernel), ?_, by rfl, by decide +kernel, by decide +kernel⟩
  refine .inr ⟨[0, 0, 0, 1], exArgs 0 13 17 [exVar 0 14 16 b!"$x"], by rfl, by rfl,
    ⟨rfl, by unfold Inside; decide +kernel⟩, ?_⟩
  rintro q t hq ⟨hk, _⟩
  have hv : q ∈ pathsFrom [] 0 exAnonymous := (mem_paths _ _).mpr ((symAt_isSome _ _).mp ⟨t, hq⟩)
  have hall : ∀ q ∈ pathsFrom [] 0 exAnonymous, ∀ t ∈ symAt exAnonymous q, t.info.kind = .args →
      q = [0, 0, 0, 1] ∨ q = [0, 0, 0] := by decide +kernel
  rcases hall q hv t hq hk with rfl | rfl
  · exact .inl rfl
  · right
    exact .cons (.cons (.cons .nil))

/-! ### the class around a position, by binary search -/

/-- C64. If the classes of a document follow each other without overlapping, the scope of a position inside one of
them is that class. -/
theorem C64_class_scope_partial (classes : List Info) (pos : Pos) (i : Nat) (c : Info) (hc : classes[i]? = some c)
    (hin : Inside pos c.range) (hne : ∀ d ∈ classes, Before d.range.start d.range.stop)
    (hdis : classes.Pairwise (fun c d => ¬ Before d.range.start c.range.stop)) :
    getClassAtPos classes pos = some c := by
  have hi : i < classes.length := by
    by_contra h
    rw [List.getElem?_eq_none (by omega)] at hc
    cases hc
  have hci : classes[i] = c := by rw [List.getElem?_eq_getElem hi] at hc; exact Option.some.inj hc
  have hd := List.pairwise_iff_getElem.mp hdis
  let f : Nat → Bool := fun i => match classes[i]? with
    | some c => decide (isInRange pos c.range ≤ 0)
    | none => true
  have hf : ∀ j (hj : j < classes.length), f j = true ↔ ¬ (¬ Before pos classes[j].range.start ∧ ¬ Before pos classes[j].range.stop) := by
    intro j hj
    simp only [f, List.getElem?_eq_getElem hj, decide_eq_true_eq]
    rw [← rel_pos]
    omega
  have hlow : ∀ j, j < i → f j = false := by
    intro j hj
    have hj' : j < classes.length := by omega
    rw [Bool.eq_false_iff, Ne, hf j hj', not_not]
    have h1 := hd j i hj' hi hj
    have h2 := hne classes[j] (List.getElem_mem hj')
    rw [hci] at h1
    have h3 := hin.1
    simp only [Before] at *
    omega
  have hhigh : ∀ j, i ≤ j → j < classes.length → f j = true := by
    intro j hij hj
    rw [hf j hj]
    rcases Nat.lt_or_eq_of_le hij with h | rfl
    · have h1 := hd i j hi hj h
      rw [hci] at h1
      have h3 := hin.2
      simp only [Before] at *
      omega
    · rw [hci]
      exact fun h => h.2 hin.2
  have hmono : ∀ a b, a ≤ b → b < classes.length → f a = true → f b = true := by
    intro a b hab hb ha
    by_cases h : a < i
    · rw [hlow a h] at ha; cases ha
    · exact hhigh b (by omega) hb
  obtain ⟨h1, h2, h3⟩ := goSearch_spec classes.length f hmono
  have : goSearch classes.length f = i := by
    rcases Nat.lt_trichotomy (goSearch classes.length f) i with h | h | h
    · have := h3 (by omega)
      rw [hlow _ h] at this
      cases this
    · exact h
    · have := h1 i h
      rw [hhigh i (Nat.le_refl _) hi] at this
      cases this
  show classes[goSearch classes.length f]? = some c
  rw [this, hc]

def exClass (a b : Int) (n : Bytes) : Info := ⟨⟨⟨a, 0⟩, ⟨b, 1⟩⟩, .class_, false, false, n⟩

/-- Non-vacuity of `C64_class_scope_partial` and `C64_class_at_partial`. -/
example : getClassAtPos [exClass 1 3 b!"A", exClass 4 6 b!"B", exClass 8 9 b!"C"] ⟨5, 0⟩ = some (exClass 4 6 b!"B")
    ∧ Inside ⟨5, 0⟩ (exClass 4 6 b!"B").range
    ∧ StartsInOrder [.node (exClass 1 9 b!"A") [.node (exClass 2 4 b!"in A") []]] (fun i => i.kind.classLike = true)
    ∧ (classAt [.node (exClass 1 9 b!"A") [.node (exClass 2 4 b!"in A") []]] ⟨3, 0⟩).map (·.info.tag) = some b!"in A" :=
  ⟨by decide +kernel, by unfold Inside; decide +kernel, startsInOrder_of (by decide +kernel), by decide +kernel⟩

/-- C64 is false for positions outside all classes: the scope of a position before a class is that class. -/
theorem C64_false_outside : ∃ (classes : List Info) (pos : Pos) (c : Info),
    (∀ d ∈ classes, ¬ Inside pos d.range) ∧ getClassAtPos classes pos = some c :=
  ⟨[exClass 2 5 b!"A"], ⟨1, 0⟩, exClass 2 5 b!"A", by unfold Inside; decide +kernel, by decide +kernel⟩

/-- C64 is false for an anonymous class in a class: in the outer class, after the anonymous class, there is no scope;
and inside the anonymous class it is the outer one. -/
theorem C64_false_anonymous_class : ∃ (outer inner : Info) (after inside : Pos),
    Inside after outer.range ∧ ¬ Inside after inner.range ∧ getClassAtPos [outer, inner] after = none ∧
    Inside inside inner.range ∧ Inside inner.range.start outer.range ∧ getClassAtPos [outer, inner] inside = some outer ∧
    outer ≠ inner :=
  ⟨exClass 1 9 b!"A", exClass 3 4 b!"class@anonymous", ⟨6, 0⟩, ⟨3, 5⟩, by unfold Inside; decide +kernel,
    by unfold Inside; decide +kernel, by decide +kernel, by unfold Inside; decide +kernel,
    by unfold Inside; decide +kernel, by decide +kernel, by decide +kernel⟩

end Verif.Symbols
