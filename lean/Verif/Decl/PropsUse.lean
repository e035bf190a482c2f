import Verif.Decl.PropsClasses

/-! C84: what `use` declarations import. -/

namespace Verif.Decl
open Verif.Analyser (Node PType TokType Tok Ctx tyOf)
open Verif.Types (Ty Union)
open Verif.Imports (Table Item sureAlias)

theorem splitB_last (pre al : Bytes) (h : (92 : UInt8) ∉ al) :
    (splitB 92 (pre ++ 92 :: al)).getLast (splitB_ne_nil _ _) = al := by
  have key : splitB 92 (pre ++ 92 :: al) = splitB 92 pre ++ [al] := by
    induction pre with
    | nil => simp [splitB, splitB_of_no_sep 92 al h]
    | cons c cs ih =>
      simp only [List.cons_append, splitB]
      rw [ih]
      split
      · rfl
      · have := splitB_ne_nil 92 cs
        cases hs : splitB 92 cs with
        | nil => exact absurd hs this
        | cons p ps => rfl
  simp only [key, List.getLast_append_singleton]

theorem sureAlias_last {name al : Bytes} (h : LastPart name al) : sureAlias [] name = al := by
  obtain ⟨h, rfl | ⟨pre, rfl⟩⟩ := h
  · unfold sureAlias
    rw [if_pos rfl]
    simp only [splitB_of_no_sep 92 name h, List.getLast_singleton]
  · unfold sureAlias
    rw [if_pos rfl]
    exact splitB_last pre al h

theorem sureAlias_given {name al : Bytes} (h : al ≠ []) : sureAlias al name = al := if_neg h

/-- What one import does. -/
theorem addUse_items (t : Table) (kind : UseType) (al name : Bytes) (r : Rng) :
    itemsOf kind (addUse t kind al name r) = (itemsOf kind t).set (sureAlias al name) ⟨name, r, false⟩ ∧
    (∀ k, k ≠ kind → itemsOf k (addUse t kind al name r) = itemsOf k t) ∧ (addUse t kind al name r).ns = t.ns := by
  cases kind <;> refine ⟨rfl, fun k hk => ?_, rfl⟩ <;> cases k <;> first | rfl | exact absurd rfl hk

/-- Several imports under different aliases. `f` gives the alias as written, the name and the range. -/
theorem addUses {α : Type} (kind : UseType) (f : α → Bytes × Bytes × Rng) (es : List α) (pairs : List (Bytes × Bytes))
    (hp : List.Forall₂ (fun e (p : Bytes × Bytes) => sureAlias (f e).1 (f e).2.1 = p.1 ∧ (f e).2.1 = p.2) es pairs)
    (hd : (pairs.map Prod.fst).Nodup) (t : Table) :
    Imported kind pairs t (es.foldl (fun t e => addUse t kind (f e).1 (f e).2.1 (f e).2.2) t) := by
  induction hp generalizing t with
  | nil => exact ⟨fun p hp => absurd hp List.not_mem_nil, fun _ _ => rfl, fun _ _ => rfl, rfl⟩
  | @cons e p es ps h hrest ih =>
    rw [List.map_cons, List.nodup_cons] at hd
    obtain ⟨h1, h2⟩ := h
    obtain ⟨a1, a2, a3⟩ := addUse_items t kind (f e).1 (f e).2.1 (f e).2.2
    rw [List.foldl_cons]
    have := ih hd.2 (addUse t kind (f e).1 (f e).2.1 (f e).2.2)
    refine ⟨fun q hq => ?_, fun al hal => ?_, fun k hk => ?_, this.ns.trans a3⟩
    · rcases List.mem_cons.1 hq with rfl | hq
      · rw [this.kept _ hd.1, a1, GoMap.get_set, if_pos h1.symm]
        exact ⟨_, rfl, h2, rfl⟩
      · exact this.added q hq
    · rw [List.map_cons, List.mem_cons, not_or] at hal
      rw [this.kept _ hal.2, a1, GoMap.get_set, if_neg (by rw [h1]; exact hal.1)]
    · rw [this.others k hk, a2 k hk]

theorem getAlias_only (c : Ctx) (a : Node) (t : Tok) (h : OnlyToken .name a.kids t) : getAlias c a = c.tokText t := by
  obtain ⟨pre, post, hk, ht, hno⟩ := h
  unfold getAlias
  rw [hk, List.filterMap_append, List.filterMap_cons_some (tokText_of ht)]
  rw [List.filterMap_eq_nil_iff.2 fun k hk => tokText_none (hno k (List.mem_append_left _ hk))]
  rfl

/-- What is read from a clause. -/
theorem clause_read (c : Ctx) (e : Node) (al name : Bytes) (h : ClauseWritten c e al name) :
    clauseName c e.kids = name ∧
    ((clauseAlias c e.kids = [] ∧ LastPart name al) ∨ (clauseAlias c e.kids = al ∧ al ≠ [])) := by
  obtain ⟨x, hx, rfl, halias⟩ := h
  refine ⟨OnlyPhrase.last hx _ _, ?_⟩
  rcases halias with ⟨hno, hl⟩ | ⟨a, t, ha, ht, rfl, hne⟩
  · exact .inl ⟨NoPhrase.last hno _ _, hl⟩
  · refine .inr ⟨?_, hne⟩
    unfold clauseAlias
    rw [OnlyPhrase.last ha]
    exact getAlias_only c a t ht

theorem mem_writes {ks : List Node} {ty : TokType} : Writes ks ty ↔ ∃ k ∈ ks, tokType? k = some ty := by
  unfold Writes
  simp only [tokType_iff]

/-- The kind after the keywords, in a part of the declaration without clauses. -/
theorem foldlM_before (c : Ctx) (ks : List Node) (h1 : NoPhrase useClauseList ks) (h2 : NoPhrase useGroupClauseList ks)
    (s : UseType × Bytes × Table) : ∃ ut pre, ks.foldlM (useStep c) s = some (ut, pre, s.2.2) ∧
      (¬ Writes ks tFunction → ¬ Writes ks tConst → ut = s.1) ∧
      (Writes ks tFunction → ¬ Writes ks tConst → ut = .function) ∧
      (Writes ks tConst → ¬ Writes ks tFunction → ut = .const_) ∧
      (NoPhrase .namespaceName ks → pre = s.2.1) ∧
      (∀ x, OnlyPhrase .namespaceName ks x → pre = c.nodeText x) := by
  induction ks generalizing s with
  | nil =>
    refine ⟨s.1, s.2.1, rfl, fun _ _ => rfl, ?_, ?_, fun _ => rfl, ?_⟩
    · rintro ⟨k, hk, -⟩; cases hk
    · rintro ⟨k, hk, -⟩; cases hk
    · rintro x ⟨pre, post, h, -⟩
      simp at h
  | cons k ks ih =>
    have n1 := h1 k List.mem_cons_self
    have n2 := h2 k List.mem_cons_self
    have ih := ih (fun k' h' => h1 k' (List.mem_cons_of_mem _ h')) (fun k' h' => h2 k' (List.mem_cons_of_mem _ h'))
    have hw : ∀ ty, Writes (k :: ks) ty ↔ IsToken ty k ∨ Writes ks ty := by
      intro ty; unfold Writes; simp
    have hnn : NoPhrase .namespaceName (k :: ks) → NoPhrase .namespaceName ks :=
      fun h k' h' => h k' (List.mem_cons_of_mem _ h')
    have honly : ∀ x, OnlyPhrase .namespaceName (k :: ks) x → (¬ IsPhrase .namespaceName k ∧ OnlyPhrase .namespaceName ks x) ∨
        (k = x ∧ NoPhrase .namespaceName ks) := by
      rintro x ⟨pre, post, hk, hx, hno⟩
      cases pre with
      | nil =>
        obtain ⟨rfl, rfl⟩ := List.cons.inj hk
        exact .inr ⟨rfl, fun k' h' => hno k' h'⟩
      | cons p pre =>
        obtain ⟨rfl, rfl⟩ := List.cons.inj hk
        exact .inl ⟨hno k List.mem_cons_self, pre, post, rfl, hx, fun k' h' => hno k' (List.mem_cons_of_mem _ h')⟩
    rw [← typ_iff] at n1 n2
    rw [List.foldlM_cons]
    by_cases hn : typ? k = some .namespaceName
    · rw [show useStep c s k = some (s.1, c.nodeText k, s.2.2) by
        unfold useStep; rw [if_neg n1, if_neg n2, if_pos hn]]
      obtain ⟨ut, pre, e, a1, a2, a3, a4, a5⟩ := ih (s.1, c.nodeText k, s.2.2)
      have hf : ∀ ty, ¬ IsToken ty k := by
        rintro ty ⟨t, rfl, -⟩; cases hn
      simp only [hw, hf, false_or]
      refine ⟨ut, pre, e, a1, a2, a3, fun h => ?_, fun x hx => ?_⟩
      · exact absurd ((typ_iff _ _).1 hn) (h k List.mem_cons_self)
      · rcases honly x hx with ⟨h, -⟩ | ⟨rfl, h⟩
        · exact absurd ((typ_iff _ _).1 hn) h
        · exact a4 h
    · have hpre : ∀ x, OnlyPhrase .namespaceName (k :: ks) x → OnlyPhrase .namespaceName ks x := by
        intro x hx
        rcases honly x hx with ⟨-, h⟩ | ⟨rfl, -⟩
        · exact h
        · obtain ⟨_, _, -, hx, -⟩ := hx
          exact absurd ((typ_iff _ _).2 hx) hn
      by_cases hfn : tokType? k = some tFunction
      · have hc : ¬ IsToken tConst k := by
          rw [← tokType_iff, hfn]; decide
        rw [show useStep c s k = some (.function, s.2) by
          unfold useStep; rw [if_neg n1, if_neg n2, if_neg hn, if_pos hfn]]
        obtain ⟨ut, pre, e, a1, a2, a3, a4, a5⟩ := ih (.function, s.2)
        simp only [hw, (tokType_iff _ _).1 hfn, hc, true_or, false_or, not_true, false_imp_iff, true_imp_iff,
          implies_true, true_and]
        refine ⟨ut, pre, e, fun h => ?_, fun h => a4 (hnn h), fun x hx => a5 x (hpre x hx)⟩
        by_cases hwf : Writes ks tFunction
        · exact a2 hwf h
        · exact a1 hwf h
      · by_cases hcn : tokType? k = some tConst
        · have hf : ¬ IsToken tFunction k := by
            rw [← tokType_iff, hcn]; decide
          rw [show useStep c s k = some (.const_, s.2) by
            unfold useStep; rw [if_neg n1, if_neg n2, if_neg hn, if_neg hfn, if_pos hcn]]
          obtain ⟨ut, pre, e, a1, a2, a3, a4, a5⟩ := ih (.const_, s.2)
          refine ⟨ut, pre, e, fun _ h => absurd ((hw _).2 (.inl ((tokType_iff _ _).1 hcn))) h,
            fun _ h => absurd ((hw _).2 (.inl ((tokType_iff _ _).1 hcn))) h, fun _ h => ?_,
            fun h => a4 (hnn h), fun x hx => a5 x (hpre x hx)⟩
          rw [hw] at h
          simp only [hf, false_or] at h
          by_cases hwc : Writes ks tConst
          · exact a3 hwc h
          · exact a1 h hwc
        · rw [show useStep c s k = some s by
            unfold useStep; rw [if_neg n1, if_neg n2, if_neg hn, if_neg hfn, if_neg hcn]]
          obtain ⟨ut, pre, e, a1, a2, a3, a4, a5⟩ := ih s
          have hf : ¬ IsToken tFunction k := by rwa [← tokType_iff]
          have hc : ¬ IsToken tConst k := by rwa [← tokType_iff]
          simp only [hw, hf, hc, false_or]
          exact ⟨ut, pre, e, a1, a2, a3, fun h => a4 (hnn h), fun x hx => a5 x (hpre x hx)⟩

theorem kind_before (c : Ctx) (ks : List Node) (h1 : NoPhrase useClauseList ks) (h2 : NoPhrase useGroupClauseList ks)
    (kind : UseType) (hk : UseKind ks kind) (t : Table) : ∃ pre, ks.foldlM (useStep c) (.class_, [], t) = some (kind, pre, t) ∧
      (∀ x, OnlyPhrase .namespaceName ks x → pre = c.nodeText x) := by
  obtain ⟨ut, pre, e, a1, a2, a3, -, a5⟩ := foldlM_before c ks h1 h2 (.class_, [], t)
  refine ⟨pre, ?_, a5⟩
  rw [e]
  cases kind with
  | class_ => rw [a1 hk.1 hk.2]
  | function => rw [a2 hk.1 hk.2]
  | const_ => rw [a3 hk.1 hk.2]

/-- C84: `use` imports under each alias the name that is written, as a class, a function or a constant by its keyword, and
changes no other import. -/
theorem C84_use (c : Ctx) (before post es : List Node) (list : Node) (kind : UseType) (pairs : List (Bytes × Bytes))
    (t : Table) (h1 : NoPhrase useClauseList (before ++ post)) (h2 : NoPhrase useGroupClauseList (before ++ post))
    (hlist : IsPhrase useClauseList list) (hk : UseKind before kind) (he : Listed useClause list.kids es)
    (hp : List.Forall₂ (fun e (p : Bytes × Bytes) => ClauseWritten c e p.1 p.2) es pairs)
    (hd : (pairs.map Prod.fst).Nodup) (ty : PType) :
    ∃ t', useDeclaration c (.phr ty (before ++ list :: post)) t = some t' ∧ Imported kind pairs t t' := by
  obtain ⟨pre, e, -⟩ := kind_before c before (fun k h => h1 k (List.mem_append_left _ h))
    (fun k h => h2 k (List.mem_append_left _ h)) kind hk t
  obtain ⟨ut, pre', e', -⟩ := foldlM_before c post (fun k h => h1 k (List.mem_append_right _ h))
    (fun k h => h2 k (List.mem_append_right _ h)) (kind, pre, useClauses c kind list t)
  have hstep : useStep c (kind, pre, t) list = some (kind, pre, useClauses c kind list t) :=
    if_pos ((typ_iff _ _).2 hlist)
  refine ⟨useClauses c kind list t, ?_, ?_⟩
  · unfold useDeclaration
    rw [show (Node.phr ty (before ++ list :: post)).kids = before ++ list :: post from rfl, List.foldlM_append, e,
      Option.bind_eq_bind, Option.bind_some, List.foldlM_cons, hstep, Option.bind_eq_bind, Option.bind_some, e']
    rfl
  · unfold useClauses
    rw [he.filter]
    refine addUses kind (fun k => (clauseAlias c k.kids, clauseName c k.kids, c.range k)) es pairs (hp.imp ?_) hd t
    intro e p h
    obtain ⟨r1, r2⟩ := clause_read c e p.1 p.2 h
    simp only [r1, and_true]
    rcases r2 with ⟨ha, hl⟩ | ⟨ha, hne⟩
    · rw [ha]; exact sureAlias_last hl
    · rw [ha]; exact sureAlias_given hne

/-- C84: a group `use P\{A, B as C}` imports `P\A` as `A` and `P\B` as `C`, provided that each clause ends in a name or an
alias. -/
theorem C84_group (c : Ctx) (before post es : List Node) (list pre : Node) (kind : UseType)
    (pairs : List (Bytes × Bytes)) (t : Table)
    (h1 : NoPhrase useClauseList (before ++ post)) (h2 : NoPhrase useGroupClauseList (before ++ post))
    (hlist : IsPhrase useGroupClauseList list) (hk : UseKind before kind) (hpre : OnlyPhrase .namespaceName before pre)
    (he : Listed useGroupClause list.kids es)
    (hp : List.Forall₂ (fun e (p : Bytes × Bytes) => ClauseWritten c e p.1 p.2) es pairs)
    (hend : ∀ e ∈ es, ∃ ks ty qs, e.kids = ks ++ [.phr ty qs])
    (hd : (pairs.map Prod.fst).Nodup) (ty : PType) :
    ∃ t', useDeclaration c (.phr ty (before ++ list :: post)) t = some t' ∧
      Imported kind (pairs.map fun p => (p.1, c.nodeText pre ++ 92 :: p.2)) t t' := by
  obtain ⟨px, e, hx⟩ := kind_before c before (fun k h => h1 k (List.mem_append_left _ h))
    (fun k h => h2 k (List.mem_append_left _ h)) kind hk t
  obtain rfl := hx pre hpre
  let f : Node → Bytes × Bytes × Rng := fun k =>
    (clauseAlias c k.kids, c.nodeText pre ++ 92 :: clauseName c k.kids, ((k.kids.getLast?).map c.range).getD default)
  have hgroup : useGroup c (c.nodeText pre) kind list t =
      some (es.foldl (fun t e => addUse t kind (f e).1 (f e).2.1 (f e).2.2) t) := by
    unfold useGroup
    rw [he.filter]
    clear he hp hd e
    induction es generalizing t with
    | nil => rfl
    | cons e es ih =>
      obtain ⟨ks, ty, qs, hks⟩ := hend e List.mem_cons_self
      have hr : groupRange c e = some (f e).2.2 := by
        unfold groupRange
        simp only [f, hks, List.getLast?_concat]
        rfl
      rw [List.foldlM_cons, hr, Option.map_some, Option.bind_eq_bind, Option.bind_some, List.foldl_cons]
      exact ih _ fun e' h' => hend e' (List.mem_cons_of_mem _ h')
  generalize htd : es.foldl (fun t e => addUse t kind (f e).1 (f e).2.1 (f e).2.2) t = td at hgroup
  obtain ⟨ut, pre', e', -⟩ := foldlM_before c post (fun k h => h1 k (List.mem_append_right _ h))
    (fun k h => h2 k (List.mem_append_right _ h)) (kind, c.nodeText pre, td)
  have hstep : useStep c (kind, c.nodeText pre, t) list = some (kind, c.nodeText pre, td) := by
    unfold useStep
    have hl := (typ_iff _ _).2 hlist
    rw [if_neg (by rw [hl]; decide), if_pos hl, hgroup]
    rfl
  refine ⟨td, ?_, ?_⟩
  · unfold useDeclaration
    rw [show (Node.phr ty (before ++ list :: post)).kids = before ++ list :: post from rfl, List.foldlM_append, e,
      Option.bind_eq_bind, Option.bind_some, List.foldlM_cons, hstep, Option.bind_eq_bind, Option.bind_some, e']
    rfl
  · rw [← htd]
    refine addUses kind f es _ ?_ ?_ t
    · rw [List.forall₂_map_right_iff]
      refine hp.imp ?_
      intro e p h
      obtain ⟨r1, r2⟩ := clause_read c e p.1 p.2 h
      refine ⟨?_, by simp only [f, r1]⟩
      simp only [f, r1]
      rcases r2 with ⟨ha, hl⟩ | ⟨ha, hne⟩
      · rw [ha]
        refine sureAlias_last ⟨hl.1, .inr ?_⟩
        obtain hl | ⟨q, hl⟩ := hl.2
        · exact ⟨c.nodeText pre, by rw [hl]⟩
        · exact ⟨c.nodeText pre ++ 92 :: q, by rw [hl, List.append_assoc]; rfl⟩
      · rw [ha]; exact sureAlias_given hne
    · rw [List.map_map]
      exact hd

theorem segments (a rest : Bytes) (ha : ¬ Imports.Qualified a) (hr : rest = [] ∨ Imports.FullyQualified rest) :
    Imports.firstSegment (a ++ rest) = a ∧ Imports.afterFirst (a ++ rest) = rest := by
  induction a with
  | nil =>
    rcases hr with rfl | hr
    · exact ⟨rfl, rfl⟩
    · cases rest with
      | nil => exact ⟨rfl, rfl⟩
      | cons c r =>
        obtain rfl : c = 92 := by simpa [Imports.FullyQualified] using hr
        exact ⟨rfl, rfl⟩
  | cons c a ih =>
    unfold Imports.Qualified at ha
    rw [List.mem_cons, not_or] at ha
    obtain ⟨i1, i2⟩ := ih ha.2
    have hc : decide (c ≠ 92) = true := by simpa using fun h => ha.1 h.symm
    constructor
    · unfold Imports.firstSegment at i1 ⊢
      simp only [List.cons_append, List.takeWhile_cons, hc, if_true, i1]
    · unfold Imports.afterFirst at i2 ⊢
      simp only [List.cons_append, List.dropWhile_cons, hc, if_true, i2]

/-- C84: after the declaration a class alias stands for the imported class, alone or in front of further parts. -/
theorem C84_resolves (pairs : List (Bytes × Bytes)) (t t' : Table) (h : Imported .class_ pairs t t')
    (p : Bytes × Bytes) (hp : p ∈ pairs) (rest : Bytes) (hr : rest = [] ∨ Imports.FullyQualified rest)
    (ho : Ordinary (p.1 ++ rest)) (hq : ¬ Imports.Qualified p.1) :
    (t'.getClassReferenceFQN (tyOf (p.1 ++ rest))).1 = 92 :: p.2 ++ rest := by
  obtain ⟨item, hg, hn, -⟩ := h.added p hp
  obtain ⟨h0, -, h1, h2, hf, h3⟩ := ho
  rw [tyOf_plain h0 h1 h2 h3, Imports.C26_resolution]
  obtain ⟨s1, s2⟩ := segments p.1 rest hq hr
  simp only [hf, if_false, s1]
  rw [show t'.classes.get p.1 = some item from hg]
  simp [hn, s2]

/-- The clauses of `use Lib\Foo, Lib\Bar as B;`. -/
example : (part 9).kids = (part 9).kids.take 2 ++ sub (part 9) 2 :: (part 9).kids.drop 3 ∧
    NoPhrase useClauseList ((part 9).kids.take 2 ++ (part 9).kids.drop 3) ∧
    NoPhrase useGroupClauseList ((part 9).kids.take 2 ++ (part 9).kids.drop 3) ∧
    IsPhrase useClauseList (sub (part 9) 2) ∧ UseKind ((part 9).kids.take 2) .class_ ∧
    Listed useClause (sub (part 9) 2).kids [sub (sub (part 9) 2) 0, sub (sub (part 9) 2) 3] ∧
    List.Forall₂ (fun e (p : Bytes × Bytes) => ClauseWritten sctx e p.1 p.2)
      [sub (sub (part 9) 2) 0, sub (sub (part 9) 2) 3] [(b!"Foo", b!"Lib\\Foo"), (b!"B", b!"Lib\\Bar")] ∧
    (useDeclaration sctx (part 9) (Imports.newTable ⟨1, 0⟩)).map (fun t => Imports.names t.classes) =
      some [(b!"Foo", b!"Lib\\Foo"), (b!"B", b!"Lib\\Bar")] := by
  refine ⟨rfl, NoPhrase.of_filter rfl, NoPhrase.of_filter rfl, ⟨_, rfl⟩, ⟨by decide +kernel, by decide +kernel⟩,
    Listed.of_filter rfl, .cons ⟨_, OnlyPhrase.of_filter rfl, by decide +kernel, .inl ⟨NoPhrase.of_filter rfl, by decide, .inr ⟨b!"Lib", rfl⟩⟩⟩
      (.cons ⟨_, OnlyPhrase.of_filter rfl, by decide +kernel, .inr ⟨_, _, OnlyPhrase.of_filter rfl, OnlyToken.of_filter rfl, by decide +kernel, by decide⟩⟩ .nil),
    by decide +kernel⟩

/-- The clauses of `use function Lib\{f, g as h};`. -/
example : (part 11).kids = (part 11).kids.take 6 ++ sub (part 11) 6 :: (part 11).kids.drop 7 ∧
    NoPhrase useClauseList ((part 11).kids.take 6 ++ (part 11).kids.drop 7) ∧
    NoPhrase useGroupClauseList ((part 11).kids.take 6 ++ (part 11).kids.drop 7) ∧
    IsPhrase useGroupClauseList (sub (part 11) 6) ∧ UseKind ((part 11).kids.take 6) .function ∧
    OnlyPhrase .namespaceName ((part 11).kids.take 6) (sub (part 11) 4) ∧
    Listed useGroupClause (sub (part 11) 6).kids [sub (sub (part 11) 6) 0, sub (sub (part 11) 6) 3] ∧
    List.Forall₂ (fun e (p : Bytes × Bytes) => ClauseWritten sctx e p.1 p.2)
      [sub (sub (part 11) 6) 0, sub (sub (part 11) 6) 3] [(b!"f", b!"f"), (b!"h", b!"g")] ∧
    (∃ ks ty qs, (sub (sub (part 11) 6) 3).kids = ks ++ [.phr ty qs]) ∧
    (useDeclaration sctx (part 11) (Imports.newTable ⟨1, 0⟩)).map (fun t => Imports.names t.functions) =
      some [(b!"f", b!"Lib\\f"), (b!"h", b!"Lib\\g")] := by
  refine ⟨rfl, NoPhrase.of_filter rfl, NoPhrase.of_filter rfl, ⟨_, rfl⟩, ⟨by decide +kernel, by decide +kernel⟩,
    OnlyPhrase.of_filter rfl, Listed.of_filter rfl, .cons ⟨_, OnlyPhrase.of_filter rfl, by decide +kernel, .inl ⟨NoPhrase.of_filter rfl, by decide, .inl rfl⟩⟩
      (.cons ⟨_, OnlyPhrase.of_filter rfl, by decide +kernel, .inr ⟨_, _, OnlyPhrase.of_filter rfl, OnlyToken.of_filter rfl, by decide +kernel, by decide⟩⟩ .nil),
    ⟨(sub (sub (part 11) 6) 3).kids.take 2, _, _, rfl⟩, by decide +kernel⟩

end Verif.Decl
