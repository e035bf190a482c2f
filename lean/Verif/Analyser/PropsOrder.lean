import Verif.Analyser.OrderDecl
import Verif.Document.Props

/-!
C70: the symbols of an analysed document are in the order of the text and nested, its scopes are apart, and the
analysis neither fails nor leaves blocks open. With it the lookups of C45, C63, C64, C65 and C66 are correct for every
document that is analysed.
-/

namespace Verif.Analyser
open Verif.Symbols (Tree Var Rec Info LKind symAt Path StartsInOrder EndsInside)
open Verif.Position (Before)

/-! ### specification -/

/-- The context of a document with that text (`positionAt`, see C22). -/
def Ctx.ofText (text : Bytes) (ignored : TokType → Bool) (anonName : Pos → Bytes) : Ctx :=
  ⟨text, fun o => ((Document.ofText text).positionAt o).getD ⟨0, 0⟩, ignored, anonName⟩

/-- The Go types that the lookups tell apart (`document.go:373, 520, 522-523`, `lsp/reference.go:105`). -/
def Kind.lookupKind : Kind → LKind
  | .class_ => .class_
  | .interface_ => .interface_
  | .trait_ => .trait_
  | .argumentList => .args
  | .designator => .designator
  | .variable => .variable
  | _ => .other

/-- The Go types with a method `GetTypes` (`HasTypes`, `symbol.go:57-60`). -/
def Kind.hasTypes : Kind → Bool
  | .designator | .propertyAccess | .scopedConstantAccess | .functionCall | .classAccess | .variable
  | .scopedPropertyAccess | .derived | .typeDeclaration | .traitAccess | .constantAccess | .scopedMethodAccess
  | .methodAccess | .define | .interfaceAccess => true
  | _ => false

/-- The Go types with a method `ResolveToHasParams` (`symbol.go:93-96`). -/
def Kind.hasParams : Kind → Bool
  | .designator | .functionCall | .scopedMethodAccess | .methodAccess | .define => true
  | _ => false

/-- What the lookups see of a symbol. -/
def infoOf (s : Sym) : Info := ⟨s.range, s.kind.lookupKind, s.kind.hasTypes, s.kind.hasParams, s.name⟩

mutual

/-- A tree for the lookups. -/
def infoTree : Tree Sym → Tree Info
  | .node s kids => .node (infoOf s) (infoTrees kids)

/-- Some trees. -/
def infoTrees : List (Tree Sym) → List (Tree Info)
  | [] => []
  | t :: ts => infoTree t :: infoTrees ts

end

/-- The symbols of an analysed document as the lookups see them. -/
def infosOf (c : Ctx) (root : Node) : List (Tree Info) := infoTrees (symbolsOf c root)

mutual

/-- The ranges of some scopes. -/
def rangeTree : Tree (Rng × List Rec) → Tree Rng
  | .node x kids => .node x.1 (rangeTrees kids)

/-- The same for a list. -/
def rangeTrees : List (Tree (Rng × List Rec)) → List (Tree Rng)
  | [] => []
  | t :: ts => rangeTree t :: rangeTrees ts

end

/-- A text and a syntax tree of it: the tokens are one after the other, and the phrases are regular. -/
structure Parsed (c : Ctx) (root : Node) : Prop where
  tokens : ∃ a b, Chain a b (toks root)
  wf : WF c root
  positions : Increasing c

/-! ### positions of a text -/

theorem ofText_increasing (text : Bytes) (ig : TokType → Bool) (an : Pos → Bytes) :
    Increasing (Ctx.ofText text ig an) := by
  have key : ∀ o : Nat, ∃ k : Nat, (Ctx.ofText text ig an).posAt o = ⟨k, (o : Int) - (Document.ofText text).lineOffsets.getD k 0⟩ ∧
      k < (Document.ofText text).lineOffsets.length ∧ (Document.ofText text).lineOffsets.getD k 0 ≤ (o : Int) ∧
      ∀ j, k < j → j < (Document.ofText text).lineOffsets.length → (o : Int) < (Document.ofText text).lineOffsets.getD j 0 := by
    intro o
    obtain ⟨k, h1, h2, h3, h4⟩ := Document.lineAt_spec (Document.ofText text) (Document.table_sorted text)
      (by rw [Document.ofText_table]; rfl) o
    have hget : (Document.ofText text).lineOffsets[k]? = some ((Document.ofText text).lineOffsets.getD k 0) := by
      rw [List.getD_eq_getElem?_getD, List.getElem?_eq_getElem h2]; rfl
    refine ⟨k, ?_, h2, h3, h4⟩
    simp only [Ctx.ofText, Document.Doc.positionAt, h1]
    rw [if_neg (by omega), Int.toNat_natCast, hget]
    rfl
  intro i j hij
  obtain ⟨k, h1, h2, h3, h4⟩ := key i
  obtain ⟨l, h5, h6, h7, h8⟩ := key j
  rw [h1, h5]
  rcases Nat.lt_trichotomy k l with h | h | h
  · left; simp only; omega
  · subst h; exact Or.inr ⟨rfl, by show (i : Int) - _ < (j : Int) - _; omega⟩
  · have := h8 k h h2
    omega

/-! ### paths -/

theorem flat_sublist {F G : List (Tree Sym)} (h : F.Sublist G) : (flat F).Sublist (flat G) := by
  induction h with
  | slnil => exact .slnil
  | cons t _ ih => rw [flat]; exact ih.trans (List.sublist_append_right _ _)
  | cons_cons t _ ih => rw [flat, flat]; exact (List.Sublist.refl _).append ih

theorem flat_mem {F : List (Tree Sym)} {t : Tree Sym} (h : t ∈ F) : (flatTree t).Sublist (flat F) := by
  have := flat_sublist (List.singleton_sublist.mpr h)
  simpa [flat] using this

theorem symAt_cons {α : Type} {F : List (Tree α)} {i : Nat} {p : Path} {s : Tree α} (h : symAt F (i :: p) = some s) :
    ∃ t, F[i]? = some t ∧ (p = [] ∧ s = t ∨ p ≠ [] ∧ symAt t.kids p = some s) := by
  unfold symAt at h
  rw [Symbols.spineAt] at h
  cases hi : F[i]? with
  | none => simp [hi] at h
  | some t =>
    simp only [hi] at h
    refine ⟨t, rfl, ?_⟩
    cases p with
    | nil => left; simpa [Symbols.spineAt] using h.symm
    | cons j p =>
      right
      refine ⟨by simp, ?_⟩
      unfold symAt
      cases hs : Symbols.spineAt t.kids (j :: p) with
      | none => simp [hs] at h
      | some l =>
        simp only [hs, Option.map_some, Option.bind_some] at h
        cases l with
        | nil =>
          rw [Symbols.spineAt] at hs
          cases hj : t.kids[j]? with
          | none => simp [hj] at hs
          | some u => simp [hj] at hs
        | cons x l => simpa using h

theorem symAt_nil {α : Type} (F : List (Tree α)) : symAt F [] = none := by simp [symAt, Symbols.spineAt]

theorem symAt_mem {F : List (Tree Sym)} {p : Path} {s : Tree Sym} (h : symAt F p = some s) : s.info ∈ flat F := by
  induction p generalizing F with
  | nil => rw [symAt_nil] at h; simp at h
  | cons i p ih =>
    obtain ⟨t, ht, h⟩ := symAt_cons h
    refine (flat_mem (List.mem_of_getElem? ht)).subset ?_
    obtain ⟨a, kids⟩ := t
    rw [flatTree]
    rcases h with ⟨-, rfl⟩ | ⟨-, h⟩
    · simp [Tree.info]
    · exact List.mem_cons_of_mem _ (ih h)

/-- Paths in order lead to symbols in order. -/
theorem flat_lex {R : Sym → Sym → Prop} {F : List (Tree Sym)} (h : (flat F).Pairwise R) {p q : Path} {s t : Tree Sym}
    (hs : symAt F p = some s) (ht : symAt F q = some t) (hlt : List.Lex (· < ·) p q) : R s.info t.info := by
  induction p generalizing F q with
  | nil => rw [symAt_nil] at hs; simp at hs
  | cons i p ih =>
    cases q with
    | nil => rw [symAt_nil] at ht; simp at ht
    | cons j q =>
      obtain ⟨x, hx, hs'⟩ := symAt_cons hs
      obtain ⟨y, hy, ht'⟩ := symAt_cons ht
      have hmem : ∀ {u : Tree Sym} {p : Path} {s : Tree Sym}, (p = [] ∧ s = u ∨ p ≠ [] ∧ symAt u.kids p = some s) → s.info ∈ flatTree u := by
        rintro ⟨a, kids⟩ p s (⟨-, rfl⟩ | ⟨-, h⟩)
        · simp [flatTree, Tree.info]
        · rw [flatTree]; exact List.mem_cons_of_mem _ (symAt_mem h)
      cases hlt with
      | rel hij =>
        -- two different trees
        have hi : i < F.length := by
          by_contra hn; rw [List.getElem?_eq_none (by omega)] at hx; simp at hx
        have hj : j < F.length := by
          by_contra hn; rw [List.getElem?_eq_none (by omega)] at hy; simp at hy
        have hx' : x ∈ F.take j := by
          rw [List.mem_iff_getElem?]
          exact ⟨i, by rw [List.getElem?_take_of_lt hij]; exact hx⟩
        have hy' : y ∈ F.drop j := by
          rw [List.mem_iff_getElem?]
          exact ⟨0, by simpa using hy⟩
        have hsplit : flat F = flat (F.take j) ++ flat (F.drop j) := by rw [← flat_append, List.take_append_drop]
        rw [hsplit, List.pairwise_append] at h
        exact h.2.2 _ ((flat_mem hx').subset (hmem hs')) _ ((flat_mem hy').subset (hmem ht'))
      | cons hpq =>
        rw [hx, Option.some.injEq] at hy
        subst hy
        have hx' := h.sublist (flat_mem (List.mem_of_getElem? hx))
        obtain ⟨a, kids⟩ := x
        rw [flatTree, List.pairwise_cons] at hx'
        rcases hs' with ⟨rfl, rfl⟩ | ⟨hp, hs'⟩
        · rcases ht' with ⟨rfl, rfl⟩ | ⟨hq, ht'⟩
          · cases hpq
          · exact hx'.1 _ (symAt_mem ht')
        · rcases ht' with ⟨rfl, rfl⟩ | ⟨hq, ht'⟩
          · cases hpq
          · exact ih hx'.2 hs' ht' hpq

theorem nested_mem {F : List (Tree Sym)} (h : Nested F) {s : Sym} {kids : List (Tree Sym)} (hm : Tree.node s kids ∈ F) :
    Nested kids ∧ ∀ x ∈ flat kids, x.kind.ordered = true → Le x.range.stop s.range.stop := by
  induction h with
  | nil => simp at hm
  | cons h1 h2 _ _ ih =>
    rcases List.mem_cons.mp hm with hm | hm
    · cases hm; exact ⟨h1, h2⟩
    · exact ih hm

theorem nested_prefix {F : List (Tree Sym)} (h : Nested F) {p q : Path} {s t : Tree Sym} (hs : symAt F p = some s)
    (ht : symAt F q = some t) (hpq : p <+: q) (ho : t.info.kind.ordered = true) : Le t.info.range.stop s.info.range.stop := by
  induction p generalizing F q with
  | nil => rw [symAt_nil] at hs; simp at hs
  | cons i p ih =>
    cases q with
    | nil => rw [symAt_nil] at ht; simp at ht
    | cons j q =>
      obtain ⟨rfl, hpq'⟩ := List.cons_prefix_cons.mp hpq
      obtain ⟨x, hx, hs'⟩ := symAt_cons hs
      obtain ⟨y, hy, ht'⟩ := symAt_cons ht
      rw [hx, Option.some.injEq] at hy
      subst hy
      obtain ⟨a, kids⟩ := x
      obtain ⟨h1, h2⟩ := nested_mem h (List.mem_of_getElem? hx)
      rcases hs' with ⟨rfl, rfl⟩ | ⟨hp, hs'⟩
      · rcases ht' with ⟨rfl, rfl⟩ | ⟨hq, ht'⟩
        · exact Le.refl _
        · exact h2 _ (symAt_mem ht') ho
      · rcases ht' with ⟨rfl, rfl⟩ | ⟨hq, ht'⟩
        · simp only [List.prefix_nil] at hpq'; exact absurd hpq' hp
        · exact ih h1 hs' ht' hpq'

theorem infoTrees_get (F : List (Tree Sym)) (i : Nat) : (infoTrees F)[i]? = F[i]?.map infoTree := by
  induction F generalizing i with
  | nil => simp [infoTrees]
  | cons t F ih =>
    cases i with
    | zero => simp [infoTrees]
    | succ i => simp [infoTrees, ih]

theorem infoTree_kids (t : Tree Sym) : (infoTree t).kids = infoTrees t.kids := by
  obtain ⟨a, k⟩ := t; simp [infoTree, Tree.kids]

theorem infoTree_info (t : Tree Sym) : (infoTree t).info = infoOf t.info := by
  obtain ⟨a, k⟩ := t; simp [infoTree, Tree.info]

theorem spineAt_info (F : List (Tree Sym)) (p : Path) :
    Symbols.spineAt (infoTrees F) p = (Symbols.spineAt F p).map (List.map infoTree) := by
  induction p generalizing F with
  | nil => simp [Symbols.spineAt]
  | cons i p ih =>
    rw [Symbols.spineAt, Symbols.spineAt, infoTrees_get]
    cases F[i]? with
    | none => simp
    | some t => simp only [Option.map_some, infoTree_kids, ih, Option.map_map]; rfl

theorem symAt_info {F : List (Tree Sym)} {p : Path} {s : Tree Info} (h : symAt (infoTrees F) p = some s) :
    ∃ t, symAt F p = some t ∧ s = infoTree t := by
  unfold symAt at h ⊢
  rw [spineAt_info] at h
  cases hs : Symbols.spineAt F p with
  | none => simp [hs] at h
  | some l =>
    simp only [hs, Option.map_some, Option.bind_some, List.getLast?_map, Option.map_eq_some_iff] at h
    obtain ⟨t, h1, h2⟩ := h
    exact ⟨t, h1, h2.symm⟩

theorem startsInOrder_info {F : List (Tree Sym)}
    (h : (flat F).Pairwise fun s t => t.kind.ordered = true → Le s.range.start t.range.start) (G : Info → Prop)
    (hG : ∀ s : Sym, G (infoOf s) → s.kind.ordered = true) : StartsInOrder (infoTrees F) G := by
  intro p q s t hs ht hlt hg
  obtain ⟨s', hs', rfl⟩ := symAt_info hs
  obtain ⟨t', ht', rfl⟩ := symAt_info ht
  rw [infoTree_info] at hg ⊢
  rw [infoTree_info]
  exact flat_lex h hs' ht' hlt (hG _ hg)

theorem endsInside_info {F : List (Tree Sym)} (h : Nested F) (G : Info → Prop)
    (hG : ∀ s : Sym, G (infoOf s) → s.kind.ordered = true) : EndsInside (infoTrees F) G := by
  intro p q s t hs ht hpq hg
  obtain ⟨s', hs', rfl⟩ := symAt_info hs
  obtain ⟨t', ht', rfl⟩ := symAt_info ht
  rw [infoTree_info] at hg ⊢
  rw [infoTree_info]
  exact nested_prefix h hs' ht' hpq (hG _ hg)

/-! ### scopes -/

theorem scopesIn_mem {lo hi : Pos} {T : List (Tree (Rng × List Rec))} (h : ScopesIn lo hi T) {t : Tree (Rng × List Rec)}
    (hm : t ∈ T) : Le lo t.info.1.start ∧ Le t.info.1.start t.info.1.stop ∧ Le t.info.1.stop hi ∧
      RecsOK t.info.1.start t.info.1.stop t.info.2 ∧ ScopesIn t.info.1.start t.info.1.stop t.kids := by
  induction h with
  | nil => simp at hm
  | cons h1 h2 h3 h4 _ ih =>
    rcases List.mem_cons.mp hm with rfl | hm
    · exact ⟨h1, h3.le, h4.le, h2, h3⟩
    · obtain ⟨h5, h6⟩ := ih hm
      exact ⟨h1.trans (h3.le.trans h5), h6⟩

theorem scopesIn_apart {lo hi : Pos} {T : List (Tree (Rng × List Rec))} (h : ScopesIn lo hi T) {i j : Nat} (hij : i < j)
    {s t : Tree (Rng × List Rec)} (hs : T[i]? = some s) (ht : T[j]? = some t) : Le s.info.1.stop t.info.1.start := by
  induction h generalizing i j with
  | nil => simp at hs
  | cons h1 h2 h3 h4 _ ih =>
    cases j with
    | zero => omega
    | succ j =>
      simp only [List.getElem?_cons_succ] at ht
      cases i with
      | zero =>
        simp only [List.getElem?_cons_zero, Option.some.injEq] at hs
        subst hs
        exact (scopesIn_mem h4 (List.mem_of_getElem? ht)).1
      | succ i => exact ih (Nat.lt_of_succ_lt_succ hij) (by simpa using hs) ht

theorem rangeTrees_get (T : List (Tree (Rng × List Rec))) (i : Nat) : (rangeTrees T)[i]? = T[i]?.map rangeTree := by
  induction T generalizing i with
  | nil => simp [rangeTrees]
  | cons t T ih =>
    cases i with
    | zero => simp [rangeTrees]
    | succ i => simp [rangeTrees, ih]

theorem rangeTree_info (t : Tree (Rng × List Rec)) : (rangeTree t).info = t.info.1 := by
  obtain ⟨a, k⟩ := t; simp [rangeTree, Tree.info]

theorem rangeTree_mem {T : List (Tree (Rng × List Rec))} {r : Tree Rng} (h : r ∈ rangeTrees T) : ∃ t ∈ T, r = rangeTree t := by
  obtain ⟨i, hi⟩ := List.mem_iff_getElem?.mp h
  rw [rangeTrees_get, Option.map_eq_some_iff] at hi
  obtain ⟨t, h1, h2⟩ := hi
  exact ⟨t, List.mem_of_getElem? h1, h2.symm⟩

mutual

theorem apart_of : ∀ (pos : Pos) (t : Tree (Rng × List Rec)) (lo hi : Pos), ScopesIn lo hi t.kids → Symbols.Apart pos (rangeTree t)
  | pos, .node x kids, lo, hi, h => by
    rw [rangeTree]
    refine .node ?_ (apart_ofKids pos kids lo hi h)
    intro i j a b ha hb h1 h2 h3 h4
    rw [rangeTrees_get, Option.map_eq_some_iff] at ha hb
    obtain ⟨s, hs, rfl⟩ := ha
    obtain ⟨t, ht, rfl⟩ := hb
    rw [rangeTree_info] at h1 h2 h3 h4
    have h : ScopesIn lo hi kids := h
    rcases Nat.lt_trichotomy i j with hij | hij | hij
    · have := scopesIn_apart h hij hs ht
      exact absurd (before_le h2 this) h3
    · exact hij
    · have := scopesIn_apart h hij ht hs
      exact absurd (before_le h4 this) h1

theorem apart_ofKids : ∀ (pos : Pos) (T : List (Tree (Rng × List Rec))) (lo hi : Pos), ScopesIn lo hi T →
    ∀ c ∈ rangeTrees T, Symbols.Apart pos c
  | _, [], _, _, _ => by simp [rangeTrees]
  | pos, t :: T, lo, hi, h => by
    intro c hc
    rw [rangeTrees] at hc
    cases h with
    | cons h1 h2 h3 h4 =>
      rcases List.mem_cons.mp hc with rfl | hc
      · exact apart_of pos _ _ _ h3
      · exact apart_ofKids pos T _ _ h4 c hc

end

theorem recsOK_uses {lo hi : Pos} {R : List Rec} (h : RecsOK lo hi R) (name : Bytes) : Symbols.UsesInOrder R name := by
  intro i j r u hij hr hu hd
  obtain ⟨hi', hr'⟩ := List.getElem?_eq_some_iff.mp hr.1
  obtain ⟨hj', hu'⟩ := List.getElem?_eq_some_iff.mp hu.1
  have := List.pairwise_iff_getElem.mp h.order i j hi' hj' hij
  rw [hr', hu'] at this
  exact this hd

mutual

theorem within_recs : ∀ (t : Tree (Rng × List Rec)) (lo hi : Pos), RecsOK lo hi t.info.2 → (∃ lo hi, ScopesIn lo hi t.kids) →
    ∀ x, Symbols.Within t x → ∃ lo hi, RecsOK lo hi x.2
  | .node y kids, lo, hi, h, ⟨lo', hi', hk⟩, x, hw => by
    cases hw with
    | root => exact ⟨lo, hi, h⟩
    | kid hc hw => exact within_recsIn kids lo' hi' hk _ hc x hw

theorem within_recsIn : ∀ (T : List (Tree (Rng × List Rec))) (lo hi : Pos), ScopesIn lo hi T →
    ∀ t ∈ T, ∀ x, Symbols.Within t x → ∃ lo hi, RecsOK lo hi x.2
  | [], _, _, _, t, ht, _, _ => by simp at ht
  | s :: T, lo, hi, h, t, ht, x, hw => by
    cases h with
    | cons h1 h2 h3 h4 =>
      rcases List.mem_cons.mp ht with rfl | ht
      · exact within_recs _ _ _ h2 ⟨_, _, h3⟩ x hw
      · exact within_recsIn T _ _ h4 t ht x hw

end

/-! ### the properties -/

section
variable {c : Ctx} {root : Node}

/-- What the analysis adds to an empty document. -/
theorem Parsed.facts (h : Parsed c root) : ∃ lo hi R T, (analyse c root).below = [] ∧ (analyse c root).varsBelow = [] ∧
    (analyse c root).crashed = false ∧ SymsOK lo hi (symbolsOf c root) ∧
    scopesOf c root = .node (c.range root, R) T ∧ RecsOK lo hi R ∧ ScopesIn lo hi T := by
  obtain ⟨a, b, hc⟩ := h.tokens
  obtain ⟨F, R, T, h1⟩ := analyse_adds h.positions h.wf hc
  refine ⟨_, _, R, T, h1.below, ?_, h1.crashed, ?_, ?_, h1.recsOK, h1.scopesOK⟩
  · rcases h1.around with ⟨-, h2⟩ | ⟨v, vs, h2, -⟩
    · exact h2
    · simp [St.start] at h2
  · have : symbolsOf c root = F := by
      have := h1.kids
      simpa [symbolsOf, St.start] using this
    rw [this]
    exact h1.symsOK
  · have h2 := h1.recs
    have h3 := h1.scopes
    have h4 := h1.vrange
    simp only [St.start, List.nil_append] at h2 h3 h4
    simp only [scopesOf, h2, h3, h4]

/-- C70 (partial: for syntax trees that are `Parsed`). The analysis of a document does not fail, and every block and
scope it opens is closed again. -/
theorem C70_complete_partial (h : Parsed c root) :
    (analyse c root).crashed = false ∧ (analyse c root).below = [] ∧ (analyse c root).varsBelow = [] := by
  obtain ⟨_, _, _, _, h1, h2, h3, -⟩ := h.facts
  exact ⟨h3, h1, h2⟩

/-- C70 (partial: for syntax trees that are `Parsed`; properties and constants of classes and members from doc comments
are left out). No symbol begins before a symbol that precedes it in the tree of symbols. -/
theorem C70_order_partial (h : Parsed c root) (p q : Path) (s t : Tree Sym) (hs : symAt (symbolsOf c root) p = some s)
    (ht : symAt (symbolsOf c root) q = some t) (hlt : List.Lex (· < ·) p q) (ho : t.info.kind.ordered = true) :
    ¬ Before t.info.range.start s.info.range.start := by
  obtain ⟨_, _, _, _, -, -, -, h4, -⟩ := h.facts
  exact flat_lex h4.order hs ht hlt ho

/-- C70 (partial: as above). A symbol in a block does not end after the block. -/
theorem C70_nested_partial (h : Parsed c root) (p q : Path) (s t : Tree Sym) (hs : symAt (symbolsOf c root) p = some s)
    (ht : symAt (symbolsOf c root) q = some t) (hpq : p <+: q) (ho : t.info.kind.ordered = true) :
    ¬ Before s.info.range.stop t.info.range.stop := by
  obtain ⟨_, _, _, _, -, -, -, h4, -⟩ := h.facts
  exact nested_prefix h4.nested hs ht hpq ho

theorem hasTypes_ordered (s : Sym) (h : (infoOf s).hasTypes = true) : s.kind.ordered = true := by
  obtain ⟨k, r, n, sc⟩ := s
  cases k <;> simp [infoOf, Kind.hasTypes] at h <;> rfl

theorem classLike_ordered (s : Sym) (h : (infoOf s).kind.classLike = true) : s.kind.ordered = true := by
  obtain ⟨k, r, n, sc⟩ := s
  cases k <;> simp [infoOf, Kind.lookupKind, LKind.classLike] at h <;> rfl

theorem args_ordered (s : Sym) (h : (infoOf s).kind = .args) : s.kind.ordered = true := by
  obtain ⟨k, r, n, sc⟩ := s
  cases k <;> simp [infoOf, Kind.lookupKind] at h <;> rfl

/-- C63, for syntax trees that are `Parsed`. In every analysed document the symbol found at a position is the
last one with types that contains the position or ends there. -/
theorem C63_analysed (h : Parsed c root) (pos : Pos) :
    Symbols.IsLast (infosOf c root) (fun _ i => i.hasTypes = true ∧ Symbols.Touches pos i.range)
      (Symbols.hasTypesAtPos (infosOf c root) pos) := by
  obtain ⟨_, _, _, _, -, -, -, h4, -⟩ := h.facts
  exact Symbols.C63_symbol_at _ pos (startsInOrder_info h4.order _ hasTypes_ordered)
    (endsInside_info h4.nested _ hasTypes_ordered)

/-- C63, as above. None of the symbols with types at the position begins after the one that is found. -/
theorem C63_analysed_closest (h : Parsed c root) (pos : Pos) (s t : Tree Info) (q : Path)
    (hfound : Symbols.hasTypesAtPos (infosOf c root) pos = some s) (hq : symAt (infosOf c root) q = some t)
    (ht : t.info.hasTypes = true) (htouch : Symbols.Touches pos t.info.range) :
    ¬ Before s.info.range.start t.info.range.start := by
  obtain ⟨_, _, _, _, -, -, -, h4, -⟩ := h.facts
  exact Symbols.C63_closest _ pos (startsInOrder_info h4.order _ hasTypes_ordered)
    (endsInside_info h4.nested _ hasTypes_ordered) s t q hfound hq ht htouch

/-- C64 (partial: as above). In every analysed document the class found for a position is the innermost one around it. -/
theorem C64_analysed_partial (h : Parsed c root) (pos : Pos) :
    Symbols.IsLast (infosOf c root) (fun _ i => i.kind.classLike = true ∧ Symbols.Inside pos i.range)
      (Symbols.classAt (infosOf c root) pos) := by
  obtain ⟨_, _, _, _, -, -, -, h4, -⟩ := h.facts
  exact Symbols.C64_class_at_partial _ pos (startsInOrder_info h4.order _ classLike_ordered)
    (endsInside_info h4.nested _ classLike_ordered)

/-- C65 (partial: as above). In every analysed document the symbol found before a position is the last one with types
that begins at or before it and is not inside a symbol that has ended. -/
theorem C65_analysed_before_partial (h : Parsed c root) (pos : Pos) :
    Symbols.IsLast (infosOf c root)
      (fun p i => i.hasTypes = true ∧ ¬ Before pos i.range.start ∧ Symbols.InOpen (infosOf c root) pos p)
      (Symbols.hasTypesBeforePos (infosOf c root) pos) := by
  obtain ⟨_, _, _, _, -, -, -, h4, -⟩ := h.facts
  exact Symbols.C65_symbol_before_partial _ pos (startsInOrder_info h4.order _ hasTypes_ordered)

/-- C65 (partial: as above, and no anonymous class has arguments). In every analysed document the argument list found
for a position is the innermost one around it. -/
theorem C65_analysed_call_partial (h : Parsed c root) (pos : Pos) (hanon : ∀ p, ¬ Symbols.OfAnonymousClass (infosOf c root) p) :
    Symbols.IsLast (infosOf c root) (fun _ i => i.kind = .args ∧ Symbols.Inside pos i.range)
      (Symbols.argumentListAndFunctionCallAt (infosOf c root) pos).1 ∧
    (Symbols.argumentListAndFunctionCallAt (infosOf c root) pos).2
      = ((Symbols.argumentListAndFunctionCallAt (infosOf c root) pos).1.bind fun a =>
          Symbols.hasTypesBeforePos (infosOf c root) a.info.range.start).filter (·.info.hasParams) := by
  obtain ⟨_, _, _, _, -, -, -, h4, -⟩ := h.facts
  exact Symbols.C65_call_partial _ pos (startsInOrder_info h4.order _ args_ordered) (endsInside_info h4.nested _ args_ordered) hanon

/-- C66, for syntax trees that are `Parsed`. In every analysed document the scope found for a position is the
innermost of all scopes around it. -/
theorem C66_analysed (h : Parsed c root) (pos : Pos) :
    ∃ p, Symbols.Descends pos (rangeTree (scopesOf c root)) p (Symbols.findScope pos (rangeTree (scopesOf c root))) ∧
      ∀ q u, Symbols.Descends pos (rangeTree (scopesOf c root)) q u → q <+: p := by
  obtain ⟨_, _, _, _, -, -, -, -, h5, -, h7⟩ := h.facts
  refine Symbols.C66_innermost pos _ ?_
  rw [h5]
  exact apart_of pos _ _ _ h7

/-- C45 (partial: for syntax trees that are `Parsed`). In every scope of an analysed document a variable is reported as
unused exactly if it is a declaration after which no use of the name is recorded. -/
theorem C45_analysed_partial (h : Parsed c root) (x : Rng × List Rec) (hx : Symbols.Within (scopesOf c root) x) (v : Var) :
    v ∈ (Symbols.record x.2).unusedVariables ↔
      ∃ k r, x.2[k]? = some r ∧ r.v = v ∧ r.isDeclaration = true ∧ ¬ Symbols.UsedAfter x.2 r.v.name k := by
  obtain ⟨lo, hi, R, T, -, -, -, -, h5, h6, h7⟩ := h.facts
  rw [h5] at hx
  obtain ⟨lo', hi', hr⟩ := within_recs (.node (c.range root, R) T) lo hi h6 ⟨_, _, h7⟩ x hx
  exact Symbols.C45_unused_partial x.2 v fun name => recsOK_uses hr name

end

end Verif.Analyser
