import Verif.Analyser.Find

/-!
Nothing is made up: every symbol and every recorded variable of an analysed document is at a node of the syntax tree
where it is written, every scope is the document or a function in it, and every member from a doc comment is in a tag.
-/

namespace Verif.Analyser
open Verif.Symbols (Tree Var Rec)

/-- A token with that type. -/
def Node.isToken (ty : TokType) : Node → Bool
  | .tok t => t.type = ty
  | _ => false

/-- A tag of a doc comment. -/
def Node.isDocTag : Node → Bool
  | .phr (.docTag _) _ => true
  | _ => false

/-- The doc comment `n` has a tag that declares the member: a tag with one of the names for properties and with that
variable, or the tag `@method` with that identifier. A method may lack its name. -/
def HasTag (c : Ctx) (n : Node) (method : Bool) (name : Bytes) : Prop :=
  n.isPhrase .documentComment = true ∧ ∃ t ∈ n.kids, t.isDocTag = true ∧
    (∃ k ∈ t.kids, k.isToken .docTagName = true ∧
      if method then c.nodeText k = b!"@method"
      else c.nodeText k = b!"@property" ∨ c.nodeText k = b!"@property-read" ∨ c.nodeText k = b!"@property-write") ∧
    (if method then name = [] ∨ ∃ k ∈ t.kids, k.isPhrase .identifier = true ∧ c.nodeText k = name
     else name ≠ [] ∧ ∃ k ∈ t.kids, k.isToken .variableName = true ∧ c.nodeText k = name)

/-- The symbol is where it is written; a member from a doc comment is in a tag of the comment, and it is a member of a
class on the next line. -/
def Placed (c : Ctx) (P : Node → Prop) (s : Sym) : Prop :=
  Sited c P s ∧ (s.kind = .docProperty ∨ s.kind = .docMethod → DocOwner c P s.range s.scope ∧
    ∃ n, P n ∧ s.range = c.range n ∧ HasTag c n (s.kind == .docMethod) s.name)

/-- The last doc comment is one of the document and its members are in its tags. -/
def DocPlaced (c : Ctx) (P : Node → Prop) (d : Rng × List (Bool × Bytes)) : Prop :=
  ∃ n, P n ∧ n.isPhrase .documentComment = true ∧ d.1 = c.range n ∧ ∀ m ∈ d.2, HasTag c n m.1 m.2

/-- The scope is that of the document or of a function. -/
def IsScope (c : Ctx) (P : Node → Prop) (whole r : Rng) : Prop :=
  r = whole ∨ ∃ n, P n ∧ c.range n = r ∧
    (n.isPhrase .functionDeclaration = true ∨ n.isPhrase .methodDeclaration = true ∨
      n.isPhrase .anonymousFunctionCreationExpression = true)

/-- The place of a piece of code: the range of the function around it (of the document, outside of functions), and the
range of what is around that function. -/
structure Place where
  scope : Rng
  outer : Option Rng

/-- Places change at functions. -/
def places (c : Ctx) : Levels Place where
  enter σ n := if n.isFunction = true then ⟨c.range n, some σ.scope⟩ else σ
  stay _ _ h := by simp [h]

/-- The variable that is recorded in the table of `scope` is written there, or it is in the `use` of a closure there. -/
def RecIn (c : Ctx) (P : Place → Node → Prop) (scope : Rng) (name : Bytes) (r : Rng) : Prop :=
  (∃ σ, σ.scope = scope ∧ Written c (P σ) name r) ∨
  (∃ σ n, σ.outer = some scope ∧ P σ n ∧ n.isPhrase .anonymousFunctionUseVariable = true ∧ c.range n = r ∧ c.nodeText n = name)

/-- Some place. -/
def Anywhere (P : Place → Node → Prop) (n : Node) : Prop := ∃ σ, P σ n

/-- The place is the current one. -/
def At (σ : Place) (st : St) : Prop := st.vars.range = σ.scope ∧ st.varsBelow.head?.map (·.range) = σ.outer

/-- Everything found so far is in the document. -/
structure Real (c : Ctx) (P : Place → Node → Prop) (whole : Rng) (st : St) : Prop where
  syms : ∀ s ∈ st.syms, Placed c (Anywhere P) s
  recs : ∀ p ∈ st.scopes, ∀ x ∈ p.2, RecIn c P p.1 x.v.name x.v.range
  ranges : ∀ p ∈ st.scopes, IsScope c (Anywhere P) whole p.1
  doc : ∀ d, st.doc = some d → DocPlaced c (Anywhere P) d

section
variable {c : Ctx} {P : Place → Node → Prop} {whole : Rng} {st : St}

theorem Kind.not_doc {k : Kind} (h : k.member = false) : ¬ (k = .docProperty ∨ k = .docMethod) := by
  rintro (rfl | rfl) <;> cases h

theorem placed_of {s : Sym} (h : ¬ (s.kind = .docProperty ∨ s.kind = .docMethod)) (hs : Sited c (Anywhere P) s) : Placed c (Anywhere P) s :=
  ⟨hs, fun h' => absurd h' h⟩

theorem Real.add (h : Real c P whole st) {s : Sym} (hs : Placed c (Anywhere P) s) : Real c P whole (st.add s) := by
  refine ⟨fun x hx => ?_, h.recs, h.ranges, h.doc⟩
  unfold St.syms St.add St.addTree at hx
  dsimp only at hx
  rw [flat_append] at hx
  simp only [List.mem_append, flat, flatTree, List.mem_cons, List.not_mem_nil, or_false] at hx
  rcases hx with (hx | rfl) | hx
  · exact h.syms x (by unfold St.syms; exact List.mem_append_left _ hx)
  · exact hs
  · exact h.syms x (by unfold St.syms; exact List.mem_append_right _ hx)

theorem Real.record (h : Real c P whole st) {name : Bytes} {r : Rng} (p : Pos) (d : Bool)
    (hw : RecIn c P st.vars.range name r) : Real c P whole (st.record name r p d) := by
  have key : ∀ q ∈ (st.record name r p d).scopes, (∃ q' ∈ st.scopes, q'.1 = q.1 ∧
      ∀ x ∈ q.2, x ∈ q'.2 ∨ x = ⟨⟨name, r, 0⟩, p, d⟩ ∧ q.1 = st.vars.range) := by
    intro q hq
    unfold St.scopes at hq ⊢
    simp only [St.record, Scope.all, List.cons_append, List.mem_cons, List.mem_append] at hq ⊢
    rcases hq with rfl | hq
    · exact ⟨_, .inl rfl, rfl, fun x hx => by simpa using hx⟩
    · exact ⟨q, .inr hq, rfl, fun x hx => .inl hx⟩
  refine ⟨h.syms, fun q hq x hx => ?_, fun q hq => ?_, h.doc⟩
  · obtain ⟨q', h1, h2, h3⟩ := key q hq
    rcases h3 x hx with h4 | ⟨rfl, h4⟩
    · rw [← h2]; exact h.recs q' h1 x h4
    · rw [h4]; exact hw
  · obtain ⟨q', h1, h2, _⟩ := key q hq
    rw [← h2]; exact h.ranges q' h1

theorem Real.crash (h : Real c P whole st) : Real c P whole { st with crashed := true } := ⟨h.syms, h.recs, h.ranges, h.doc⟩

theorem Real.recordBelow (h : Real c P whole st) {name : Bytes} {r : Rng} (p : Pos) (d : Bool)
    (hw : ∀ v vs, st.varsBelow = v :: vs → RecIn c P v.range name r) : Real c P whole (st.recordBelow name r p d) := by
  unfold St.recordBelow
  split
  · exact h.crash
  · next v vs e =>
    have key : ∀ q ∈ ({ st with varsBelow := { v with recs := v.recs ++ [⟨⟨name, r, 0⟩, p, d⟩] } :: vs } : St).scopes,
        (∃ q' ∈ st.scopes, q'.1 = q.1 ∧ ∀ x ∈ q.2, x ∈ q'.2 ∨ x = ⟨⟨name, r, 0⟩, p, d⟩ ∧ q.1 = v.range) := by
      intro q hq
      unfold St.scopes at hq ⊢
      rw [e]
      simp only [Scope.all, List.cons_append, List.flatMap_cons, List.mem_cons, List.mem_append] at hq ⊢
      rcases hq with hq | hq | rfl | hq
      · exact ⟨q, .inl hq, rfl, fun x hx => .inl hx⟩
      · exact ⟨q, .inr (.inl hq), rfl, fun x hx => .inl hx⟩
      · exact ⟨_, .inr (.inr (.inl rfl)), rfl, fun x hx => by simpa using hx⟩
      · exact ⟨q, .inr (.inr (.inr hq)), rfl, fun x hx => .inl hx⟩
    refine ⟨h.syms, fun q hq x hx => ?_, fun q hq => ?_, h.doc⟩
    · obtain ⟨q', h1, h2, h3⟩ := key q hq
      rcases h3 x hx with h4 | ⟨rfl, h4⟩
      · rw [← h2]; exact h.recs q' h1 x h4
      · rw [h4]; exact hw v vs e
    · obtain ⟨q', h1, h2, _⟩ := key q hq
      rw [← h2]; exact h.ranges q' h1

theorem Real.pushBlock (h : Real c P whole st) (s : Sym) : Real c P whole (st.pushBlock s) := by
  refine ⟨fun x hx => h.syms x ?_, h.recs, h.ranges, h.doc⟩
  simpa [St.syms, St.pushBlock, flat] using hx

theorem Real.pushVars (h : Real c P whole st) {r : Rng} (hr : IsScope c (Anywhere P) whole r) : Real c P whole (st.pushVars r) := by
  have key : ∀ q ∈ (st.pushVars r).scopes, q = (r, []) ∨ q ∈ st.scopes := by
    intro q hq
    simpa [St.scopes, St.pushVars, Scope.all, scopeList] using hq
  refine ⟨h.syms, fun q hq x hx => ?_, fun q hq => ?_, h.doc⟩
  · rcases key q hq with rfl | hq
    · simp at hx
    · exact h.recs q hq x hx
  · rcases key q hq with rfl | hq
    · exact hr
    · exact h.ranges q hq

theorem Real.popBlock (h : Real c P whole st) (hs : Placed c (Anywhere P) st.top.sym) : Real c P whole st.popBlock := by
  unfold St.popBlock
  split
  · exact h.crash
  · next f fs e =>
    refine ⟨fun x hx => ?_, h.recs, h.ranges, h.doc⟩
    have hm : x = st.top.sym ∨ x ∈ st.syms := by
      unfold St.syms at hx ⊢
      rw [e]
      dsimp only at hx
      rw [flat_append] at hx
      simp only [flat, flatTree, List.mem_append, List.mem_cons, List.flatMap_cons, List.append_nil] at hx ⊢
      tauto
    rcases hm with rfl | hm
    · exact hs
    · exact h.syms x hm

theorem Real.popVars (h : Real c P whole st) : Real c P whole st.popVars := by
  unfold St.popVars
  split
  · exact h.crash
  · next v vs e =>
    have key : ∀ q ∈ ({ st with
        vars := { v with kids := v.kids ++ [.node (st.vars.range, st.vars.recs) st.vars.kids] }
        varsBelow := vs } : St).scopes, q ∈ st.scopes := by
      intro q hq
      unfold St.scopes at hq ⊢
      rw [e]
      simp only [Scope.all, scopeList_append, scopeList, scopeTree, List.mem_append, List.mem_cons, List.flatMap_cons,
        List.append_nil] at hq ⊢
      tauto
    exact ⟨h.syms, fun q hq => h.recs q (key q hq), fun q hq => h.ranges q (key q hq), h.doc⟩

theorem Real.onTop (h : Real c P whole st) (f : Sym → Sym) : Real c P whole (st.onTop f) := ⟨h.syms, h.recs, h.ranges, h.doc⟩

theorem isScope_of {P : Node → Prop} {n : Node} (h : n.isFunction = true) (hp : P n) : IsScope c P whole (c.range n) := by
  refine .inr ⟨n, hp, rfl, ?_⟩
  cases n with
  | phr ty ks => cases ty <;> simp_all [Node.isFunction, PType.isFunction, Node.isPhrase]
  | tok t => cases h
  | err t => cases h

theorem tok_of_tok? {n : Item} {t : Tok} (h : n.tok? = some t) : n.node = .tok t := by
  unfold Item.tok? at h
  split at h
  · next e => rw [e]; injection h with h; rw [h]
  · cases h

/-- Blocks are sited by their kind and their range. -/
theorem sited_block {s s' : Sym} (h : Sited c (Anywhere P) s) (hb : s.kind.isBlock = true) (hk : s'.kind = s.kind)
    (hr : s'.range = s.range) : Placed c (Anywhere P) s' := by
  refine placed_of ?_ ?_
  · rw [hk]; rintro (e | e) <;> rw [e] at hb <;> cases hb
  · obtain ⟨k, r, nm, sc⟩ := s
    obtain ⟨k', r', nm', sc'⟩ := s'
    cases hk; cases hr
    cases k <;> first | exact h | cases hb

theorem Sited.mono {P P' : Node → Prop} (hp : ∀ n, P n → P' n) {s : Sym} (h : Sited c P s) : Sited c P' s := by
  obtain ⟨k, r, nm, sc⟩ := s
  cases k <;> first
    | exact h
    | exact Exists.imp (fun n h => ⟨hp n h.1, h.2⟩) h

/-! ### doc comments -/

/-- What a loop that keeps the last match ends with. -/
theorem fold_last {α : Type} (f : α → Option Bytes) : ∀ (ks : List α) (r : Bytes),
    ks.foldl (fun r k => (f k).getD r) r = r ∨ ∃ k ∈ ks, f k = some (ks.foldl (fun r k => (f k).getD r) r)
  | [], r => .inl rfl
  | k :: ks, r => by
    rw [List.foldl_cons]
    rcases fold_last f ks ((f k).getD r) with h | ⟨x, hx, h⟩
    · cases hk : f k with
      | none => rw [hk] at h; exact .inl h
      | some y => rw [hk] at h; exact .inr ⟨k, by simp, by rw [hk]; simpa using h.symm⟩
    · exact .inr ⟨x, by simp [hx], h⟩

/-- A variable in a tag. -/
def docVariableOf (c : Ctx) (k : Item) : Option Bytes :=
  k.tok?.bind fun t => if t.type = .variableName then some (c.tokText t) else none

theorem docVariable_mem (ks : List Item) (h : docVariable c ks ≠ []) :
    ∃ k ∈ ks, k.node.isToken .variableName = true ∧ c.nodeText k.node = docVariable c ks := by
  have e : docVariable c ks = ks.foldl (fun r k => (docVariableOf c k).getD r) [] := by
    unfold docVariable docVariableOf
    congr 1
    funext r k
    cases ht : k.tok? with
    | none => rfl
    | some t => by_cases ht : t.type = .variableName <;> simp [ht]
  rw [e] at h ⊢
  rcases fold_last (docVariableOf c) ks [] with h' | ⟨k, hk, h'⟩
  · exact absurd h' h
  · refine ⟨k, hk, ?_⟩
    generalize ks.foldl (fun r k => (docVariableOf c k).getD r) [] = y at h'
    unfold docVariableOf at h'
    cases ht : k.tok? with
    | none => simp [ht] at h'
    | some t =>
      by_cases hv : t.type = .variableName
      · have := tok_of_tok? ht
        simp [ht, hv] at h'
        simp [this, Node.isToken, hv, Ctx.nodeText, h']
      · simp [ht, hv] at h'

/-- An identifier in a tag. -/
def docIdentifierOf (c : Ctx) (k : Item) : Option Bytes := if k.type? = some .identifier then some (c.nodeText k.node) else none

theorem docIdentifier_mem (ks : List Item) :
    docIdentifier c ks = [] ∨ ∃ k ∈ ks, k.node.isPhrase .identifier = true ∧ c.nodeText k.node = docIdentifier c ks := by
  have e : docIdentifier c ks = ks.foldl (fun r k => (docIdentifierOf c k).getD r) [] := by
    unfold docIdentifier docIdentifierOf
    congr 1
    funext r k
    by_cases ht : k.type? = some .identifier <;> simp [ht]
  rw [e]
  rcases fold_last (docIdentifierOf c) ks [] with h | ⟨k, hk, h⟩
  · exact .inl h
  · refine .inr ⟨k, hk, ?_⟩
    generalize ks.foldl (fun r k => (docIdentifierOf c k).getD r) [] = y at h
    unfold docIdentifierOf at h
    by_cases ht : k.type? = some .identifier
    · obtain ⟨ms, hn⟩ := ClosedOn.phr_of_type ht
      rw [if_pos ht] at h
      injection h with h
      exact ⟨by simp [hn, Node.isPhrase], h⟩
    · simp [ht] at h

theorem docTagName_mem (ks : List Item) (h : docTagName c ks ≠ []) :
    ∃ k ∈ ks, k.node.isToken .docTagName = true ∧ c.nodeText k.node = docTagName c ks := by
  unfold docTagName at h ⊢
  split at h
  · next k e =>
    refine ⟨k, List.mem_of_find?_eq_some e, ?_, rfl⟩
    have ht := List.find?_some e
    cases hk : k.tok? with
    | none => simp [hk] at ht
    | some t => rw [tok_of_tok? hk]; simpa [hk, Node.isToken] using ht
  · exact absurd rfl h

/-- The members of a doc comment are in its tags. -/
theorem docMembers_hasTag {n : Item} (ht : n.type? = some .documentComment) (hs : n.kids.map Item.node = n.node.kids)
    (hk : ∀ k ∈ n.kids, k.kids.map Item.node = k.node.kids) {m : Bool × Bytes} (hm : m ∈ docMembers c n.kids) :
    HasTag c n.node m.1 m.2 := by
  obtain ⟨ms, hn⟩ := ClosedOn.phr_of_type ht
  have key : ∀ t, t ∈ (n.kids.filter Item.isDocTag).filterMap (docTagMember c) →
      ∀ b : Bool, (b = true ∧ t.1 = b!"@method" ∨ b = false ∧ (t.1 = b!"@property" ∨ t.1 = b!"@property-read" ∨ t.1 = b!"@property-write")) →
      HasTag c n.node b t.2 := by
    intro t hmem b hb
    obtain ⟨k, hkm, he⟩ := List.mem_filterMap.mp hmem
    obtain ⟨hkn, hd⟩ := List.mem_filter.mp hkm
    have hnode : k.node ∈ n.node.kids := by rw [← hs]; exact List.mem_map.mpr ⟨k, hkn, rfl⟩
    have hin : ∀ x ∈ k.kids, x.node ∈ k.node.kids := fun x hx => by
      rw [← hk k hkn]; exact List.mem_map.mpr ⟨x, hx, rfl⟩
    refine ⟨by simp [hn, Node.isPhrase], k.node, hnode, ?_, ?_⟩
    · unfold Item.isDocTag at hd
      split at hd
      · next e => obtain ⟨ks, e⟩ := ClosedOn.phr_of_type e; rw [e]; rfl
      · cases hd
    · unfold docTagMember at he
      have htag : docTagName c k.kids = t.1 := by
        dsimp only at he
        split at he
        · split at he
          · cases he
          · injection he with he; rw [← he]
        · split at he
          · injection he with he; rw [← he]
          · cases he
      have hne : docTagName c k.kids ≠ [] := by
        rw [htag]; rcases hb with ⟨_, h⟩ | ⟨_, h | h | h⟩ <;> rw [h] <;> decide
      obtain ⟨x, hx, hx1, hx2⟩ := docTagName_mem _ hne
      rw [htag] at hx2
      dsimp only at he
      rw [htag] at he
      rcases hb with ⟨rfl, h⟩ | ⟨rfl, h⟩
      · refine ⟨⟨x.node, hin x hx, hx1, by simpa [h] using hx2⟩, ?_⟩
        rw [h, if_neg (by decide), if_pos rfl] at he
        injection he with he
        rw [← he]
        simp only [if_true]
        rcases docIdentifier_mem (c := c) k.kids with h | ⟨y, hy, hy1, hy2⟩
        · exact .inl h
        · exact .inr ⟨y.node, hin y hy, hy1, hy2⟩
      · refine ⟨⟨x.node, hin x hx, hx1, by simpa [hx2] using h⟩, ?_⟩
        rw [if_pos h] at he
        split at he
        · cases he
        · next hv =>
          injection he with he
          rw [← he]
          obtain ⟨y, hy, hy1, hy2⟩ := docVariable_mem k.kids hv
          exact ⟨hv, y.node, hin y hy, hy1, hy2⟩
  unfold docMembers at hm
  simp only [List.mem_append, List.mem_map, List.mem_filter, beq_iff_eq] at hm
  rcases hm with ⟨t, ht, rfl⟩ | ⟨t, ht, rfl⟩
  · refine key t ?_ false (.inr ⟨rfl, ?_⟩)
    · rcases ht with (ht | ht) | ht <;> exact ht.1
    · rcases ht with (ht | ht) | ht
      · exact .inl ht.2
      · exact .inr (.inl ht.2)
      · exact .inr (.inr ht.2)
  · exact key t ht.1 true (.inl ⟨rfl, ht.2⟩)

/-! ### the relation -/

theorem ScopesLe.head : ∀ {vs vs' : List Scope}, ScopesLe vs vs' → vs'.head?.map (·.range) = vs.head?.map (·.range)
  | [], [], _ => rfl
  | _ :: _, _ :: _, h => by simp [h.1.range]
  | [], _ :: _, h => h.elim
  | _ :: _, [], h => h.elim

theorem At.within {σ : Place} {st st' : St} {C N : Prop} (h : At σ st) (hw : Within C N st st') : At σ st' :=
  ⟨hw.vars.range.trans h.1, hw.varsBelow.head.trans h.2⟩

/-- At the place the analysis makes nothing up. -/
structure Keeps (c : Ctx) (P : Place → Node → Prop) (whole : Rng) (σ : Place) (st st' : St) : Prop extends Grow True True st st' where
  sound : At σ st → Real c P whole st → Real c P whole st'

/-- The same while a block is open. -/
structure KeepsIn (c : Ctx) (P : Place → Node → Prop) (whole : Rng) (σ : Place) (st st' : St) : Prop extends Within True True st st' where
  sound : At σ st → Real c P whole st → Real c P whole st'

theorem closed_keeps (c : Ctx) (P : Place → Node → Prop) (whole : Rng) :
    ClosedOn c (places c) P True True (Keeps c P whole) (KeepsIn c P whole) where
  pre := ⟨fun st => ⟨.refl st, fun _ h => h⟩, fun h h' => ⟨h.toGrow.trans h'.toGrow, fun ha hs => h'.sound (ha.within h.toWithin) (h.sound ha hs)⟩⟩
  qpre := ⟨fun st => ⟨.refl st, fun _ h => h⟩, fun h h' => ⟨h.toWithin.trans h'.toWithin, fun ha hs => h'.sound (ha.within h.toWithin) (h.sound ha hs)⟩⟩
  lift h := ⟨h.toWithin, h.sound⟩
  frame h := ⟨h.sym, h.kept⟩
  const st s hk hs _ := ⟨.add st s, fun _ h => h.add
    (placed_of (by rw [hk]; rintro (h | h) <;> cases h) (hs.mono fun _ hp => ⟨_, hp⟩))⟩
  add st s hm _ hs := ⟨.add st s, fun _ h => h.add (placed_of (Kind.not_doc hm) (hs.mono fun _ hp => ⟨_, hp⟩))⟩
  property s h hk _ hs _ := ⟨h.toGrow.trans (.add _ s), fun ha h' => (h.sound ha h').add
    (placed_of (by rw [hk]; rintro (h | h) <;> cases h) (hs.mono fun _ hp => ⟨_, hp⟩))⟩
  classConst s h hk _ hs _ := ⟨h.toGrow.trans (.add _ s), fun ha h' => (h.sound ha h').add
    (placed_of (by rw [hk]; rintro (h | h) <;> cases h) (hs.mono fun _ hp => ⟨_, hp⟩))⟩
  docMember _ σ st st' d m fqn h hd hm ho := ⟨h.toWithin.trans (Grow.add _ _).toWithin, fun ha h' => (h.sound ha h').add (by
    obtain ⟨n, h1, h2, h3, h4⟩ := h'.doc d hd
    have ht := h4 m hm
    have ho : DocOwner c (Anywhere P) d.1 fqn := by
      obtain ⟨n, h1, h2⟩ := ho
      exact ⟨n, ⟨_, h1⟩, h2⟩
    unfold docMember
    have hdecl : ∀ k, k = .docProperty ∨ k = .docMethod → n.declares k = true := by
      obtain ⟨_, hph, _⟩ := ht
      cases n with
      | phr ty ks => rintro k (rfl | rfl) <;> simpa [Node.isPhrase, Node.declares] using h2
      | tok t => cases h2
      | err t => cases h2
    obtain ⟨b, name⟩ := m
    cases b with
    | true => exact ⟨⟨n, h1, hdecl _ (.inr rfl), h3⟩, fun _ => ⟨ho, n, h1, h3, ht⟩⟩
    | false =>
      have hne : name ≠ [] := by
        obtain ⟨_, _, _, _, _, ht⟩ := ht
        exact ht.1
      simp only [Bool.false_eq_true, if_false, if_neg hne]
      exact ⟨⟨n, h1, hdecl _ (.inl rfl), h3⟩, fun _ => ⟨ho, n, h1, h3, ht⟩⟩)⟩
  record st name r p d hw := ⟨.record st name r p d, fun ha h => h.record p d (.inl ⟨_, ha.1.symm, hw⟩)⟩
  recordBelow st n p d hp hn := ⟨.recordBelow st _ _ p d, fun ha h => h.recordBelow p d fun v vs e =>
    .inr ⟨_, n, by rw [← ha.2, e]; rfl, hp, hn, rfl, rfl⟩⟩
  block s hm hb hs h hk _ := ⟨h.toWithin.popBlock.1 hk, fun ha h' => (h.sound ha (h'.pushBlock s)).popBlock
    (sited_block (hs.mono fun _ hp => ⟨_, hp⟩) hb h.kind h.range)⟩
  classBlock hc σ st st' k name s hm hb hs h hk _ := ⟨(Within.trans (Within.pushClass trivial st k name s) h.toWithin).popBlock.1 hk,
    fun ha h' => (h.sound ha (Real.pushBlock (st := (st.addClass k name).1) ⟨h'.syms, h'.recs, h'.ranges, h'.doc⟩ s)).popBlock
      (sited_block (hs.mono fun _ hp => ⟨_, hp⟩) hb h.kind h.range)⟩
  scope n s hf hp hk hr hs h hq _ := ⟨h.toWithin.popScope.1 hq, fun ha h' => by
    have h1 := h.sound (by simp [At, places, hf, St.pushBlock, St.pushVars, ha.1])
      ((h'.pushVars (isScope_of hf ⟨_, hp⟩)).pushBlock s)
    refine h1.popVars.popBlock ?_
    rw [show ∀ st : St, st.popVars.top = st.top by intro st; unfold St.popVars; split <;> rfl]
    exact sited_block (hs.mono fun _ hp => ⟨_, hp⟩) (by rcases hk with hk | hk <;> rw [hk] <;> rfl) h.kind h.range⟩
  method n s hf hp hk hr hs h hq _ := ⟨(h.toWithin.trans (.onTop _ _ rfl rfl)).popScope.1 hq, fun ha h' => by
    have h1 := h.sound (by simp [At, places, hf, St.pushBlock, St.pushVars, ha.1])
      ((h'.pushVars (isScope_of hf ⟨_, hp⟩)).pushBlock s)
    refine (h1.onTop _).popVars.popBlock ?_
    rw [show ∀ st : St, st.popVars.top = st.top by intro st; unfold St.popVars; split <;> rfl]
    exact sited_block (hs.mono fun _ hp => ⟨_, hp⟩) (by rw [hk]; rfl) h.kind h.range⟩
  onTop st f h := ⟨.onTop st f (h _).1 (h _).2.1, fun _ h => h.onTop f⟩
  crash st := ⟨(closed_grow c True True).crash (σ := ()) st, fun _ h => h.crash⟩
  doc st n hp ht hs hk := ⟨(closed_grow c True True).doc (σ := ()) st n trivial ht hs hk, fun _ h =>
    ⟨h.syms, h.recs, h.ranges, fun d hd => by
      injection hd with hd
      rw [← hd]
      obtain ⟨ms, hn⟩ := ClosedOn.phr_of_type ht
      exact ⟨n.node, ⟨_, hp⟩, by simp [hn, Node.isPhrase], rfl, fun m hm => docMembers_hasTag ht hs hk hm⟩⟩⟩
  ns _ _ st x := ⟨(closed_grow c True True).ns (σ := ()) trivial st x, fun _ h => ⟨h.syms, h.recs, h.ranges, h.doc⟩⟩
  nameClass _ _ st i name := ⟨(closed_grow c True True).nameClass (σ := ()) trivial st i name, fun _ h => ⟨h.syms, h.recs, h.ranges, h.doc⟩⟩

/-- The nodes of a document at their places. -/
def PlacedIn (c : Ctx) (root : Node) (σ : Place) (n : Node) : Prop := (σ, n) ∈ placesInAll (places c) ⟨c.range root, none⟩ root.kids

/-- Nothing is made up. -/
theorem real_all (c : Ctx) (root : Node) : Real c (PlacedIn c root) (c.range root) (analyse c root) := by
  refine ((closed_keeps c (PlacedIn c root) (c.range root)).analyse (σ := ⟨c.range root, none⟩) root (fun m hm => by exact hm)
    (fun _ _ _ => trivial) fun _ => trivial).sound ⟨rfl, rfl⟩ ?_
  refine ⟨?_, ?_, ?_, ?_⟩
  · simp [St.syms, St.start, flat]
  · simp [St.scopes, St.start, Scope.all, scopeList]
  · simp [St.scopes, St.start, Scope.all, scopeList, IsScope]
  · simp [St.start]

end

end Verif.Analyser
