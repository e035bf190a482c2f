import Verif.Analyser.PropsRename

/-!
C73: the analysis makes nothing up. C71: members from doc comments.
-/

namespace Verif.Analyser
open Verif.Symbols (Tree Var Rec Info Inside Touches)

section
variable {c : Ctx} {root : Node}

theorem symbol_placed {s : Sym} (h : IsSymbol c root s) : Placed c (Anywhere (PlacedIn c root)) s :=
  (real_all c root).syms s (List.mem_append_left _ h)

/-! ### C73 -/

/-- The sorts of symbols that are declared. -/
def Kind.declared : Kind → Bool
  | .class_ | .interface_ | .trait_ | .method | .function | .anonymousFunction | .property | .classConst | .const_ | .define => true
  | _ => false

/-- C73: every symbol for a declaration has the range of a declaration of that sort in the document. -/
theorem C73_declarations {s : Sym} (h : IsSymbol c root s) (hk : s.kind.declared = true) :
    ∃ σ n, SitsIn c root σ n ∧ n.declares s.kind = true ∧ s.range = c.range n := by
  have hp := (symbol_placed h).1
  unfold Sited at hp
  obtain ⟨k, r, name, sc⟩ := s
  cases k <;> first
    | (obtain ⟨n, ⟨σ, hn⟩, h1, h2⟩ := hp; exact ⟨σ, n, sitsIn_iff.mpr hn, h1, h2⟩)
    | cases hk

/-- The sorts of symbols for names in the text. -/
def Kind.named : Kind → Bool
  | .variable | .globalVariable | .classAccess | .interfaceAccess | .traitAccess | .constantAccess | .typeDeclaration => true
  | _ => false

/-- C73: every symbol for a name in the text has the range and the text of a piece of the document, which is a variable
or a name of that sort. -/
theorem C73_names {s : Sym} (h : IsSymbol c root s) (hk : s.kind.named = true) :
    ∃ σ n, SitsIn c root σ n ∧ s.range = c.range n ∧ s.name = c.nodeText n ∧
      (if s.kind = .variable ∨ s.kind = .globalVariable then n.isVariable = true else n.spells s.kind = true) := by
  have hp := (symbol_placed h).1
  unfold Sited at hp
  obtain ⟨k, r, name, sc⟩ := s
  cases k <;> first
    | (obtain ⟨n, ⟨σ, hn⟩, h0, h1, h2⟩ := hp; exact ⟨σ, n, sitsIn_iff.mpr hn, h1, h2, by simpa using h0⟩)
    | cases hk

/-- The sorts of symbols for accesses of members and calls of functions. -/
def Kind.isUse : Kind → Bool
  | .functionCall | .scopedPropertyAccess | .scopedMethodAccess | .scopedConstantAccess | .propertyAccess | .methodAccess => true
  | _ => false

/-- C73: every symbol for a call of a function or an access of a member is that of a call or access of that sort in the
document, with the range and the text of the name that is called or accessed (`Node.uses`). -/
theorem C73_uses {s : Sym} (h : IsSymbol c root s) (hk : s.kind.isUse = true) :
    ∃ σ n, SitsIn c root σ n ∧ n.uses c s := by
  have hp := (symbol_placed h).1
  unfold Sited at hp
  obtain ⟨k, r, name, sc⟩ := s
  cases k <;> first
    | (obtain ⟨n, ⟨σ, hn⟩, h⟩ := hp; exact ⟨σ, n, sitsIn_iff.mpr hn, h⟩)
    | cases hk

/-- The sorts of symbols that have a place only: lists of arguments, the class after `new`, expressions in brackets. -/
def Kind.isPart : Kind → Bool
  | .argumentList | .designator | .derived => true
  | _ => false

/-- C73: every other symbol has the range of a part of that sort, or it is a member from a doc comment (C71). -/
theorem C73_parts {s : Sym} (h : IsSymbol c root s) (hd : s.kind.declared = false) (hn : s.kind.named = false)
    (hu : s.kind.isUse = false) (hm : s.kind ≠ .docProperty) (hm' : s.kind ≠ .docMethod) :
    s.kind.isPart = true ∧ ∃ σ n, SitsIn c root σ n ∧ n.declares s.kind = true ∧ s.range = c.range n := by
  have hp := (symbol_placed h).1
  unfold Sited at hp
  obtain ⟨k, r, name, sc⟩ := s
  cases k <;> first
    | (obtain ⟨n, ⟨σ, hn⟩, h1, h2⟩ := hp; exact ⟨rfl, σ, n, sitsIn_iff.mpr hn, h1, h2⟩)
    | exact hp.elim
    | exact absurd rfl hm
    | exact absurd rfl hm'
    | exact Bool.noConfusion (show true = false from hd)
    | exact Bool.noConfusion (show true = false from hn)
    | exact Bool.noConfusion (show true = false from hu)

/-- C73: every variable in the table of a function belongs to that function, and its name is its text. (A parameter that
lacks its name after a syntax error has the empty name.) -/
theorem C73_variables {function : Rng} {recs : List Rec} (h : (function, recs) ∈ scopeTree (scopesOf c root)) {x : Rec}
    (hx : x ∈ recs) : ∃ n, BelongsTo c root n function ∧ c.range n = x.v.range ∧
      (n.isVariable = true ∧ c.nodeText n = x.v.name ∨ n.isPhrase .parameterDeclaration = true ∧ x.v.name = []) := by
  have hmem : (function, recs) ∈ (analyse c root).scopes := List.mem_append_left _ h
  rcases (real_all c root).recs _ hmem x hx with ⟨σ, hσ, n, hn, hr, h⟩ | ⟨σ, n, hσ, hn, hu, hr, h⟩
  · exact ⟨n, ⟨σ, sitsIn_iff.mpr hn, .inl hσ⟩, hr, h⟩
  · refine ⟨n, ⟨σ, sitsIn_iff.mpr hn, .inr ⟨hu, hσ⟩⟩, hr, .inl ⟨?_, h⟩⟩
    cases n with
    | phr ty ks => simp only [Node.isPhrase, decide_eq_true_eq] at hu; subst hu; rfl
    | tok t => cases hu
    | err t => cases hu

/-- C73: every table is that of the document or of a function, method or closure in it. -/
theorem C73_functions {function : Rng} {recs : List Rec} (h : (function, recs) ∈ scopeTree (scopesOf c root)) :
    function = c.range root ∨ ∃ σ ty ks, SitsIn c root σ (.phr ty ks) ∧ c.range (.phr ty ks) = function ∧
      (ty = .functionDeclaration ∨ ty = .methodDeclaration ∨ ty = .anonymousFunctionCreationExpression) := by
  have hmem : (function, recs) ∈ (analyse c root).scopes := List.mem_append_left _ h
  rcases (real_all c root).ranges _ hmem with h | ⟨n, ⟨σ, hn⟩, hr, ht⟩
  · exact .inl h
  · refine .inr ?_
    cases n with
    | phr ty ks => exact ⟨σ, ty, ks, sitsIn_iff.mpr hn, hr, by simpa [Node.isPhrase] using ht⟩
    | tok t => simp [Node.isPhrase] at ht
    | err t => simp [Node.isPhrase] at ht

/-! ### C71 -/

/-- C71: there is no nil among the symbols. -/
theorem C71_no_nil {s : Sym} (h : IsSymbol c root s) : s.kind ≠ .nilProperty := by
  intro hk
  have hp := (symbol_placed h).1
  unfold Sited at hp
  rw [hk] at hp
  exact hp

/-- The class `n` has the name, in some namespace. -/
def HasClassName (c : Ctx) (n : Node) (fqn : Bytes) : Prop :=
  ∃ h ∈ n.kids, ∃ t, .tok t ∈ h.kids ∧ t.type = TokType.name ∧
    (plain (c.tokText t) = true → ∃ ns, fqn = fullName ns (c.tokText t))

/-- C71: every member from a doc comment is declared in a tag of a doc comment that has its range, and it is a member of
a class that begins on the line after the comment. -/
theorem C71_sound {s : Sym} (h : IsSymbol c root s) (hk : s.kind = .docProperty ∨ s.kind = .docMethod) :
    ∃ σ d σ' n, SitsIn c root σ d ∧ s.range = c.range d ∧ HasTag c d (s.kind == .docMethod) s.name ∧
      SitsIn c root σ' n ∧ n.declares .class_ = true ∧ (c.range d).stop.line + 1 = (c.range n).start.line ∧
      HasClassName c n s.scope := by
  obtain ⟨⟨n, ⟨σ', hn⟩, h1, h2, hd, h3, t, h4, h5, ns, h6⟩, d, ⟨σ, hd'⟩, h7, h8⟩ := (symbol_placed h).2 hk
  refine ⟨σ, d, σ', n, sitsIn_iff.mpr hd', h7, h8, sitsIn_iff.mpr hn, h1, by rw [← h7]; exact h2, hd, h3, t, h4, h5, fun hp => ⟨ns, ?_⟩⟩
  rw [h6, tyOf_plain hp, setNamespace_plain hp]

/-- The tag of a doc comment declares a member: it has one name and, for a property, one variable, for a method, one
identifier. -/
def Declares (c : Ctx) (t : Node) (method : Bool) (name : Bytes) : Prop :=
  t.isDocTag = true ∧ ∃ tag, t.kids.filter (Node.isTok .docTagName) = [tag] ∧
    if method then c.nodeText tag = b!"@method" ∧ ∃ i, t.kids.filter (fun k => k.isPhrase .identifier) = [i] ∧ c.nodeText i = name
    else (c.nodeText tag = b!"@property" ∨ c.nodeText tag = b!"@property-read" ∨ c.nodeText tag = b!"@property-write") ∧
      name ≠ [] ∧ ∃ v, t.kids.filter (Node.isTok .variableName) = [v] ∧ c.nodeText v = name

theorem tok_iff {ty : TokType} (k : Node) : (Item.of c k).tok?.map (·.type) = some ty ↔ k.isTok ty = true := by
  cases k <;> simp [Item.tok?, of_node, Node.isTok]

theorem find_filter {p : Node → Bool} {q : Item → Bool} (hq : ∀ k, q (Item.of c k) = p k) {ks : List Node} {x : Node}
    (h : ks.filter p = [x]) : (ks.map (Item.of c)).find? q = some (Item.of c x) := by
  induction ks with
  | nil => simp at h
  | cons k ks ih =>
    rw [List.map_cons, List.find?_cons, hq]
    cases hk : p k with
    | true =>
      rw [List.filter_cons_of_pos hk] at h
      injection h with h
      rw [h]
    | false =>
      rw [List.filter_cons_of_neg (by simp [hk])] at h
      exact ih h

/-- The last item of a sort, if there is one. -/
theorem last_filter {p : Node → Bool} {f : Bytes → Item → Bytes} (hf : ∀ r k, p k = false → f r (Item.of c k) = r)
    (ht : ∀ r k, p k = true → f r (Item.of c k) = c.nodeText k) {ks : List Node} {x : Node} (h : ks.filter p = [x]) (r : Bytes) :
    (ks.map (Item.of c)).foldl f r = c.nodeText x := by
  have none : ∀ (ks : List Node) r, ks.filter p = [] → (ks.map (Item.of c)).foldl f r = r := by
    intro ks
    induction ks with
    | nil => intro r _; rfl
    | cons k ks ih =>
      intro r h
      have hk : p k = false := by simpa using List.filter_eq_nil_iff.mp h k (by simp)
      rw [List.filter_cons_of_neg (by simp [hk])] at h
      rw [List.map_cons, List.foldl_cons, hf r k hk]
      exact ih r h
  induction ks generalizing r with
  | nil => simp at h
  | cons k ks ih =>
    rw [List.map_cons, List.foldl_cons]
    cases hk : p k with
    | true =>
      rw [List.filter_cons_of_pos hk] at h
      injection h with h h'
      rw [ht r k hk, none ks _ h', h]
    | false =>
      rw [List.filter_cons_of_neg (by simp [hk])] at h
      exact ih h _

theorem Declares.member {t : Node} {method : Bool} {name : Bytes} (h : Declares c t method name) :
    (Item.of c t).isDocTag = true ∧ ∃ tag, docTagMember c (Item.of c t) = some (tag, name) ∧
      if method then tag = b!"@method" else tag = b!"@property" ∨ tag = b!"@property-read" ∨ tag = b!"@property-write" := by
  obtain ⟨h1, k, h2, h3⟩ := h
  have htag : docTagName c (Item.of c t).kids = c.nodeText k := by
    unfold docTagName
    rw [of_kids, find_filter (p := Node.isTok .docTagName) (fun k => by
      rw [Bool.eq_iff_iff, decide_eq_true_iff, tok_iff]) h2]
    simp only [of_node]
  refine ⟨?_, c.nodeText k, ?_, ?_⟩
  · match t, h1 with
    | .phr (.docTag i) ks, _ => simp [Item.isDocTag, of_type]
  · unfold docTagMember
    dsimp only
    rw [htag]
    cases method with
    | true =>
      simp only [if_true] at h3
      obtain ⟨h3, i, h4, h5⟩ := h3
      rw [h3, if_neg (by decide), if_pos rfl]
      unfold docIdentifier
      rw [of_kids, last_filter (p := fun k => k.isPhrase .identifier) (x := i) (fun r k hk => by
        rw [if_neg (by rw [type_iff, hk]; simp)]) (fun r k hk => by rw [if_pos ((type_iff c k _).mpr hk), of_node]) h4, h5]
    | false =>
      simp only [Bool.false_eq_true, if_false] at h3
      obtain ⟨h3, hne, v, h4, h5⟩ := h3
      rw [if_pos h3]
      have hv : docVariable c (Item.of c t).kids = name := by
        unfold docVariable
        rw [of_kids, last_filter (p := Node.isTok .variableName) (x := v) (fun r k hk => ?_) (fun r k hk => ?_) h4, h5]
        · cases k <;> simp_all [Item.tok?, of_node, Node.isTok]
        · cases k <;> simp_all [Item.tok?, of_node, Node.isTok, Ctx.nodeText, Ctx.tokText]
      rw [hv, if_neg hne]
  · cases method with
    | true => simpa using h3.1
    | false => simpa using h3.1

/-- The members of a comment. -/
theorem mem_docMembers {ds : List Node} {t : Node} (ht : t ∈ ds) {method : Bool} {name : Bytes} (h : Declares c t method name) :
    (method, name) ∈ docMembers c (ds.map (Item.of c)) := by
  obtain ⟨h1, tag, h2, h3⟩ := h.member
  have hmem : (tag, name) ∈ ((ds.map (Item.of c)).filter Item.isDocTag).filterMap (docTagMember c) :=
    List.mem_filterMap.mpr ⟨_, List.mem_filter.mpr ⟨List.mem_map_of_mem ht, h1⟩, h2⟩
  unfold docMembers
  generalize ((ds.map (Item.of c)).filter Item.isDocTag).filterMap (docTagMember c) = tags at hmem
  simp only [List.mem_append, List.mem_map, List.mem_filter]
  cases method with
  | true =>
    simp only [if_true] at h3
    exact .inr ⟨_, ⟨hmem, by simp [h3]⟩, rfl⟩
  | false =>
    simp only [Bool.false_eq_true, if_false] at h3
    refine .inl ⟨(tag, name), ?_, rfl⟩
    rcases h3 with h3 | h3 | h3
    · exact .inl (.inl ⟨hmem, by simp [h3]⟩)
    · exact .inl (.inr ⟨hmem, by simp [h3]⟩)
    · exact .inr ⟨hmem, by simp [h3]⟩

theorem foldl_docMember {d : Rng} {fqn : Bytes} {ms : List (Bool × Bytes)} {m : Bool × Bytes} (hm : m ∈ ms) (st : St) :
    (ms.foldl (fun st m => st.add (docMember d fqn m)) st).Has (.sym (docMember d fqn m)) := by
  have grow : ∀ (ms : List (Bool × Bytes)) (st : St), Grow True True st (ms.foldl (fun st m => st.add (docMember d fqn m)) st) := by
    intro ms
    induction ms with
    | nil => exact fun st => .refl st
    | cons m ms ih => exact fun st => (Grow.add st _).trans (ih _)
  induction ms generalizing st with
  | nil => simp at hm
  | cons m' ms ih =>
    rw [List.foldl_cons]
    rcases List.mem_cons.mp hm with rfl | hm
    · exact St.Has.grow (C := True) (N := True) (has_add st (docMember d fqn m)) (grow ms _)
    · exact ih hm _

/-- The header of a class adds the members from the doc comment under the name of the class. -/
theorem classHeader_doc {C : Prop} {i : Nat} {d : Rng × List (Bool × Bytes)} {hs : List Node}
    (hg : ∀ k ∈ hs, Good C False (Grow C False) (Item.of c k)) (h : one (fun k => (nameIn c k).isSome) hs = true)
    (hi : ∀ k ∈ hs, k.isPhrase .identifier = false) {name : Bytes} (hname : hs.findSome? (nameIn c) = some name)
    {m : Bool × Bytes} (hm : m ∈ d.2) (st : St) :
    (classHeader c i (some d) (hs.map (Item.of c)) st).Has (.sym (docMember d.1 ((tyOf name).setNamespace st.ns).fqn m)) := by
  have H := closed_grow c C False
  have hn : ∀ k ∈ hs, (nameIn c k).isSome = false → ∀ st, Grow C False st (classHeader c i (some d) [Item.of c k] st) := by
    intro k hk hn st
    have hnn := nameIn_none hn
    unfold classHeader each
    rw [List.foldl_cons, List.foldl_nil]
    dsimp only
    split
    · next ht => rw [if_neg (hnn.1 _ ht)]; exact .refl _
    · exact (hg k hk).run st
    · exact H.classExtends (hg k hk).kids st
    · exact H.classImplements (hg k hk).kids st
    · exact .refl _
  have hall : ∀ ks : List Node, (∀ k ∈ ks, k ∈ hs ∧ (nameIn c k).isSome = false) → ∀ st, Grow C False st (classHeader c i (some d) (ks.map (Item.of c)) st) := by
    intro ks
    induction ks with
    | nil => exact fun _ st => .refl st
    | cons k ks ih =>
      intro hks st
      have e1 : classHeader c i (some d) ((k :: ks).map (Item.of c)) st =
          classHeader c i (some d) (ks.map (Item.of c)) (classHeader c i (some d) [Item.of c k] st) := rfl
      rw [e1]
      exact (hn k (hks k (by simp)).1 (hks k (by simp)).2 st).trans (ih (fun k hk => hks k (by simp [hk])) _)
  obtain ⟨pre, k, post, rfl, h2, h3, h4⟩ := one_split h
  rcases nameIn_cases h2 with ⟨t, rfl, htt, hnt⟩ | ⟨ks', rfl, _⟩
  · have hs : name = c.tokText t := by
      rw [List.findSome?_append, List.findSome?_eq_none_iff.mpr (fun k hk => by simpa using h3 k hk)] at hname
      simpa [hnt] using hname.symm
    subst hs
    have e1 : classHeader c i (some d) ((pre ++ .tok t :: post).map (Item.of c)) st =
        classHeader c i (some d) (post.map (Item.of c)) (classHeader c i (some d) [Item.of c (.tok t)]
          (classHeader c i (some d) (pre.map (Item.of c)) st)) := by
      unfold classHeader
      rw [List.map_append, each_append]
      rfl
    rw [e1]
    refine St.Has.grow ?_ (hall post (fun k hk => ⟨by simp [hk], h4 k hk⟩) _)
    have hns := (hall pre (fun k hk => ⟨by simp [hk], h3 k hk⟩) st).ns not_false
    generalize classHeader c i (some d) (pre.map (Item.of c)) st = st1 at hns
    rw [← hns]
    have e2 : classHeader c i (some d) [Item.of c (.tok t)] st1 =
        d.2.foldl (fun st m => st.add (docMember d.1 ((tyOf (c.tokText t)).setNamespace st1.ns).fqn m))
          ((st1.nameClass i ((tyOf (c.tokText t)).setNamespace st1.ns)).onTop fun s => { s with name := ((tyOf (c.tokText t)).setNamespace st1.ns).fqn }) := by
      have e3 : (Item.of c (.tok t)).tok? = some t := by simp [Item.tok?, of_node]
      unfold classHeader each
      rw [List.foldl_cons, List.foldl_nil]
      simp only [e3, htt, if_true]
    rw [e2]
    exact foldl_docMember hm _
  · have := hi (.phr .identifier ks') (by simp)
    simp [Node.isPhrase] at this

/-- A class that follows a doc comment. -/
theorem newClass_doc {e : Env} {n : Item} {ks : List Node} (p : Parts c false e n .classDeclaration ks) (hcls : e.cls = none)
    (hf : fine c false .classDeclaration ks = true) {st : St} (ha : Agree e st) {d : Rng × List (Bool × Bytes)}
    (hd : st.validDoc (c.range n.node) = some d) {name : Bytes} (hname : headName c .classDeclarationHeader ks = some name)
    {m : Bool × Bytes} (hm : m ∈ d.2) : (newClass c n st).Has (.sym (docMember d.1 (fullName e.ns name) m)) := by
  simp only [fine, isExprType, Bool.not_false, Bool.true_or, Bool.true_and, Bool.and_eq_true] at hf
  obtain ⟨⟨⟨hf1, hf2⟩, hf3⟩, hf4⟩ := hf
  rw [hname] at hf4
  obtain ⟨hn1, hn2⟩ := named_inv hf2
  have H := hst c e
  let hdr := fun (k : Item) (st' : St) => classHeader c st.classes.length (some d) k.kids st'
  have e1 : newClass c n st = St.popBlock (each (classStep .classDeclarationHeader .classDeclarationBody hdr)
      (ks.map (Item.of c)) ((st.addClass .class_ ⟨[], [], 0⟩).1.pushBlock ⟨.class_, c.range n.node, [], []⟩)) := by
    have hd' : (st.addClass .class_ ⟨[], [], 0⟩).1.validDoc (c.range n.node) = some d := hd
    unfold newClass
    rw [p.kids]
    dsimp only
    rw [hd']
    congr 2
    funext k st'
    unfold classStep
    split
    · next h => rw [if_pos h]; rfl
    · next h => rw [h, if_neg (by simp), if_pos rfl]
    · next h1 h2 => rw [if_neg h1, if_neg h2]
  rw [e1]
  generalize hst0 : (st.addClass .class_ ⟨[], [], 0⟩).1.pushBlock ⟨.class_, c.range n.node, [], []⟩ = st0
  have hb0 : st0.below ≠ [] := by rw [← hst0]; simp [St.pushBlock]
  have hns0 : st0.ns = e.ns := by rw [← hst0]; exact ha.ns
  have hstep : ∀ k ∈ ks, k.isPhrase .classDeclarationHeader = false → ∀ st,
      Stay e st (classStep .classDeclarationHeader .classDeclarationBody hdr (Item.of c k) st) := by
    intro k hk hp st
    unfold classStep
    rw [if_neg (by rw [type_iff, hp]; simp)]
    exact (stay_pre _).ite fun _ => H.scanForChildren (p.calm k hk).good.kids st
  obtain ⟨pre, k0, post, rfl, h2, h3, h4⟩ := one_split hn1
  obtain ⟨hm1, hm2⟩ := hn2 k0 (by simp) h2
  have hs1 : k0.kids.findSome? (nameIn c) = some name := by
    rw [headName_one (k0 := k0) ?_ h2] at hname
    · exact hname
    · rw [List.filter_append, List.filter_cons_of_pos h2, List.filter_eq_nil_iff.mpr (fun k hk => by simp [h3 k hk]),
        List.filter_eq_nil_iff.mpr (fun k hk => by simp [h4 k hk])]
      rfl
  have g1 : Stay e st0 (each (classStep .classDeclarationHeader .classDeclarationBody hdr) (pre.map (Item.of c)) st0) := by
    refine PreOrder.each ⟨Grow.refl, Grow.trans⟩ (fun k hk st => ?_) st0
    obtain ⟨k', hk', rfl⟩ := List.mem_map.mp hk
    exact hstep k' (by simp [hk']) (h3 k' hk') st
  have g2 : ∀ st, Stay e st (each (classStep .classDeclarationHeader .classDeclarationBody hdr) (post.map (Item.of c)) st) := fun st => by
    refine PreOrder.each ⟨Grow.refl, Grow.trans⟩ (fun k hk st => ?_) st
    obtain ⟨k', hk', rfl⟩ := List.mem_map.mp hk
    exact hstep k' (by simp [hk']) (h4 k' hk') st
  have e2 : each (classStep .classDeclarationHeader .classDeclarationBody hdr) ((pre ++ k0 :: post).map (Item.of c)) st0 =
      each (classStep .classDeclarationHeader .classDeclarationBody hdr) (post.map (Item.of c))
        (hdr (Item.of c k0) (each (classStep .classDeclarationHeader .classDeclarationBody hdr) (pre.map (Item.of c)) st0)) := by
    rw [List.map_append, each_append]
    show each _ _ (classStep _ _ hdr (Item.of c k0) _) = _
    rw [classStep, if_pos ((type_iff c k0 _).mpr h2)]
  rw [e2]
  generalize each (classStep .classDeclarationHeader .classDeclarationBody hdr) (pre.map (Item.of c)) st0 = st1 at g1
  have hgood : Good (e.cls = none) False (Stay e) (Item.of c k0) := (p.calm k0 (by simp)).good
  have hk0 := classHeader_doc (i := st.classes.length) (d := d) (C := e.cls = none) (hs := k0.kids)
    (fun k hk => hgood.kids _ (by rw [of_kids]; exact List.mem_map_of_mem hk)) hm1 (hm2 rfl) hs1 hm st1
  rw [g1.ns not_false, hns0, tyOf_plain hf4, setNamespace_plain hf4] at hk0
  have hk1 : (hdr (Item.of c k0) st1).Has (.sym (docMember d.1 (fullName e.ns name) m)) := by
    show (classHeader _ _ _ (Item.of c k0).kids _).Has _
    rw [of_kids]
    exact hk0
  refine (hk1.grow (g2 _)).popBlock ?_
  rw [(g2 _).below]
  obtain ⟨s, _, hstep0⟩ := classHeader_step (c := c) (C := e.cls = none) (i := st.classes.length) (doc := some d) hgood hm1 (hm2 rfl)
  rw [(hstep0.within st1).below, g1.below]
  exact hb0

/-- What the analysis has found is in the document's symbols. -/
theorem symbol_of_has {s : Sym} (h : (analyse c root).Has (.sym s)) : IsSymbol c root s := by
  have w := (closed_grow c True True).analyse (σ := ()) root (fun _ _ => trivial) (fun _ _ _ => trivial) fun _ => trivial
  have h1 : (analyse c root).below = [] := w.below
  have h : s ∈ (analyse c root).syms := h
  unfold St.syms at h
  rw [h1] at h
  simpa [IsSymbol, symbolsOf] using h

theorem agree_statements {ks : List Node} {r : Rng} {ns : Bytes} {st : St} (hs : ks.all (statement c false) = true)
    (ha : Agree (topEnv r ns) st) : Agree (topEnv r (ks.foldl (nsAfter c) ns)) (each Item.run (ks.map (Item.of c)) st) := by
  induction ks generalizing ns st with
  | nil => exact ha
  | cons k ks ih =>
    rw [List.all_cons, Bool.and_eq_true] at hs
    exact ih hs.2 (find_statement hs.1 ha).1

theorem run_doc (ds : List Node) (st : St) : ((Item.of c (.phr .documentComment ds)).run st).doc =
    some (c.range (.phr .documentComment ds), docMembers c (ds.map (Item.of c))) := by
  rw [Item.of]
  show (scanNode c (Item.mk (.phr .documentComment ds) id (fun st => (st, false)) (Item.ofKids c ds)) st).doc = _
  rw [← ofKids_eq]
  show (newPhpDoc c (Item.mk (.phr .documentComment ds) id (fun st => (st, false)) (Item.ofKids c ds)) _).doc = _
  rfl

theorem run_tokens {ks : List Node} (h : ∀ k ∈ ks, ∃ t, k = .tok t) (st : St) :
    (each Item.run (ks.map (Item.of c)) st).doc = st.doc := by
  induction ks generalizing st with
  | nil => rfl
  | cons k ks ih =>
    obtain ⟨t, rfl⟩ := h k (by simp)
    show (each Item.run (ks.map (Item.of c)) ((Item.of c (.tok t)).run st)).doc = _
    rw [ih (fun k hk => h k (by simp [hk]))]
    rw [Item.of]
    show (if t.type = .directoryConstant then st.add (symOf c .constantAccess (.tok t)) else st).doc = _
    split <;> rfl

theorem run_class (ks : List Node) (st : St) : (Item.of c (.phr .classDeclaration ks)).run st =
    newClass c (Item.mk (.phr .classDeclaration ks) id (fun st => (st, false)) (Item.ofKids c ks)) st := by
  rw [Item.of]
  show scanNode c (Item.mk (.phr .classDeclaration ks) id (fun st => (st, false)) (Item.ofKids c ks)) st = _
  show newClass c (Item.mk (.phr .classDeclaration ks) id (fun st => (st, false)) (Item.ofKids c ks))
    (if isDefine c (Item.ofKids c ks) then st else st) = _
  rw [ite_self]

theorem tokens_ns {ks : List Node} (h : ∀ k ∈ ks, ∃ t, k = .tok t) (ns : Bytes) : ks.foldl (nsAfter c) ns = ns := by
  induction ks generalizing ns with
  | nil => rfl
  | cons k ks ih =>
    obtain ⟨t, rfl⟩ := h k (by simp)
    exact ih (fun k hk => h k (by simp [hk])) _

/-- C71 (partial: for code that is `Supported`; classes that are statements of the document, with nothing but tokens
between the comment and the class). If a class begins on the line after a doc comment, then every member that the comment
declares is a symbol: a member of the class, with the range of the comment. -/
theorem C71_found_partial (hs : Supported c root) {before gap after ds ks : List Node}
    (hk : root.kids = before ++ .phr .documentComment ds :: (gap ++ .phr .classDeclaration ks :: after))
    (hgap : ∀ k ∈ gap, ∃ t, k = .tok t)
    (hline : (c.range (.phr .documentComment ds)).stop.line + 1 = (c.range (.phr .classDeclaration ks)).start.line)
    {name : Bytes} (hname : headName c .classDeclarationHeader ks = some name)
    {t : Node} (ht : t ∈ ds) {method : Bool} {member : Bytes} (hd : Declares c t method member) :
    IsSymbol c root ⟨if method then .docMethod else .docProperty, c.range (.phr .documentComment ds), member,
      fullName (before.foldl (nsAfter c) []) name⟩ := by
  have hkind : docMember (c.range (.phr .documentComment ds)) (fullName (before.foldl (nsAfter c) []) name) (method, member) =
      ⟨if method then .docMethod else .docProperty, c.range (.phr .documentComment ds), member,
        fullName (before.foldl (nsAfter c) []) name⟩ := by
    unfold docMember
    cases method with
    | true => rfl
    | false =>
      obtain ⟨-, tag, -, h⟩ := hd
      simp only [Bool.false_eq_true, if_false] at h
      simp only [Bool.false_eq_true, if_false, if_neg h.2.1]
  rw [← hkind]
  refine symbol_of_has ?_
  have hs' := hs
  unfold Supported SupportedFor at hs'
  rw [hk] at hs'
  simp only [List.all_append, List.all_cons, Bool.and_eq_true] at hs'
  obtain ⟨hs1, hs2, hs3, hs4, hs5⟩ := hs'
  have e1 : analyse c root = each Item.run (after.map (Item.of c)) ((Item.of c (.phr .classDeclaration ks)).run
      (each Item.run (gap.map (Item.of c)) ((Item.of c (.phr .documentComment ds)).run
        (each Item.run (before.map (Item.of c)) (St.start c root))))) := by
    unfold analyse scanForChildren
    rw [of_kids, hk]
    simp only [List.map_append, List.map_cons, each_append]
    unfold each
    rw [List.foldl_cons, List.foldl_append, List.foldl_cons]
  rw [e1]
  have ha0 : Agree (topEnv (c.range root) []) (St.start c root) := ⟨rfl, nofun, rfl, nofun⟩
  have ha1 := agree_statements hs1 ha0
  generalize each Item.run (before.map (Item.of c)) (St.start c root) = st1 at ha1
  have ha2 := (find_statement hs2 ha1).1
  have hdoc := run_doc (c := c) ds st1
  have hns : nsAfter c (before.foldl (nsAfter c) []) (.phr .documentComment ds) = before.foldl (nsAfter c) [] := rfl
  rw [hns] at ha2
  generalize (Item.of c (.phr .documentComment ds)).run st1 = st2 at ha2 hdoc
  have ha3 := agree_statements hs3 ha2
  rw [tokens_ns hgap] at ha3
  rw [← run_tokens (c := c) hgap st2] at hdoc
  generalize each Item.run (gap.map (Item.of c)) st2 = st3 at ha3 hdoc
  refine St.Has.grow (C := True) (N := True) ?_ (PreOrder.each ⟨Grow.refl, Grow.trans⟩ (fun k hk st => ?_) _)
  · rw [run_class]
    have hsup : (supported c false (.phr .classDeclaration ks) && place c false (.phr .classDeclaration ks) &&
        !(typesIn (.phr .classDeclaration ks)).contains .namespaceDefinition) = true := hs4
    simp only [Bool.and_eq_true, Bool.not_eq_true'] at hsup
    have hc : Calm (topEnv (c.range root) (before.foldl (nsAfter c) [])) (.phr .classDeclaration ks) := calm_top hsup.2
    have hsil : silent c false (.phr .classDeclaration ks) = false := by
      rw [silent]; simp [telling, PType.closed]
    have hfine : fine c false .classDeclaration ks = true ∧ supporteds c false ks = true := by
      have := hsup.1.1
      rw [supported, hsil, Bool.false_or, Bool.and_eq_true] at this
      exact this
    have hvalid : st3.validDoc (c.range (.phr .classDeclaration ks)) =
        some (c.range (.phr .documentComment ds), docMembers c (ds.map (Item.of c))) := by
      unfold St.validDoc
      rw [hdoc]
      dsimp only
      rw [if_pos (by omega)]
    exact newClass_doc (Parts.inner (deeps_of hfine.2) hc) rfl hfine.1 ha3 hvalid hname (mem_docMembers ht hd)
  · obtain ⟨k', _, rfl⟩ := List.mem_map.mp hk
    exact ((closed_grow c True True).good k' () (fun _ _ => trivial) (fun _ _ _ => trivial) fun _ => trivial).run st

end

/-! ### examples -/

namespace Src

/-- A newline. -/
def nl : Src := .t .whitespace [10]
/-- `@property int $x` -/
def propTag (tag x : Bytes) : Src := .p (.docTag 0) [.t .docTagName tag, sp, o b!"int", sp, .t .variableName x]
/-- `@method int m()` -/
def methodTag (m : Bytes) : Src := .p (.docTag 0) [.t .docTagName b!"@method", sp, o b!"int", sp, .p .identifier [nm m], o b!"()"]
/-- `/** ... */` -/
def comment (ks : List Src) : Src := .p .documentComment ([o b!"/** "] ++ ks.intersperse sp ++ [o b!" */"])

end Src

open Src in
/-- A class with a doc comment, in a namespace. -/
def sampleDoc : Src := doc [
  nspace b!"N",
  comment [propTag b!"@property-read" b!"$x", methodTag b!"m"], nl,
  classDecl b!"A" [methodDecl b!"k" [param b!"$q"] [ret (var b!"$q")]],
  stmt (assign (var b!"$a") (create b!"A" []))]

example : sampleDoc.text = b!"<?php\nnamespace N;/** @property-read int $x @method int m() */\nclass A{function k($q){return $q;}}$a = new A();" := by
  decide +kernel

theorem sampleDoc_supported : Supported sampleDoc.ctx sampleDoc.root := by decide +kernel

/-- The members from doc comments. -/
def fromDoc (s : Src) : List (Bool × Bytes × Bytes) :=
  (flat (symbolsOf s.ctx s.root)).filterMap fun y =>
    if y.kind = .docProperty then some (false, y.name, y.scope)
    else if y.kind = .docMethod then some (true, y.name, y.scope) else none

/-- C71_sound, C71_found: the members of the class. -/
example : fromDoc sampleDoc = [(false, b!"$x", b!"\\N\\A"), (true, b!"m", b!"\\N\\A")] := by decide +kernel

/-- C71_found: the hypotheses hold. -/
example : ∃ before ds gap ks after,
    sampleDoc.root.kids = before ++ .phr .documentComment ds :: (gap ++ .phr .classDeclaration ks :: after) ∧
    (∀ k ∈ gap, ∃ t, k = .tok t) ∧ gap ≠ [] ∧
    (sampleDoc.ctx.range (.phr .documentComment ds)).stop.line + 1 =
      (sampleDoc.ctx.range (.phr .classDeclaration ks)).start.line ∧
    headName sampleDoc.ctx .classDeclarationHeader ks = some b!"A" ∧
    (∃ t ∈ ds, Declares sampleDoc.ctx t false b!"$x") ∧ (∃ t ∈ ds, Declares sampleDoc.ctx t true b!"m") ∧
    before.foldl (nsAfter sampleDoc.ctx) [] = b!"N" := by
  refine ⟨sampleDoc.root.kids.take 2, (sampleDoc.root.kids[2]'(by decide +kernel)).kids,
    (sampleDoc.root.kids.drop 3).take 1, (sampleDoc.root.kids[4]'(by decide +kernel)).kids, sampleDoc.root.kids.drop 5,
    by rfl, ?_, by decide +kernel, by decide +kernel, by decide +kernel, ?_, ?_, by decide +kernel⟩
  · intro k hk
    have h : ((sampleDoc.root.kids.drop 3).take 1).all (fun k => match k with | .tok _ => true | _ => false) = true := by
      decide +kernel
    have := List.all_eq_true.mp h k hk
    match k, this with
    | .tok t, _ => exact ⟨t, rfl⟩
  · exact ⟨((sampleDoc.root.kids[2]'(by decide +kernel)).kids[1]'(by decide +kernel)), List.getElem_mem _, rfl, _, rfl,
      by rw [if_neg (by decide)]; exact ⟨by decide +kernel, by decide, _, rfl, by decide +kernel⟩⟩
  · exact ⟨((sampleDoc.root.kids[2]'(by decide +kernel)).kids[3]'(by decide +kernel)), List.getElem_mem _, rfl, _, rfl,
      by rw [if_pos rfl]; exact ⟨by decide +kernel, _, rfl, by decide +kernel⟩⟩

/-- C73: there are symbols for declarations and for names, and there are tables with variables. -/
example : ((flat (symbolsOf sampleDoc.ctx sampleDoc.root)).filter (·.kind.declared)).length = 2 ∧
    ((flat (symbolsOf sampleDoc.ctx sampleDoc.root)).filter (·.kind.named)).length = 2 ∧
    (scopeTree (scopesOf sampleDoc.ctx sampleDoc.root)).map (fun p => p.2.map (·.v.name)) = [[b!"$a"], [b!"$q", b!"$q"]] := by
  decide +kernel

open Src in
/-- Calls and accesses: `f($a); $a->m($a)->p; A::g(); A::K; A::$s; $a->;` -/
def sampleUses : Src := doc [
  stmt (call b!"f" [var b!"$a"]),
  stmt (.p .propertyAccessExpression [method (var b!"$a") b!"m" [var b!"$a"], .t .arrow b!"->", .p .memberName [nm b!"p"]]),
  stmt (.p .scopedCallExpression [qn b!"A", o b!"::", .p .scopedMemberName [.p .identifier [nm b!"g"]], args []]),
  stmt (.p .classConstantAccessExpression [qn b!"A", o b!"::", .p .scopedMemberName [.p .identifier [nm b!"K"]]]),
  stmt (.p .scopedPropertyAccessExpression [qn b!"A", o b!"::", .p .scopedMemberName [.t .variableName b!"$s"]]),
  stmt (.p .propertyAccessExpression [var b!"$a", .t .arrow b!"->"])]

/-- The accesses and calls, with their names and columns. -/
def usesIn (s : Src) : List (Kind × Bytes × Int × Int) :=
  ((flat (symbolsOf s.ctx s.root)).filter (·.kind.isUse)).map
    fun y => (y.kind, y.name, y.range.start.character, y.range.stop.character)

/-- C73_uses: all sorts of accesses and calls occur, each with the place of its name; the last one has no name yet. -/
example : sampleUses.text = b!"<?php\nf($a);$a->m($a)->p;A::g();A::K;A::$s;$a->;" ∧
    usesIn sampleUses = [(.functionCall, b!"f", 0, 1), (.methodAccess, b!"m", 10, 11), (.propertyAccess, b!"p", 17, 18),
      (.scopedMethodAccess, b!"g", 22, 23), (.scopedConstantAccess, b!"K", 29, 30), (.scopedPropertyAccess, b!"$s", 34, 36),
      (.propertyAccess, [], 41, 41)] := by
  decide +kernel

/-- C73_parts: lists of arguments have a place only. -/
example : ((flat (symbolsOf sampleUses.ctx sampleUses.root)).filter (·.kind.isPart)).map (·.range.start.character) = [1, 11, 23] := by
  decide +kernel

/-! ### C71 is false -/

open Src in
/-- `/** @property int $x */ function f($q){}`, and `class A{}` on the next line. -/
def docOfFunction : Src := doc [
  comment [propTag b!"@property" b!"$x"], sp, funDecl b!"f" [param b!"$q"] [ret (num b!"1")], nl,
  classDecl b!"A" [methodDecl b!"k" [param b!"$q"] [ret (var b!"$q")]]]

/-- C71 does not hold for comments that belong to something else: the comment of a function is taken for that of the class
on the next line. -/
theorem C71_false_other : docOfFunction.text = b!"<?php\n/** @property int $x */ function f($q){return 1;}\nclass A{function k($q){return $q;}}" ∧
    Supported docOfFunction.ctx docOfFunction.root ∧ fromDoc docOfFunction = [(false, b!"$x", b!"\\A")] := by
  decide +kernel

open Src in
/-- A class on the same line as its comment. -/
def docSameLine : Src := doc [
  comment [propTag b!"@property" b!"$x"], sp, classDecl b!"A" [methodDecl b!"k" [param b!"$q"] [ret (var b!"$q")]]]

open Src in
/-- An empty line between a class and its comment. -/
def docEmptyLine : Src := doc [
  comment [propTag b!"@property" b!"$x"], nl, nl, classDecl b!"A" [methodDecl b!"k" [param b!"$q"] [ret (var b!"$q")]]]

/-- C71 does not hold if the class begins on the same line as the comment ends, or after an empty line: the members are
not found. -/
theorem C71_false_line :
    docSameLine.text = b!"<?php\n/** @property int $x */ class A{function k($q){return $q;}}" ∧
    docEmptyLine.text = b!"<?php\n/** @property int $x */\n\nclass A{function k($q){return $q;}}" ∧
    Supported docSameLine.ctx docSameLine.root ∧ Supported docEmptyLine.ctx docEmptyLine.root ∧
    fromDoc docSameLine = [] ∧ fromDoc docEmptyLine = [] := by
  decide +kernel

open Src in
/-- A tag `@method` without a name, and a class. -/
def docNameless : Src := doc [
  comment [.p (.docTag 0) [.t .docTagName b!"@method", sp, o b!"int"]], nl,
  classDecl b!"A" [methodDecl b!"k" [param b!"$q"] [ret (var b!"$q")]]]

/-- C71 does not hold for `@method` without a name: the class gets a method with the empty name. -/
theorem C71_false_nameless :
    docNameless.text = b!"<?php\n/** @method int */\nclass A{function k($q){return $q;}}" ∧
    Supported docNameless.ctx docNameless.root ∧ fromDoc docNameless = [(true, [], b!"\\A")] := by
  decide +kernel

end Verif.Analyser
