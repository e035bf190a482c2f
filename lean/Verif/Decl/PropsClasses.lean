import Verif.Decl.PropsParams

/-! C83: what is recorded about the hierarchy of classes. -/

namespace Verif.Decl
open Verif.Analyser (Node PType TokType Tok Ctx tyOf)
open Verif.Types (Ty Union)

theorem isName_iff (k : Node) : k.isName = true ↔ IsName k := by
  constructor
  · intro h
    cases k with
    | phr ty ks =>
      cases ty <;> first | exact .inl ⟨ks, rfl⟩ | exact .inr ⟨ks, rfl⟩ | cases h
    | tok t => cases h
    | err t => cases h
  · rintro (⟨ks, rfl⟩ | ⟨ks, rfl⟩) <;> rfl

theorem ListedNames.filter {ks es : List Node} (h : ListedNames ks es) : ks.filter Node.isName = es := by
  induction h with
  | nil => rfl
  | take hk _ ih => rw [List.filter_cons_of_pos ((isName_iff _).2 hk), ih]
  | skip hk _ ih => rw [List.filter_cons_of_neg fun hh => hk ((isName_iff _).1 hh), ih]

theorem resolved_follows (env : Env) (x : Node) :
    FollowsPHP env.table (env.ctx.nodeText x) (resolvedName env x).fqn := follows_php env.table _

/-- Nothing but a clause of that type touches the field. -/
theorem foldl_field {α β : Type} {f : α → Node → α} {g : α → β} (ty : PType)
    (hkeep : ∀ s k, ¬ IsPhrase ty k → g (f s k) = g s) (ks : List Node) (s : α) (h : NoPhrase ty ks) :
    g (ks.foldl f s) = g s := by
  induction ks generalizing s with
  | nil => rfl
  | cons k ks ih =>
    rw [List.foldl_cons, ih _ fun k' h' => h k' (List.mem_cons_of_mem _ h'), hkeep s k (h k List.mem_cons_self)]

theorem foldl_field_only {α β : Type} {f : α → Node → α} {g : α → β} (ty : PType)
    (hkeep : ∀ s k, ¬ IsPhrase ty k → g (f s k) = g s) (ks : List Node) (s : α) (x : Node) (h : OnlyPhrase ty ks x)
    (v : β → β) (hx : ∀ s, g (f s x) = v (g s)) : g (ks.foldl f s) = v (g s) := by
  obtain ⟨pre, post, rfl, -, hn⟩ := h
  rw [List.foldl_append, List.foldl_cons, foldl_field ty hkeep post _ fun k hk => hn k (List.mem_append_right _ hk), hx,
    foldl_field ty hkeep pre _ fun k hk => hn k (List.mem_append_left _ hk)]

/-- Nothing but a token of that type touches the field. -/
theorem foldl_token_only {α β : Type} {f : α → Node → α} {g : α → β} (ty : TokType)
    (hkeep : ∀ s k, ¬ IsToken ty k → g (f s k) = g s) (ks : List Node) (s : α) (t : Tok) (h : OnlyToken ty ks t)
    (v : β) (hx : ∀ s, g (f s (.tok t)) = v) : g (ks.foldl f s) = v := by
  have keep : ∀ (ks : List Node) (s : α), (∀ k ∈ ks, ¬ IsToken ty k) → g (ks.foldl f s) = g s := by
    intro ks
    induction ks with
    | nil => intros; rfl
    | cons k ks ih =>
      intro s h
      rw [List.foldl_cons, ih _ fun k' h' => h k' (List.mem_cons_of_mem _ h'), hkeep s k (h k List.mem_cons_self)]
  obtain ⟨pre, post, rfl, -, hn⟩ := h
  rw [List.foldl_append, List.foldl_cons, keep post _ fun k hk => hn k (List.mem_append_right _ hk), hx]

section header
variable (env : Env)

theorem header_ext_keep (s : ClassRec) (k : Node) (h : ¬ IsPhrase .classBaseClause k) :
    (classHeaderStep env s k).ext = s.ext := by
  rw [← typ_iff] at h
  unfold classHeaderStep
  split_ifs <;> rfl

theorem header_impls_keep (s : ClassRec) (k : Node) (h : ¬ IsPhrase .classInterfaceClause k) :
    (classHeaderStep env s k).impls = s.impls := by
  rw [← typ_iff] at h
  unfold classHeaderStep
  split_ifs <;> rfl

theorem header_name_keep (s : ClassRec) (k : Node) (h : ¬ IsToken .name k) :
    (classHeaderStep env s k).name = s.name := by
  rw [← tokType_iff] at h
  unfold classHeaderStep
  split_ifs <;> rfl

theorem header_uses_keep (hs : List Node) (s : ClassRec) : (hs.foldl (classHeaderStep env) s).uses = s.uses := by
  induction hs generalizing s with
  | nil => rfl
  | cons k ks ih =>
    rw [List.foldl_cons, ih]
    unfold classHeaderStep
    split_ifs <;> rfl

/-- The children of the declaration other than the header do not touch what the header gives. -/
theorem class_keep (s : ClassRec) (k : Node) (h : ¬ IsPhrase .classDeclarationHeader k) :
    (classStep env s k).ext = s.ext ∧ (classStep env s k).impls = s.impls ∧ (classStep env s k).name = s.name ∧
      (classStep env s k).mod = s.mod := by
  rw [← typ_iff] at h
  unfold classStep
  split_ifs <;> exact ⟨rfl, rfl, rfl, rfl⟩

/-- The class before its declaration is read. -/
def emptyClass : ClassRec := ⟨⟨[], [], 0⟩, .no, ⟨[], [], 0⟩, [], []⟩

theorem class_ext (ks hs : List Node) (h : OnlyPhrase .classDeclarationHeader ks (.phr .classDeclarationHeader hs)) :
    (newClass env (.phr .classDeclaration ks)).ext = (hs.foldl (classHeaderStep env) emptyClass).ext ∧
    (newClass env (.phr .classDeclaration ks)).impls = (hs.foldl (classHeaderStep env) emptyClass).impls ∧
    (newClass env (.phr .classDeclaration ks)).name = (hs.foldl (classHeaderStep env) emptyClass).name ∧
    (newClass env (.phr .classDeclaration ks)).mod = (hs.foldl (classHeaderStep env) emptyClass).mod := by
  obtain ⟨pre, post, rfl, -, hn⟩ := h
  have fixed : ∀ (ks : List Node) (s : ClassRec), NoPhrase .classDeclarationHeader ks →
      (ks.foldl (classStep env) s).ext = s.ext ∧ (ks.foldl (classStep env) s).impls = s.impls ∧
      (ks.foldl (classStep env) s).name = s.name ∧ (ks.foldl (classStep env) s).mod = s.mod := fun ks s hk =>
    ⟨foldl_field (g := ClassRec.ext) _ (fun s k h => (class_keep env s k h).1) ks s hk,
      foldl_field (g := ClassRec.impls) _ (fun s k h => (class_keep env s k h).2.1) ks s hk,
      foldl_field (g := ClassRec.name) _ (fun s k h => (class_keep env s k h).2.2.1) ks s hk,
      foldl_field (g := ClassRec.mod) _ (fun s k h => (class_keep env s k h).2.2.2) ks s hk⟩
  have hpre := fixed pre emptyClass fun k hk => hn k (List.mem_append_left _ hk)
  have huse : (pre.foldl (classStep env) emptyClass) =
      { emptyClass with uses := (pre.foldl (classStep env) emptyClass).uses } := by
    obtain ⟨h1, h2, h3, h4⟩ := hpre
    revert h1 h2 h3 h4
    generalize pre.foldl (classStep env) emptyClass = s
    intro h1 h2 h3 h4
    cases s
    simp only at h1 h2 h3 h4
    subst h1 h2 h3 h4
    rfl
  have huses : ∀ (hs : List Node) (s : ClassRec) (u : List Ty),
      hs.foldl (classHeaderStep env) { s with uses := u } = { hs.foldl (classHeaderStep env) s with uses := u } := by
    intro hs
    induction hs with
    | nil => intros; rfl
    | cons k hs ih =>
      intro s u
      rw [List.foldl_cons, List.foldl_cons, ← ih]
      congr 1
      unfold classHeaderStep
      split_ifs <;> rfl
  unfold newClass
  rw [show (Node.phr PType.classDeclaration (pre ++ .phr .classDeclarationHeader hs :: post)).kids =
    pre ++ .phr .classDeclarationHeader hs :: post from rfl, List.foldl_append, List.foldl_cons]
  rw [show (⟨⟨[], [], 0⟩, .no, ⟨[], [], 0⟩, [], []⟩ : ClassRec) = emptyClass from rfl, huse]
  rw [show ∀ s, classStep env s (.phr .classDeclarationHeader hs) = hs.foldl (classHeaderStep env) s from fun s => rfl,
    huses]
  exact fixed post _ fun k hk => hn k (List.mem_append_right _ hk)

end header

/-- C83: the parent recorded for a class is the one that `extends` names, as PHP resolves the name. -/
theorem C83_extends (env : Env) (ks hs : List Node) (base x : Node)
    (h : OnlyPhrase .classDeclarationHeader ks (.phr .classDeclarationHeader hs))
    (hb : OnlyPhrase .classBaseClause hs base) (hx : OnlyName base.kids x) :
    FollowsPHP env.table (env.ctx.nodeText x) (newClass env (.phr .classDeclaration ks)).ext.fqn := by
  have e : (newClass env (.phr .classDeclaration ks)).ext = resolvedName env x := by
    rw [(class_ext env ks hs h).1]
    refine foldl_field_only (g := ClassRec.ext) .classBaseClause (header_ext_keep env) hs _ base hb
      (fun _ => resolvedName env x) fun s => ?_
    obtain ⟨-, -, -, ⟨bs, rfl⟩, -⟩ := hb
    obtain ⟨pre, post, hk, hn, hno⟩ := hx
    show extendsOf env _ s.ext = _
    unfold extendsOf
    rw [hk]
    exact lastOf_only _ (by rw [if_pos ((isName_iff x).2 hn)]) fun k hk => if_neg fun hh => hno k hk ((isName_iff k).1 hh)
  rw [e]
  exact resolved_follows env x

/-- C83: without `extends` there is no parent, without `implements` there are no interfaces. -/
theorem C83_none (env : Env) (ks hs : List Node)
    (h : OnlyPhrase .classDeclarationHeader ks (.phr .classDeclarationHeader hs)) :
    (NoPhrase .classBaseClause hs → (newClass env (.phr .classDeclaration ks)).ext.fqn = []) ∧
    (NoPhrase .classInterfaceClause hs → (newClass env (.phr .classDeclaration ks)).impls = []) := by
  rw [(class_ext env ks hs h).1, (class_ext env ks hs h).2.1]
  exact ⟨fun hb => by rw [foldl_field (g := ClassRec.ext) _ (header_ext_keep env) hs _ hb]; rfl,
    fun hb => by rw [foldl_field (g := ClassRec.impls) _ (header_impls_keep env) hs _ hb]; rfl⟩

/-- C83: the interfaces recorded for a class are those that `implements` names, in that order, as PHP resolves the
names. -/
theorem C83_implements (env : Env) (ks hs ls es : List Node) (clause : Node)
    (h : OnlyPhrase .classDeclarationHeader ks (.phr .classDeclarationHeader hs))
    (hc : OnlyPhrase .classInterfaceClause hs clause)
    (hl : OnlyPhrase .qualifiedNameList clause.kids (.phr .qualifiedNameList ls)) (he : ListedNames ls es) :
    List.Forall₂ (fun e n => FollowsPHP env.table (env.ctx.nodeText e) n.fqn) es
      (newClass env (.phr .classDeclaration ks)).impls := by
  have e : (newClass env (.phr .classDeclaration ks)).impls = es.map (resolvedName env) := by
    rw [(class_ext env ks hs h).2.1]
    refine foldl_field_only (g := ClassRec.impls) .classInterfaceClause (header_impls_keep env) hs _ clause hc
      (fun l => l ++ es.map (resolvedName env)) fun s => ?_
    obtain ⟨-, -, -, ⟨bs, rfl⟩, -⟩ := hc
    show s.impls ++ implementsOf env _ = _
    congr 1
    unfold implementsOf
    obtain ⟨pre, post, hk, -, hno⟩ := hl
    have hpre : pre.find? (fun k => decide (typ? k = some .qualifiedNameList)) = none := by
      refine List.find?_eq_none.2 fun k hk => ?_
      have := hno k (List.mem_append_left _ hk)
      rw [← typ_iff] at this
      simpa using this
    rw [hk, List.find?_append, hpre]
    show (ls.filter Node.isName).map _ = _
    rw [he.filter]
  rw [e]
  exact forall₂_map_right (resolvedName env) (fun x => resolved_follows env x) es

theorem reached_members (ms cs : List Node) (hm : ∀ k ∈ ms, IsMember k) (hc : Listed .traitUseClause ms cs) :
    (reachedKids ms).filter (fun q => typ? q = some .traitUseClause) = cs := by
  have : reachedKids ms = ms := by
    clear hc
    induction ms with
    | nil => rfl
    | cons k ms ih =>
      rw [reachedKids, ih fun k' h' => hm k' (List.mem_cons_of_mem _ h')]
      have : reached k = [k] := by
        rcases hm k List.mem_cons_self with ⟨_, rfl⟩ | ⟨_, rfl⟩ | ⟨_, rfl⟩ | ⟨_, rfl⟩ | ⟨_, rfl⟩ | ⟨_, rfl⟩ <;>
          simp [reached, Analyser.isTransparent]
      rw [this]
      rfl
  rw [this, hc.filter]

theorem TraitNames.flatMap (env : Env) {cs es : List Node} (h : TraitNames cs es) :
    cs.flatMap (usesOf env) = es.map (resolvedName env) := by
  induction h with
  | nil => rfl
  | @cons k ks ls es es' hl he _ ih =>
    rw [List.flatMap_cons, ih, List.map_append]
    congr 1
    unfold usesOf
    rw [hl.filter]
    show (ls.filter Node.isName).map _ ++ _ = _
    rw [he.filter]
    simp

/-- C83: the traits recorded for a class are those that the `use` clauses among its members name, in that order, as PHP
resolves the names. `list` is the type of the list of members (`ClassMemberDeclarationList`), which the analysis only
scans for its children. -/
theorem C83_uses (env : Env) (ks bs ms cs es : List Node) (list : Nat)
    (hb : OnlyPhrase .classDeclarationBody ks (.phr .classDeclarationBody bs))
    (hl : ∃ pre post, bs = pre ++ .phr (.transparent list) ms :: post ∧ ∀ k ∈ pre ++ post, ∃ t, k = .tok t)
    (hm : ∀ k ∈ ms, IsMember k) (hc : Listed .traitUseClause ms cs) (he : TraitNames cs es) :
    List.Forall₂ (fun e n => FollowsPHP env.table (env.ctx.nodeText e) n.fqn) es
      (newClass env (.phr .classDeclaration ks)).uses := by
  have keep : ∀ s k, ¬ IsPhrase .classDeclarationBody k → (classStep env s k).uses = s.uses := by
    intro s k hk
    rw [← typ_iff] at hk
    unfold classStep
    split_ifs
    · exact header_uses_keep env _ _
    · rfl
  have e : (newClass env (.phr .classDeclaration ks)).uses = es.map (resolvedName env) := by
    refine foldl_field_only (g := ClassRec.uses) .classDeclarationBody keep ks _ _ hb
      (fun l => l ++ es.map (resolvedName env)) fun s => ?_
    show s.uses ++ ((reachedKids bs).filter fun q => typ? q = some .traitUseClause).flatMap (usesOf env) = _
    congr 1
    rw [← he.flatMap env]
    congr 1
    obtain ⟨pre, post, rfl, ht⟩ := hl
    have toks : ∀ (l : List Node), (∀ k ∈ l, ∃ t, k = .tok t) → reachedKids l = l := by
      intro l
      induction l with
      | nil => intros; rfl
      | cons k l ih =>
        intro h
        obtain ⟨t, rfl⟩ := h k List.mem_cons_self
        rw [reachedKids, ih fun k' h' => h k' (List.mem_cons_of_mem _ h')]
        rfl
    have app : ∀ (a b : List Node), reachedKids (a ++ b) = reachedKids a ++ reachedKids b := by
      intro a b
      induction a with
      | nil => rfl
      | cons k a ih => rw [List.cons_append, reachedKids, reachedKids, ih, List.append_assoc]
    have nofilter : ∀ (l : List Node), (∀ k ∈ l, ∃ t, k = .tok t) →
        l.filter (fun q => typ? q = some .traitUseClause) = [] := by
      intro l h
      refine List.filter_eq_nil_iff.2 fun k hk => ?_
      obtain ⟨t, rfl⟩ := h k hk
      simp [typ?]
    rw [app, reachedKids, toks pre fun k hk => ht k (List.mem_append_left _ hk),
      toks post fun k hk => ht k (List.mem_append_right _ hk)]
    rw [show reached (.phr (.transparent list) ms) = reachedKids ms by simp [reached, Analyser.isTransparent]]
    rw [List.filter_append, List.filter_append, nofilter pre fun k hk => ht k (List.mem_append_left _ hk),
      nofilter post fun k hk => ht k (List.mem_append_right _ hk), reached_members ms cs hm hc]
    simp
  rw [e]
  exact forall₂_map_right (resolvedName env) (fun x => resolved_follows env x) es

/-- C83: a class is recorded under the name that is written, in the namespace of the file. -/
theorem C83_name (env : Env) (ks hs : List Node) (t : Tok)
    (h : OnlyPhrase .classDeclarationHeader ks (.phr .classDeclarationHeader hs)) (ht : OnlyToken .name hs t)
    (ho : Ordinary (env.ctx.tokText t)) :
    (newClass env (.phr .classDeclaration ks)).name.fqn =
      Imports.inNamespace env.table.getNamespace (env.ctx.tokText t) := by
  rw [(class_ext env ks hs h).2.2.1, ← ordinary_name _ _ ho]
  congr 1
  refine foldl_token_only (g := ClassRec.name) .name (header_name_keep env) hs _ t ht _ fun s => ?_
  obtain ⟨-, -, -, hty, -⟩ := ht
  unfold classHeaderStep
  rw [if_pos (by rw [← hty]; rfl)]
  rfl

theorem ListedNames.of_filter {ks es : List Node} (h : ks.filter Node.isName = es) : ListedNames ks es := by
  induction ks generalizing es with
  | nil => cases h; exact .nil
  | cons k ks ih =>
    by_cases hk : k.isName = true
    · rw [List.filter_cons_of_pos hk] at h
      subst h
      exact .take ((isName_iff _).1 hk) (ih rfl)
    · rw [List.filter_cons_of_neg hk] at h
      exact .skip (fun hp => hk ((isName_iff _).2 hp)) (ih h)

theorem OnlyName.of_filter {ks : List Node} (i : Nat) (x : Node) (hk : ks = ks.take i ++ x :: ks.drop (i + 1)) (hx : x.isName = true)
    (h : (ks.take i ++ ks.drop (i + 1)).filter Node.isName = []) : OnlyName ks x :=
  ⟨_, _, hk, (isName_iff _).1 hx, fun k hk hp => List.filter_eq_nil_iff.1 h k hk ((isName_iff _).2 hp)⟩

/-- The conditions under which names follow PHP. -/
example : FollowsPHP senv.table b!"Foo" b!"\\Lib\\Foo" ∧ ¬ FollowsPHP senv.table b!"Foo" b!"\\App\\Foo" := by
  constructor
  · intro _ _ _ _ _ _ _
    decide +kernel
  · intro h
    exact absurd (h (by decide) (by decide) (by decide) (by decide) (by decide +kernel) (by decide +kernel)
      (by decide +kernel)) (by decide +kernel)

example : OnlyPhrase .classDeclarationHeader (part 5).kids (sub (part 5) 0) ∧
    OnlyPhrase .classBaseClause (sub (part 5) 0).kids (sub (sub (part 5) 0) 4) ∧
    OnlyName (sub (sub (part 5) 0) 4).kids (sub (sub (sub (part 5) 0) 4) 2) ∧
    (newClass senv (part 5)).ext.fqn = b!"\\Lib\\Foo" :=
  ⟨OnlyPhrase.of_filter rfl, OnlyPhrase.of_filter rfl, OnlyName.of_filter 2 _ rfl rfl rfl, by decide +kernel⟩

example : OnlyPhrase .classInterfaceClause (sub (part 5) 0).kids (sub (sub (part 5) 0) 6) ∧
    OnlyPhrase .qualifiedNameList (sub (sub (part 5) 0) 6).kids (sub (sub (sub (part 5) 0) 6) 2) ∧
    ListedNames (sub (sub (sub (part 5) 0) 6) 2).kids
      [sub (sub (sub (sub (part 5) 0) 6) 2) 0, sub (sub (sub (sub (part 5) 0) 6) 2) 3] ∧
    (newClass senv (part 5)).impls.map Ty.fqn = [b!"\\App\\I", b!"\\J"] :=
  ⟨OnlyPhrase.of_filter rfl, OnlyPhrase.of_filter rfl, ListedNames.of_filter rfl, by decide +kernel⟩

example : OnlyPhrase .classDeclarationBody (part 5).kids (sub (part 5) 2) ∧
    (sub (part 5) 2).kids = (sub (part 5) 2).kids.take 1 ++ .phr (.transparent 5) sMembers.kids :: (sub (part 5) 2).kids.drop 2 ∧
    (∀ k ∈ sMembers.kids, IsMember k) ∧ Listed .traitUseClause sMembers.kids [sub sMembers 0] ∧
    TraitNames [sub sMembers 0] ([sub (sub (sub sMembers 0) 2) 0] ++ []) ∧
    (newClass senv (part 5)).uses.map Ty.fqn = [b!"\\App\\T"] := by
  refine ⟨OnlyPhrase.of_filter rfl, rfl, ?_, Listed.of_filter rfl, .cons (es := [sub (sub (sub sMembers 0) 2) 0]) (OnlyPhrase.of_filter rfl) (ListedNames.of_filter rfl) .nil,
    by decide +kernel⟩
  intro k hk
  rcases hk with _ | ⟨_, hk⟩
  · exact .inr (.inr (.inr (.inl ⟨_, rfl⟩)))
  rcases hk with _ | ⟨_, hk⟩
  · exact .inr (.inl ⟨_, rfl⟩)
  rcases hk with _ | ⟨_, hk⟩
  · exact .inr (.inr (.inl ⟨_, rfl⟩))
  rcases hk with _ | ⟨_, hk⟩
  · exact .inl ⟨_, rfl⟩
  cases hk

example : (∃ t, OnlyToken .name (sub (part 5) 0).kids t ∧ Ordinary (senv.ctx.tokText t)) ∧ (newClass senv (part 5)).name.fqn = b!"\\App\\A" :=
  ⟨⟨_, OnlyToken.of_filter rfl, by decide +kernel⟩, by decide +kernel⟩

end Verif.Decl
