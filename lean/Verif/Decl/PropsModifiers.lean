import Verif.Decl.Sample

/-! C79: modifiers. -/

namespace Verif.Decl
open Verif.Analyser (Node PType TokType Tok Ctx)
open Verif.Query (Visibility)

theorem not_writes_cons {k : Node} {ks : List Node} {ty : TokType} :
    Writes (k :: ks) ty ↔ IsToken ty k ∨ Writes ks ty := by
  simp [Writes]

theorem static_loop (ks : List Node) (m : Modifiers) :
    (ks.foldl modifierStep m).isStatic = true ↔ m.isStatic = true ∨ Writes ks tStatic := by
  induction ks generalizing m with
  | nil => simp [Writes]
  | cons k ks ih =>
    rw [List.foldl_cons, ih, not_writes_cons, ← tokType_iff]
    by_cases h : tokType? k = some tStatic
    · simp [modifierStep, h]
    · have : (modifierStep m k).isStatic = m.isStatic := by unfold modifierStep; split_ifs <;> rfl
      simp [this, h]

/-- What a child does to the visibility. -/
def visOf (k : Node) : Option Visibility :=
  if tokType? k = some tPublic then some .pub
  else if tokType? k = some tProtected then some .protected_
  else if tokType? k = some tPrivate then some .private_
  else none

theorem vis_step (m : Modifiers) (k : Node) : (modifierStep m k).vis = (visOf k).getD m.vis := by
  by_cases h : tokType? k = some tAbstract
  · simp [modifierStep, visOf, h]
  by_cases h : tokType? k = some tFinal
  · simp [modifierStep, visOf, h]
  by_cases h : tokType? k = some tStatic
  · simp [modifierStep, visOf, h]
  unfold modifierStep visOf
  simp only [*, if_false]
  split_ifs <;> rfl

theorem vis_loop (ks : List Node) (m : Modifiers) :
    (ks.foldl modifierStep m).vis = m.vis ∧ (∀ k ∈ ks, visOf k = none) ∨
      ∃ k ∈ ks, visOf k = some (ks.foldl modifierStep m).vis := by
  induction ks generalizing m with
  | nil => simp
  | cons k ks ih =>
    rw [List.foldl_cons]
    rcases ih (modifierStep m k) with ⟨h1, h2⟩ | ⟨x, hx, h⟩
    · rw [h1, vis_step]
      cases hv : visOf k with
      | none =>
        left
        refine ⟨rfl, fun x hx => ?_⟩
        rcases List.mem_cons.1 hx with rfl | hx
        · exact hv
        · exact h2 x hx
      | some v => exact .inr ⟨k, List.mem_cons_self, hv⟩
    · exact .inr ⟨x, List.mem_cons_of_mem _ hx, h⟩

/-- What a child does to the class modifier. -/
def clsOf (k : Node) : Option ClassModifier :=
  if tokType? k = some tAbstract then some .abstract_
  else if tokType? k = some tFinal then some .final_
  else none

theorem cls_step (m : Modifiers) (k : Node) : (modifierStep m k).cls = (clsOf k).getD m.cls := by
  unfold modifierStep clsOf
  split_ifs <;> rfl

theorem cls_loop (ks : List Node) (m : Modifiers) :
    (ks.foldl modifierStep m).cls = m.cls ∧ (∀ k ∈ ks, clsOf k = none) ∨
      ∃ k ∈ ks, clsOf k = some (ks.foldl modifierStep m).cls := by
  induction ks generalizing m with
  | nil => simp
  | cons k ks ih =>
    rw [List.foldl_cons]
    rcases ih (modifierStep m k) with ⟨h1, h2⟩ | ⟨x, hx, h⟩
    · rw [h1, cls_step]
      cases hv : clsOf k with
      | none =>
        left
        refine ⟨rfl, fun x hx => ?_⟩
        rcases List.mem_cons.1 hx with rfl | hx
        · exact hv
        · exact h2 x hx
      | some v => exact .inr ⟨k, List.mem_cons_self, hv⟩
    · exact .inr ⟨x, List.mem_cons_of_mem _ hx, h⟩

theorem visOf_iff (k : Node) (v : Visibility) : visOf k = some v ↔
    IsToken (match v with | .pub => tPublic | .protected_ => tProtected | .private_ => tPrivate) k := by
  rw [← tokType_iff]
  unfold visOf
  cases v <;> (split_ifs with h1 h2 h3 <;> simp_all)

theorem clsOf_iff (k : Node) (v : ClassModifier) (hv : v ≠ .no) : clsOf k = some v ↔
    IsToken (match v with | .abstract_ => tAbstract | _ => tFinal) k := by
  rw [← tokType_iff]
  unfold clsOf
  cases v <;> first | exact absurd rfl hv | (split_ifs with h1 h2 <;> simp_all)

/-- C79: the modifiers of a member are the keywords that are written, in any order and with anything between them:
`private` or `protected` if written and `public` otherwise, `static` exactly if written, `abstract` or `final` if
written. (PHP allows at most one visibility, and not `abstract` together with `final`.) -/
theorem C79_keywords (ks : List Node) (h : OneVisibility ks) :
    VisibilityOf ks (getMemberModifier (.phr memberModifierList ks)).vis ∧
    ((getMemberModifier (.phr memberModifierList ks)).isStatic = true ↔ Writes ks tStatic) ∧
    (¬ (Writes ks tAbstract ∧ Writes ks tFinal) →
      ClassModifierOf ks (getMemberModifier (.phr memberModifierList ks)).cls) := by
  obtain ⟨o1, o2, o3⟩ := h
  change VisibilityOf ks (ks.foldl modifierStep noModifiers).vis ∧
    ((ks.foldl modifierStep noModifiers).isStatic = true ↔ Writes ks tStatic) ∧ (_ → ClassModifierOf ks
      (ks.foldl modifierStep noModifiers).cls)
  refine ⟨?_, ?_, fun hc => ?_⟩
  · rcases vis_loop ks noModifiers with ⟨h1, h2⟩ | ⟨k, hk, h⟩
    · rw [h1]
      refine ⟨fun ⟨k, hk, ht⟩ => ?_, fun ⟨k, hk, ht⟩ => ?_⟩
      · exact absurd ((visOf_iff k .private_).2 ht) (by rw [h2 k hk]; exact nofun)
      · exact absurd ((visOf_iff k .protected_).2 ht) (by rw [h2 k hk]; exact nofun)
    · revert h
      generalize (ks.foldl modifierStep noModifiers).vis = v
      intro h
      have hw := (visOf_iff k v).1 h
      cases v with
      | pub => exact ⟨fun hp => o2 ⟨⟨k, hk, hw⟩, hp⟩, fun hp => o1 ⟨⟨k, hk, hw⟩, hp⟩⟩
      | protected_ => exact ⟨k, hk, hw⟩
      | private_ => exact ⟨k, hk, hw⟩
  · rw [static_loop]
    exact ⟨fun h => h.resolve_left (by decide), .inr⟩
  · rcases cls_loop ks noModifiers with ⟨h1, h2⟩ | ⟨k, hk, h⟩
    · rw [h1]
      refine ⟨fun ⟨k, hk, ht⟩ => ?_, fun ⟨k, hk, ht⟩ => ?_⟩
      · exact absurd ((clsOf_iff k .abstract_ (by decide)).2 ht) (by rw [h2 k hk]; exact nofun)
      · exact absurd ((clsOf_iff k .final_ (by decide)).2 ht) (by rw [h2 k hk]; exact nofun)
    · revert h
      generalize (ks.foldl modifierStep noModifiers).cls = v
      intro h
      cases v with
      | no => exfalso; revert h; unfold clsOf; split_ifs <;> exact nofun
      | abstract_ => exact ⟨k, hk, (clsOf_iff k .abstract_ (by decide)).1 h⟩
      | final_ => exact ⟨k, hk, (clsOf_iff k .final_ (by decide)).1 h⟩

theorem members_loop {α : Type} {list : PType} {f : Modifiers → Node → List α} {ks mods : List Node} {e : Node}
    (hl : list ≠ memberModifierList) (h : DeclaresMembers list ks mods e) :
    (ks.foldl (memberStep list f) (noModifiers, [])).2 = f (getMemberModifier (.phr memberModifierList mods)) e := by
  obtain ⟨pre, post, rfl, he, hn, hpost, hpre⟩ := h
  have hx : typ? e = some list := (typ_iff _ _).2 he
  have skip : ∀ k, ¬ IsPhrase list k → ¬ IsPhrase memberModifierList k → ∀ s, memberStep list f s k = s := by
    intro k h1 h2 s
    unfold memberStep
    rw [if_neg (fun hh => h2 ((typ_iff _ _).1 hh)), if_neg (fun hh => h1 ((typ_iff _ _).1 hh))]
  have helem : ∀ s, memberStep list f s e = (s.1, s.2 ++ f s.1 e) := by
    intro s
    unfold memberStep
    rw [if_neg (by rw [hx]; exact fun hh => hl (Option.some.inj hh)), if_pos hx]
  have hlast : ∀ s, post.foldl (memberStep list f) s = s := fun s => foldl_skip fun k hk =>
    skip k (hn k (List.mem_append_right _ hk)) (hpost k hk)
  rw [List.foldl_append, List.foldl_cons, hlast, helem]
  rcases hpre with ⟨hno, rfl⟩ | ⟨p1, p2, rfl, -, hno⟩
  · rw [foldl_skip fun k hk => skip k (hn k (List.mem_append_left _ hk)) (hno k hk)]
    rfl
  · rw [foldl_only fun k hk => skip k (hn k (List.mem_append_left _ ?_)) (hno k hk)]
    · have : memberStep list f (noModifiers, []) (.phr memberModifierList mods) =
          (getMemberModifier (.phr memberModifierList mods), []) := by
        unfold memberStep
        exact if_pos rfl
      rw [this]
      rfl
    · rcases List.mem_append.1 hk with h | h
      · exact List.mem_append_left _ h
      · exact List.mem_append_right _ (List.mem_cons_of_mem _ h)

theorem takeWhile_all {p : Node → Bool} {ks : List Node} (h : ∀ k ∈ ks, p k = true) : ks.takeWhile p = ks := by
  induction ks with
  | nil => rfl
  | cons k ks ih =>
    rw [List.takeWhile_cons_of_pos (h k List.mem_cons_self), ih fun k' hk' => h k' (List.mem_cons_of_mem _ hk')]

/-- C79 for properties: a declaration `private static $a = 1, $b;` makes one property per element, in order, each with
the name that is written and with the modifiers of the declaration. -/
theorem C79_properties (env : Env) (ks mods els es : List Node)
    (h : DeclaresMembers .propertyElementList ks mods (.phr .propertyElementList els)) (hv : OneVisibility mods)
    (hes : Listed .propertyElement els es) :
    List.Forall₂ (fun e p => Modified mods p.vis p.isStatic ∧ p.range = env.ctx.range e ∧
        ∀ t, OnlyToken .variableName e.kids t → p.name = env.ctx.tokText t ∧ p.nameRange = env.ctx.range (.tok t))
      es (newPropertyDeclaration env (.phr .propertyDeclaration ks)) := by
  have e : newPropertyDeclaration env (.phr .propertyDeclaration ks) =
      es.map (newProperty env (getMemberModifier (.phr memberModifierList mods))) := by
    unfold newPropertyDeclaration newPropertyList
    rw [show (Node.phr PType.propertyDeclaration ks).kids = ks from rfl, members_loop (by decide) h,
      show (Node.phr PType.propertyElementList els).kids = els from rfl, hes.filter]
  rw [e]
  refine forall₂_map_right _ (fun e => ?_) es
  have hk := C79_keywords mods hv
  generalize getMemberModifier (.phr memberModifierList mods) = m at hk
  have hdoc : ∀ (s : PropertyRec) d, (s.applyDoc env d).vis = s.vis ∧ (s.applyDoc env d).isStatic = s.isStatic ∧
      (s.applyDoc env d).range = s.range ∧ (s.applyDoc env d).name = s.name ∧
      (s.applyDoc env d).nameRange = s.nameRange := by
    intro s d
    unfold PropertyRec.applyDoc
    simp only
    split <;> exact ⟨rfl, rfl, rfl, rfl, rfl⟩
  unfold newProperty
  simp only
  split
  · next d _ =>
    obtain ⟨h1, h2, h3, h4, h5⟩ := hdoc { range := env.ctx.range e, nameRange := lastRange env (fun k => tokType? k = some .variableName) e.kids, name := lastOf (tokText? env.ctx .variableName) e.kids [], vis := m.vis, isStatic := m.isStatic, types := [], description := [], deprecated := none } d
    rw [h1, h2, h3, h4, h5]
    exact ⟨⟨hk.1, hk.2.1⟩, rfl, fun t ht => ⟨ht.text _, ht.range⟩⟩
  · exact ⟨⟨hk.1, hk.2.1⟩, rfl, fun t ht => ⟨ht.text _, ht.range⟩⟩

/-- C79 for class constants. -/
theorem C79_constants (env : Env) (ks mods els es : List Node)
    (h : DeclaresMembers .classConstElementList ks mods (.phr .classConstElementList els)) (hv : OneVisibility mods)
    (hes : Listed .classConstElement els es) :
    List.Forall₂ (fun e p => VisibilityOf mods p.vis ∧ p.range = env.ctx.range e ∧
        ∀ before value x, HasValue e.kids before value → OnlyPhrase .identifier before x →
          p.name = env.ctx.nodeText x ∧ p.nameRange = env.ctx.range x)
      es (newClassConstDeclaration env (.phr .classConstDeclaration ks)) := by
  have e : newClassConstDeclaration env (.phr .classConstDeclaration ks) =
      es.map (newClassConst env (getMemberModifier (.phr memberModifierList mods))) := by
    unfold newClassConstDeclaration newClassConstList
    rw [show (Node.phr PType.classConstDeclaration ks).kids = ks from rfl, members_loop (by decide) h,
      show (Node.phr PType.classConstElementList els).kids = els from rfl, hes.filter]
  rw [e]
  refine forall₂_map_right _ (fun e => ?_) es
  have hk := C79_keywords mods hv
  refine ⟨hk.1, rfl, fun before value x hval hx => ?_⟩
  have hb : beforeEquals e.kids = before := by
    unfold beforeEquals
    have hall : ∀ k ∈ before, (tokType? k != some TokType.equals) = true := fun k hk => by
      have := hval.1 k hk
      rw [← tokType_iff] at this
      simpa using this
    cases value with
    | none => rw [show e.kids = before from hval.2]; exact takeWhile_all hall
    | some v =>
      obtain ⟨eq, ws, he, heq, -⟩ := hval.2
      rw [he, List.takeWhile_append_of_pos hall, List.takeWhile_cons_of_neg (by simp [tokType?, heq]), List.append_nil]
  constructor
  · change lastOf _ (beforeEquals e.kids) [] = _
    rw [hb]
    exact hx.last _ _
  · change lastOf _ (beforeEquals e.kids) _ = _
    rw [hb]
    obtain ⟨pre, post, rfl, hx, hn⟩ := hx
    refine lastOf_only _ (by simp [(typ_iff _ _).2 hx]) fun k hk => ?_
    have := hn k hk
    rw [← typ_iff] at this
    simp [this]

/-- The header of a method: its modifiers, if there are any. -/
def MethodModifiers (header mods : List Node) : Prop :=
  (NoPhrase memberModifierList header ∧ mods = []) ∨
    OnlyPhrase memberModifierList header (.phr memberModifierList mods)

theorem applyDoc_mods (env : Env) (s : FunctionRec) (d : Doc) : (s.applyDoc env d).mods = s.mods ∧
    (s.applyDoc env d).name = s.name := ⟨rfl, rfl⟩

/-- A declaration with one header. -/
theorem declaration_header {env : Env} {header : PType} {step : FunctionRec → Node → FunctionRec} {doc : Option Doc}
    {ks hs : List Node} {s : FunctionRec} (h : OnlyPhrase header ks (.phr header hs)) :
    ks.foldl (declarationStep env header step doc) s =
      match doc with
      | some d => (hs.foldl step s).applyDoc env d
      | none => hs.foldl step s := by
  obtain ⟨pre, post, rfl, -, hn⟩ := h
  rw [foldl_only fun k hk s => ?_]
  · unfold declarationStep
    exact if_pos rfl
  · unfold declarationStep
    rw [if_neg fun hh => hn k hk ((typ_iff _ _).1 hh)]

theorem header_mods {env : Env} {hs mods : List Node} {s : FunctionRec} (h : MethodModifiers hs mods)
    (hs0 : s.mods = noModifiers) :
    (hs.foldl (methodHeaderStep env) s).mods = getMemberModifier (.phr memberModifierList mods) := by
  have keep : ∀ (ks : List Node) (s : FunctionRec), (∀ k ∈ ks, ¬ IsPhrase memberModifierList k) →
      (ks.foldl (methodHeaderStep env) s).mods = s.mods := by
    intro ks
    induction ks with
    | nil => intros; rfl
    | cons k ks ih =>
      intro s hk
      rw [List.foldl_cons, ih _ fun k' h' => hk k' (List.mem_cons_of_mem _ h')]
      unfold methodHeaderStep
      rw [if_neg fun hh => hk k List.mem_cons_self ((typ_iff _ _).1 hh)]
      split_ifs <;> rfl
  rcases h with ⟨hno, rfl⟩ | ⟨pre, post, rfl, -, hno⟩
  · rw [keep hs s hno, hs0]; rfl
  · rw [List.foldl_append, List.foldl_cons, keep post _ fun k hk => hno k (List.mem_append_right _ hk)]
    rw [show ∀ s, methodHeaderStep env s (.phr memberModifierList mods) =
      { s with mods := getMemberModifier (.phr memberModifierList mods) } from fun s => if_pos rfl]

/-- C79 for methods: visibility, `static`, `abstract` and `final` are those written in the header. -/
theorem C79_method (env : Env) (ks hs mods : List Node)
    (h : OnlyPhrase .methodDeclarationHeader ks (.phr .methodDeclarationHeader hs)) (hm : MethodModifiers hs mods)
    (hv : OneVisibility mods) :
    Modified mods (newMethod env (.phr .methodDeclaration ks)).mods.vis
      (newMethod env (.phr .methodDeclaration ks)).mods.isStatic ∧
    (¬ (Writes mods tAbstract ∧ Writes mods tFinal) →
      ClassModifierOf mods (newMethod env (.phr .methodDeclaration ks)).mods.cls) := by
  have e : (newMethod env (.phr .methodDeclaration ks)).mods = getMemberModifier (.phr memberModifierList mods) := by
    unfold newMethod
    rw [show (Node.phr PType.methodDeclaration ks).kids = ks from rfl, declaration_header h]
    split
    · rw [(applyDoc_mods _ _ _).1, header_mods hm rfl]
    · rw [header_mods hm rfl]
  rw [e]
  have hk := C79_keywords mods hv
  exact ⟨⟨hk.1, hk.2.1⟩, hk.2.2⟩

/-- The modifiers apply to both properties. -/
example : DeclaresMembers .propertyElementList sProps.kids (sub sProps 0).kids (sub sProps 2) ∧
    OneVisibility (sub sProps 0).kids ∧ Writes (sub sProps 0).kids tPrivate ∧ Writes (sub sProps 0).kids tStatic ∧
    Listed .propertyElement (sub sProps 2).kids [sub (sub sProps 2) 0, sub (sub sProps 2) 3] ∧
    (newPropertyDeclaration senv sProps).map (fun p => (p.name, p.vis, p.isStatic)) =
      [(b!"$p", .private_, true), (b!"$q", .private_, true)] := by
  refine ⟨⟨sProps.kids.take 2, sProps.kids.drop 3, rfl, ⟨_, rfl⟩, NoPhrase.of_filter rfl, NoPhrase.of_filter rfl,
    .inr (OnlyPhrase.of_filter rfl)⟩, by decide +kernel, by decide +kernel, by decide +kernel, Listed.of_filter rfl, by decide +kernel⟩

example : DeclaresMembers .classConstElementList sConsts.kids (sub sConsts 0).kids (sub sConsts 4) ∧
    OneVisibility (sub sConsts 0).kids ∧ Writes (sub sConsts 0).kids tProtected ∧
    Listed .classConstElement (sub sConsts 4).kids [sub (sub sConsts 4) 0] ∧
    (newClassConstDeclaration senv sConsts).map (fun p => (p.name, p.vis)) = [(b!"X", .protected_)] := by
  refine ⟨⟨sConsts.kids.take 4, sConsts.kids.drop 5, rfl, ⟨_, rfl⟩, NoPhrase.of_filter rfl, NoPhrase.of_filter rfl,
    .inr (OnlyPhrase.of_filter rfl)⟩, by decide +kernel, by decide +kernel, Listed.of_filter rfl, by decide +kernel⟩

example : OnlyPhrase .methodDeclarationHeader sMethod.kids (sub sMethod 0) ∧
    MethodModifiers (sub sMethod 0).kids (sub (sub sMethod 0) 0).kids ∧ OneVisibility (sub (sub sMethod 0) 0).kids ∧
    (newMethod senv sMethod).mods = ⟨.pub, false, .abstract_⟩ :=
  ⟨OnlyPhrase.of_filter rfl, .inr (OnlyPhrase.of_filter rfl), by decide +kernel, by decide +kernel⟩

end Verif.Decl
