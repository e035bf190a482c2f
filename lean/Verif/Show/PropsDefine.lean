import Verif.Show.PropsMembers

/-! C119, C120: constants that are declared with `define('NAME', value)`. -/

namespace Verif.Show
open Verif.Analyser (Node Tok Ctx PType TokType)
open Verif.Decl (Env OnlyPhrase OnlyToken IsPhrase DocApplies ConstRec Doc newPhpDoc)

/-- The arguments that `newArgumentList` finds (`argumentList.go:44-68`): what is not a comma and not in `IgnoreTokenSet`. -/
def arguments (c : Ctx) (ks : List Node) : List Node :=
  ks.filter fun k =>
    match k with
    | .tok t => t.type != .comma && !c.ignored t.type
    | .phr _ _ => true
    | .err _ => false

/-- `analyseArgs` (`define.go:65-80`). `none`: the slice of a text that is shorter than two bytes panics. -/
def analyseArgs (c : Ctx) (args : List Node) (r : ConstRec) : Option ConstRec :=
  match args with
  | [] => some r
  | first :: more =>
    let value := match more with
      | [] => r.value
      | second :: _ => c.nodeText second
    match first with
    | .tok t =>
      if t.type = .stringLiteral then
        if (c.tokText t).length < 2 then none
        else some { r with name := Analyser.tyOf ((c.tokText t).drop 1).dropLast, value := value }
      else some { r with value := value }
    | _ => some { r with value := value }

/-- One child in the loop of `newDefine` (`define.go:33-46`). -/
def defineStep (env : Env) (doc : Option Doc) (r : ConstRec) (k : Node) : Option ConstRec :=
  if Decl.typ? k = some .argumentExpressionList then
    (analyseArgs env.ctx (arguments env.ctx k.kids) r).map fun r =>
      match doc with
      | some d => { r with description := d.description, deprecated := d.deprecated }
      | none => r
  else some r

/-- `newDefine` (`define.go:24-51`). -/
def newDefine (env : Env) (n : Node) : Option ConstRec :=
  (n.kids.foldlM (defineStep env (env.validDoc n)) ⟨env.ctx.range n, ⟨[], [], 0⟩, [], [], none⟩).map fun r =>
    { r with name := r.name.setNamespace env.table.getNamespace }

/-! ### specification -/

/-- In a list of arguments: commas, white space and comments (and what could not be read). -/
def separates (c : Ctx) : Node → Bool
  | .tok t => t.type == .comma || c.ignored t.type
  | .phr _ _ => false
  | .err _ => true

/-- `'NAME'` or `"NAME"`, and the second argument if there is one. -/
def DefineWritten (c : Ctx) (ks : List Node) (name : Bytes) (value : Option Node) : Prop :=
  ∃ t more quote quote', (ks.filter fun k => !separates c k) = .tok t :: more ∧ t.type = .stringLiteral ∧
    c.tokText t = quote :: (name ++ [quote']) ∧ more.head? = value

/-- The second argument behind the name. -/
def argumentShown (value : Bytes) : Bytes := if value = [] then [] else b!", " ++ value

/-! ### theorems -/

theorem arguments_eq (c : Ctx) (ks : List Node) : arguments c ks = ks.filter fun k => !separates c k := by
  unfold arguments
  congr 1
  funext k
  cases k <;> simp [separates, bne]

theorem define_loop (env : Env) (doc : Option Doc) (ks : List Node)
    (h : ∀ k ∈ ks, ¬ IsPhrase .argumentExpressionList k) (r : ConstRec) :
    ks.foldlM (defineStep env doc) r = some r := by
  induction ks with
  | nil => rfl
  | cons k ks ih =>
    have hk : defineStep env doc r k = some r := by
      unfold defineStep
      rw [if_neg]
      intro e
      refine h k List.mem_cons_self ?_
      cases k with
      | phr ty l => exact ⟨l, by simpa [Decl.typ?] using e⟩
      | tok t => simp [Decl.typ?] at e
      | err t => simp [Decl.typ?] at e
    rw [List.foldlM_cons, hk]
    exact ih (fun k' hk' => h k' (List.mem_cons_of_mem _ hk'))

/-- What is recorded of a `define`. -/
theorem define_is (env : Env) (n : Node) (args : Node) (name : Bytes) (value : Option Node) (doc : Option Node)
    (ha : OnlyPhrase .argumentExpressionList n.kids args) (hw : DefineWritten env.ctx args.kids name value)
    (hd : DocApplies env n doc) :
    newDefine env n = some ⟨env.ctx.range n, (Analyser.tyOf name).setNamespace env.table.getNamespace,
      (value.map env.ctx.nodeText).getD [], ((doc.map (newPhpDoc env)).map Doc.description).getD [],
      (doc.map (newPhpDoc env)).bind Doc.deprecated⟩ := by
  obtain ⟨pre, post, hks, hty, hno⟩ := ha
  obtain ⟨t, more, q, q', hf, ht, htext, hv⟩ := hw
  have hlen : ¬ (env.ctx.tokText t).length < 2 := by rw [htext]; simp
  have hname : ((env.ctx.tokText t).drop 1).dropLast = name := by rw [htext]; simp
  have hstep : ∀ r : ConstRec, r.value = [] → r.description = [] → r.deprecated = none →
      defineStep env (env.validDoc n) r args = some ⟨r.range, Analyser.tyOf name,
        (value.map env.ctx.nodeText).getD [], ((doc.map (newPhpDoc env)).map Doc.description).getD [],
        (doc.map (newPhpDoc env)).bind Doc.deprecated⟩ := by
    intro r h1 h2 h3
    obtain ⟨l, rfl⟩ := hty
    unfold defineStep
    rw [if_pos (show Decl.typ? (Node.phr .argumentExpressionList l) = some .argumentExpressionList from rfl), arguments_eq, hf, validDoc_doc env n doc hd]
    unfold analyseArgs
    simp only [ht, hlen, hname, if_true, if_false]
    cases more <;> cases hv <;> cases doc <;> simp_all
  unfold newDefine
  rw [hks, List.foldlM_append, define_loop env _ pre (fun k hk => hno k (List.mem_append_left _ hk))]
  show Option.map _ (List.foldlM _ _ (args :: post)) = _
  rw [List.foldlM_cons, hstep _ rfl rfl rfl]
  show Option.map _ (List.foldlM _ _ post) = _
  rw [define_loop env _ post (fun k hk => hno k (List.mem_append_right _ hk))]
  rfl

/-- C119 for constants of `define`: hovering over what is read back from the index shows `define('\Full\NAME', value)` and
below it `\Full\NAME = value; description`. -/
theorem C119_define (md : Bytes → Option Bytes) (uri : Bytes) (env : Env) (n args : Node) (name : Bytes)
    (value doc : Option Node) (rest : Bytes)
    (ha : OnlyPhrase .argumentExpressionList n.kids args) (hw : DefineWritten env.ctx args.kids name value)
    (ho : Decl.Ordinary name) (hd : DocApplies env n doc) :
    ∃ r, newDefine env n = some r ∧ ((toConst uri r).WF →
      ∃ c desc, Encoding.readConst ((toConst uri r).serialise ++ rest) = some (c, rest) ∧ DescriptionIs env doc desc ∧
        HoverText md (b!"define('" ++ Imports.inNamespace env.table.getNamespace name ++ b!"'" ++
            argumentShown ((value.map env.ctx.nodeText).getD []) ++ b!")") []
          (Imports.inNamespace env.table.getNamespace name ++ b!" = " ++ (value.map env.ctx.nodeText).getD [] ++ b!"; " ++
            desc) (defineHover md c)) := by
  refine ⟨_, define_is env n args name value doc ha hw hd, fun hwf =>
    ⟨_, _, Encoding.C02_const_round_trip _ hwf rest, description_map env doc, ?_⟩⟩
  unfold defineHover constDescription toConst
  simp only
  rw [show ∀ t : Types.Ty, (toType t).fqn = t.fqn from fun _ => rfl, Decl.ordinary_name _ _ ho]
  exact hover_plain md _ _

/-- C120 for constants of `define`. -/
theorem C120_define (uri : Bytes) (env : Env) (n args : Node) (name : Bytes) (value doc tag : Option Node) (rest : Bytes)
    (ha : OnlyPhrase .argumentExpressionList n.kids args) (hw : DefineWritten env.ctx args.kids name value)
    (hd : DocApplies env n doc) (ht : FirstTag env.ctx b!"@deprecated" doc tag) :
    ∃ r, newDefine env n = some r ∧ ((toConst uri r).WF →
      ∃ c, Encoding.readConst ((toConst uri r).serialise ++ rest) = some (c, rest) ∧
        DeprecationKept env tag c.deprecated) :=
  ⟨_, define_is env n args name value doc ha hw hd, fun hwf =>
    ⟨_, Encoding.C02_const_round_trip _ hwf rest, deprecation_kept env doc tag ht⟩⟩

/-! ### a document -/

section
open Verif.Decl
open Verif.Analyser (Src)

/-- `/** Old.`, ` * @deprecated 1.2 gone`, ` */`, and in the next line `define('MAX', 7);`, then `define('` with a
literal that is only a quotation mark. -/
def dSrc : Src :=
  .p (.opaque 0)
    [tk b!"<?php\n",
     .p .documentComment
      [tk b!"/** ", .p docDescription [tk b!"Old."], ws b!"\n * ",
       .p (.docTag 1) [.t .docTagName b!"@deprecated", ws b!" ", .t tVersion b!"1.2", ws b!" ",
         .p docDescription [tk b!"gone"]],
       tk b!"\n */"],
     ws b!"\n",
     .p .functionCallExpression
      [.p .qualifiedName [nm b!"define"], tk b!"(",
       .p .argumentExpressionList [.t .stringLiteral b!"'MAX'", .t .comma b!",", ws b!" ", ex b!"7"], tk b!")"],
     .p .functionCallExpression
      [.p .qualifiedName [nm b!"define"], tk b!"(", .p .argumentExpressionList [.t .stringLiteral b!"'"]]]

/-- A part of it. -/
def dPart (i : Nat) : Node := dSrc.root.kids.getD i dSrc.root
/-- `namespace App;` before it. -/
def dEnv0 : Env := { senv0 with ctx := dSrc.ctx }
/-- After the doc comment. -/
def dEnv : Env := { dEnv0 with doc := some (newPhpDoc dEnv0 (dPart 1)) }

example : OnlyPhrase .argumentExpressionList (dPart 3).kids (sub (dPart 3) 2) ∧
    DefineWritten dEnv.ctx (sub (dPart 3) 2).kids b!"MAX" (some (sub (sub (dPart 3) 2) 3)) ∧ Ordinary b!"MAX" ∧
    DocApplies dEnv (dPart 3) (some (dPart 1)) ∧
    FirstTag dEnv.ctx b!"@deprecated" (some (dPart 1)) (some (sub (dPart 1) 3)) ∧
    ((newDefine dEnv (dPart 3)).map fun r =>
      (decide (toConst b!"file:///a.php" r).WF, defineHover some (toConst b!"file:///a.php" r),
        (toConst b!"file:///a.php" r).deprecated.map (deprecatedDescription b!"MAX is deprecated"))) =
      some (true, b!"```php\n<?php\ndefine('\\App\\MAX', 7)\n```\n\n____\n\\App\\MAX = 7; Old.\n____\n",
        some b!"MAX is deprecated: Since 1.2 - gone") := by
  refine ⟨OnlyPhrase.of_filter rfl, ⟨_, _, 39, 39, rfl, rfl, by decide +kernel, rfl⟩, by decide +kernel,
    ⟨rfl, by decide +kernel⟩,
    ⟨(dPart 1).kids.take 3, (dPart 1).kids.drop 4, rfl, IsTag.of 1 _ _ rfl rfl (by decide +kernel), ?_⟩, by decide +kernel⟩
  intro q hq ht
  have h1 := (isDocTag_iff q).2 ht.1
  have h2 := (getTagName_eq dEnv _ _ (by decide)).2 ht.2
  clear ht
  revert q
  decide +kernel

/-- A literal has to have both quotation marks: if the lexer, which is not modelled, makes a literal of one alone, the
analysis panics. -/
theorem C119_needs_closed_quotes : newDefine dEnv (dPart 4) = none := by decide +kernel

end

end Verif.Show
