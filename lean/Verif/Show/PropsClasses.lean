import Verif.Show.PropsSignature
import Verif.Decl.PropsClasses
import Verif.Decl.PropsFindings

/-! C119: hovering over classes, interfaces, properties and constants. -/

namespace Verif.Show
open Verif.Types (Ty Union unionIsEmpty unionToBytes add merge)
open Verif.Analyser (Node Tok Ctx PType TokType)
open Verif.Decl (Env OnlyPhrase NoPhrase OnlyToken IsPhrase IsToken Listed DocApplies newPhpDoc newClass newInterface
  ClassRec typ_iff tokType_iff resolvedName OneVisibility)

theorem headerKids_only {header : PType} {n : Node} {hs : List Node} (h : OnlyPhrase header n.kids (.phr header hs)) :
    headerKids header n = hs := by
  unfold headerKids
  rw [h.filter]
  simp [Node.kids]

theorem headerDoc_of {env : Env} {header : PType} {n : Node} {hs : List Node} {t : Tok} {doc : Option Node}
    (h : OnlyPhrase header n.kids (.phr header hs)) (hn : OnlyToken .name hs t) (hd : DocApplies env n doc) :
    headerDoc env header n = doc.map (newPhpDoc env) := by
  unfold headerDoc
  rw [headerKids_only h, if_pos, validDoc_doc env n doc hd]
  obtain ⟨pre, post, rfl, ht, -⟩ := hn
  refine List.any_eq_true.2 ⟨.tok t, by simp, ?_⟩
  simp [Decl.tokType?, ht]

theorem description_map (env : Env) (doc : Option Node) :
    DescriptionIs env doc (((doc.map (newPhpDoc env)).map Decl.Doc.description).getD []) := description_is env doc

theorem original_resolved (env : Env) (x : Node) (h : PlainName (env.ctx.nodeText x)) :
    (resolvedName env x).original = env.ctx.nodeText x ∧ (resolvedName env x).arrayLevel = 0 := by
  unfold resolvedName Decl.resolve
  rw [Decl.tyOf_plain h.1 h.2.1 h.2.2.1 h.2.2.2]
  exact ⟨rfl, rfl⟩

theorem class_parent (env : Env) (ks hs : List Node) (x base : Node)
    (h : OnlyPhrase .classDeclarationHeader ks (.phr .classDeclarationHeader hs))
    (hb : OnlyPhrase .classBaseClause hs base) (hx : Decl.OnlyName base.kids x) :
    (newClass env (.phr .classDeclaration ks)).ext = resolvedName env x := by
  rw [(Decl.class_ext env ks hs h).1]
  refine Decl.foldl_field_only (g := ClassRec.ext) .classBaseClause (Decl.header_ext_keep env) hs _ base hb
    (fun _ => resolvedName env x) fun s => ?_
  obtain ⟨-, -, -, ⟨bs, rfl⟩, -⟩ := hb
  obtain ⟨pre, post, hk, hn, hno⟩ := hx
  show Decl.extendsOf env _ s.ext = _
  unfold Decl.extendsOf
  rw [hk]
  exact Decl.lastOf_only _ (by rw [if_pos ((Decl.isName_iff x).2 hn)]) fun k hk =>
    if_neg fun hh => hno k hk ((Decl.isName_iff k).1 hh)

theorem class_interfaces (env : Env) (ks hs es : List Node)
    (h : OnlyPhrase .classDeclarationHeader ks (.phr .classDeclarationHeader hs)) (hi : InterfacesWritten hs es) :
    (newClass env (.phr .classDeclaration ks)).impls = es.map (resolvedName env) := by
  rcases hi with ⟨hn, rfl⟩ | ⟨clause, ls, hc, hl, he⟩
  · exact (Decl.C83_none env ks hs h).2 hn
  · rw [(Decl.class_ext env ks hs h).2.1]
    refine Decl.foldl_field_only (g := ClassRec.impls) .classInterfaceClause (Decl.header_impls_keep env) hs _ clause hc
      (fun l => l ++ es.map (resolvedName env)) fun s => ?_
    obtain ⟨-, -, -, ⟨bs, rfl⟩, -⟩ := hc
    show s.impls ++ Decl.implementsOf env _ = _
    congr 1
    unfold Decl.implementsOf
    obtain ⟨pre, post, hk, -, hno⟩ := hl
    have hpre : pre.find? (fun k => decide (Decl.typ? k = some .qualifiedNameList)) = none := by
      refine List.find?_eq_none.2 fun k hk => ?_
      have := hno k (List.mem_append_left _ hk)
      rw [← typ_iff] at this
      simpa using this
    rw [hk, List.find?_append, hpre]
    show (ls.filter Node.isName).map _ = _
    rw [he.filter]

theorem class_named (env : Env) (ks hs : List Node) (t : Tok)
    (h : OnlyPhrase .classDeclarationHeader ks (.phr .classDeclarationHeader hs)) (ht : OnlyToken .name hs t) :
    (newClass env (.phr .classDeclaration ks)).name =
      (Analyser.tyOf (env.ctx.tokText t)).setNamespace env.table.getNamespace := by
  rw [(Decl.class_ext env ks hs h).2.2.1]
  refine Decl.foldl_token_only (g := ClassRec.name) .name (Decl.header_name_keep env) hs _ t ht _ fun s => ?_
  obtain ⟨-, -, -, hty, -⟩ := ht
  unfold Decl.classHeaderStep
  rw [if_pos (by rw [← hty]; rfl)]
  rfl

theorem hover_plain (md : Bytes → Option Bytes) (code desc : Bytes) :
    HoverText md code [] desc (wrapPHPCode code ++ descriptionText md desc true ++ horLine) := by
  have := hover_text md code [] desc
  rwa [List.append_nil] at this

theorem list_shown (env : Env) (keyword : Bytes) (es : List Node) :
    ListShown env keyword es
      (if es.map env.ctx.nodeText = [] then [] else keyword ++ joinS b!", " (es.map env.ctx.nodeText)) := by
  unfold ListShown
  rw [joinS_eq]
  by_cases h : es = []
  · subst h; rfl
  · rw [if_neg h, if_neg (by simpa using h)]

/-- C119: hovering over a class, as it was read back from the index, shows `class Name extends \Parent implements I, J`:
the declared name, the full name of the parent if it has one, and the interfaces as they are written; below it the
description. -/
theorem C119_class (md : Bytes → Option Bytes) (uri : Bytes) (env : Env) (ks hs es : List Node) (name : Tok)
    (parent doc : Option Node) (rest : Bytes)
    (h : OnlyPhrase .classDeclarationHeader ks (.phr .classDeclarationHeader hs)) (hn : OnlyToken .name hs name)
    (ho : PlainName (env.ctx.tokText name)) (hp : ParentWritten hs parent)
    (hpn : ∀ x, parent = some x → PlainName (env.ctx.nodeText x)) (hi : InterfacesWritten hs es)
    (hin : ∀ e ∈ es, PlainName (env.ctx.nodeText e)) (hd : DocApplies env (.phr .classDeclaration ks) doc)
    (hwf : (newClassSymbol uri env (.phr .classDeclaration ks)).WF) :
    ∃ c ext impl desc,
      Encoding.readClass ((newClassSymbol uri env (.phr .classDeclaration ks)).serialise ++ rest) = some (c, rest) ∧
      ParentShown env parent ext ∧ ListShown env b!" implements " es impl ∧ DescriptionIs env doc desc ∧
      HoverText md (b!"class " ++ env.ctx.tokText name ++ ext ++ impl) [] desc (classHover md c) := by
  refine ⟨_, (if typeIsEmpty (toType (newClass env (.phr .classDeclaration ks)).ext) then [] else
    b!" extends " ++ (ofType (toType (newClass env (.phr .classDeclaration ks)).ext)).toBytes), _, _,
    Encoding.C02_class_round_trip _ hwf rest, ?_, list_shown env _ es, description_map env doc, ?_⟩
  rotate_left
  · have ht := hover_plain md (b!"class " ++ env.ctx.tokText name ++
      (if typeIsEmpty (toType (newClass env (.phr .classDeclaration ks)).ext) then [] else
        b!" extends " ++ (ofType (toType (newClass env (.phr .classDeclaration ks)).ext)).toBytes) ++
      (if es.map env.ctx.nodeText = [] then [] else b!" implements " ++ joinS b!", " (es.map env.ctx.nodeText)))
      (((doc.map (newPhpDoc env)).map Decl.Doc.description).getD [])
    unfold newClassSymbol
    rw [headerDoc_of (n := .phr .classDeclaration ks) h hn hd]
    unfold classHover toClass
    simp only
    rw [class_named env ks hs name h hn, original_plain _ _ ho.1 ho.2.1 ho.2.2.1 ho.2.2.2,
      class_interfaces env ks hs es h hi]
    have hmap : ((es.map (resolvedName env)).map toType).map (·.original) = es.map env.ctx.nodeText := by
      rw [List.map_map, List.map_map]
      exact List.map_congr_left fun e he => (original_resolved env e (hin e he)).1
    have hnil : ((es.map (resolvedName env)).map toType = []) ↔ es.map env.ctx.nodeText = [] := by simp
    simp only [hmap, hnil]
    exact ht
  · cases parent with
    | none =>
      have hx : (newClass env (.phr .classDeclaration ks)).ext.fqn = [] := (Decl.C83_none env ks hs h).1 hp
      show (if typeIsEmpty (toType (newClass env (.phr .classDeclaration ks)).ext) then [] else _) = _
      rw [if_pos]
      unfold typeIsEmpty ofType toType Types.Ty.isEmpty
      simp [hx]
    | some x =>
      obtain ⟨base, hb, hx⟩ := hp
      have hpx := hpn x rfl
      rw [class_parent env ks hs x base h hb hx]
      refine ⟨_, Decl.resolved_follows env x, ?_⟩
      have hl := (original_resolved env x hpx).2
      have e : ofType (toType (resolvedName env x)) = resolvedName env x :=
        ofType_toType _ ⟨by rw [hl]; decide, by rw [hl]; decide⟩
      unfold typeIsEmpty
      rw [e]
      unfold Types.Ty.toBytes Types.Ty.isEmpty
      rw [hl]
      simp

/-- The name of an interface in its header. -/
theorem interface_header (env : Env) (ks hs : List Node)
    (h : OnlyPhrase .interfaceDeclarationHeader ks (.phr .interfaceDeclarationHeader hs)) :
    newInterface env (.phr .interfaceDeclaration ks) =
      { hs.foldl (Decl.interfaceHeaderStep env) ⟨⟨[], [], 0⟩, []⟩ with
        name := (hs.foldl (Decl.interfaceHeaderStep env) ⟨⟨[], [], 0⟩, []⟩).name.setNamespace env.table.getNamespace } := by
  obtain ⟨pre, post, rfl, -, hn⟩ := h
  unfold newInterface
  rw [show (Node.phr PType.interfaceDeclaration (pre ++ .phr .interfaceDeclarationHeader hs :: post)).kids =
    pre ++ .phr .interfaceDeclarationHeader hs :: post from rfl, Decl.foldl_only fun k hk s => ?_]
  · rfl
  · rw [if_neg fun hh => hn k hk ((typ_iff _ _).1 hh)]

theorem interface_name (env : Env) (hs : List Node) (t : Tok) (s : Decl.InterfaceRec) (ht : OnlyToken .name hs t) :
    (hs.foldl (Decl.interfaceHeaderStep env) s).name = Analyser.tyOf (env.ctx.tokText t) := by
  refine Decl.foldl_token_only (g := Decl.InterfaceRec.name) .name (fun s k hk => ?_) hs s t ht _ fun s => ?_
  · rw [← tokType_iff] at hk
    unfold Decl.interfaceHeaderStep
    split_ifs <;> rfl
  · obtain ⟨-, -, -, hty, -⟩ := ht
    unfold Decl.interfaceHeaderStep
    rw [if_pos (by rw [← hty]; rfl)]
    rfl

theorem interface_bases (env : Env) (hs es : List Node) (hb : BasesWritten hs es) :
    (hs.foldl (Decl.interfaceHeaderStep env) ⟨⟨[], [], 0⟩, []⟩).exts =
      es.map fun e => Analyser.tyOf (env.ctx.nodeText e) := by
  have keep : ∀ s k, ¬ IsPhrase Decl.interfaceBaseClause k →
      (Decl.interfaceHeaderStep env s k).exts = s.exts := by
    intro s k hk
    rw [← typ_iff] at hk
    unfold Decl.interfaceHeaderStep
    split_ifs <;> rfl
  rcases hb with ⟨hn, rfl⟩ | ⟨bs, ls, hc, ⟨pre, post, rfl, ht⟩, he⟩
  · rw [Decl.foldl_field (g := Decl.InterfaceRec.exts) _ keep hs _ hn]
    rfl
  · refine Decl.foldl_field_only (g := Decl.InterfaceRec.exts) Decl.interfaceBaseClause keep hs _ _ hc
      (fun l => l ++ es.map fun e => Analyser.tyOf (env.ctx.nodeText e)) fun s => ?_
    show s.exts ++ Decl.interfaceExtends env _ = _
    congr 1
    unfold Decl.interfaceExtends
    have hf : (pre ++ .phr .qualifiedNameList ls :: post).filter (fun k => (Decl.typ? k).isSome) =
        [.phr .qualifiedNameList ls] := by
      refine Decl.filter_only rfl fun k hk => ?_
      obtain ⟨t, rfl⟩ := ht k hk
      rfl
    rw [show (Node.phr Decl.interfaceBaseClause (pre ++ .phr .qualifiedNameList ls :: post)).kids =
      pre ++ .phr .qualifiedNameList ls :: post from rfl, hf]
    simp only [List.flatMap_cons, List.flatMap_nil, List.append_nil]
    rw [show (Node.phr PType.qualifiedNameList ls).kids = ls from rfl, he.filter]

/-- C119 for interfaces: `interface Name extends I, J`, with the bases as they are written. -/
theorem C119_interface (md : Bytes → Option Bytes) (uri : Bytes) (env : Env) (ks hs es : List Node) (name : Tok)
    (doc : Option Node) (rest : Bytes)
    (h : OnlyPhrase .interfaceDeclarationHeader ks (.phr .interfaceDeclarationHeader hs)) (hn : OnlyToken .name hs name)
    (ho : PlainName (env.ctx.tokText name)) (hi : BasesWritten hs es)
    (hin : ∀ e ∈ es, PlainName (env.ctx.nodeText e) ∧ env.ctx.nodeText e ≠ b!"\\")
    (hd : DocApplies env (.phr .interfaceDeclaration ks) doc)
    (hwf : (newInterfaceSymbol uri env (.phr .interfaceDeclaration ks)).WF) :
    ∃ c ext desc,
      Encoding.readInterface ((newInterfaceSymbol uri env (.phr .interfaceDeclaration ks)).serialise ++ rest) =
        some (c, rest) ∧
      ListShown env b!" extends " es ext ∧ DescriptionIs env doc desc ∧
      HoverText md (b!"interface " ++ env.ctx.tokText name ++ ext) [] desc (interfaceHover md c) := by
  refine ⟨_, _, _, Encoding.C02_interface_round_trip _ hwf rest, list_shown env _ es, description_map env doc, ?_⟩
  have ht := hover_plain md (b!"interface " ++ env.ctx.tokText name ++
    (if es.map env.ctx.nodeText = [] then [] else b!" extends " ++ joinS b!", " (es.map env.ctx.nodeText)))
    (((doc.map (newPhpDoc env)).map Decl.Doc.description).getD [])
  unfold newInterfaceSymbol
  rw [headerDoc_of (n := .phr .interfaceDeclaration ks) h hn hd]
  unfold interfaceHover
  simp only
  rw [interface_header env ks hs h]
  simp only
  rw [interface_name env hs name _ hn, interface_bases env hs es hi, original_plain _ _ ho.1 ho.2.1 ho.2.2.1 ho.2.2.2]
  have hmap : (((es.map fun e => Analyser.tyOf (env.ctx.nodeText e)).map toType).filter fun t => !typeIsEmpty t).map
      (·.original) = es.map env.ctx.nodeText := by
    rw [List.map_map, List.filter_eq_self.2]
    · rw [List.map_map]
      refine List.map_congr_left fun e he => ?_
      obtain ⟨⟨h0, h1, h2, h3⟩, -⟩ := hin e he
      show (toType (Analyser.tyOf (env.ctx.nodeText e))).original = _
      rw [Decl.tyOf_plain h0 h1 h2 h3]
      rfl
    · intro t ht
      obtain ⟨e, he, rfl⟩ := List.mem_map.1 ht
      obtain ⟨⟨h0, h1, h2, h3⟩, h4⟩ := hin e he
      show (!typeIsEmpty (toType (Analyser.tyOf (env.ctx.nodeText e)))) = true
      rw [Decl.tyOf_plain h0 h1 h2 h3]
      simp [typeIsEmpty, ofType, toType, Types.Ty.isEmpty, h0, h4]
  rw [hmap]
  exact ht

/-- C119 for traits: `trait Name`. -/
theorem C119_trait (uri : Bytes) (env : Env) (ks hs : List Node) (name : Tok) (rest : Bytes)
    (h : OnlyPhrase .traitDeclarationHeader ks (.phr .traitDeclarationHeader hs)) (hn : OnlyToken .name hs name)
    (ho : PlainName (env.ctx.tokText name)) (hwf : (newTraitSymbol uri env (.phr .traitDeclaration ks)).WF) :
    ∃ c, Encoding.readTrait ((newTraitSymbol uri env (.phr .traitDeclaration ks)).serialise ++ rest) = some (c, rest) ∧
      HoverText some (b!"trait " ++ env.ctx.tokText name) [] [] (traitHover c) := by
  refine ⟨_, Encoding.C02_trait_round_trip _ hwf rest, ?_⟩
  have ht := hover_plain some (b!"trait " ++ env.ctx.tokText name) []
  unfold traitHover newTraitSymbol
  simp only
  rw [headerKids_only (n := .phr .traitDeclaration ks) h]
  obtain ⟨pre, post, rfl, hty, hno⟩ := hn
  rw [Decl.lastOf_only (a := (Analyser.tyOf (env.ctx.tokText name)).setNamespace env.table.getNamespace) _
    (by rw [Decl.tokText_of hty]; rfl) fun k hk => by rw [Decl.tokText_none (hno k hk)]; rfl]
  rw [original_plain _ _ ho.1 ho.2.1 ho.2.2.1 ho.2.2.2]
  simpa [descriptionText] using ht

end Verif.Show
