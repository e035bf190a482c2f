import Verif.Whole.Props
import Verif.Complete.PropsInsert
import Verif.Imports.PropsUse

/-! C136: accepting a completed name of a class, interface or trait, after any history of the index. -/

namespace Verif.Whole

open Verif.Encoding Verif.Storage Verif.Store Verif.Query Verif.Types Verif.Imports Verif.Complete

/-! ### Specification -/

/-- The name of a class, an interface or a trait. -/
def typeName : Sym → Option TypeString
  | .cla c => some c.name
  | .int c => some c.name
  | .tra c => some c.name
  | _ => none

/-- The imports after the item has been accepted, with its additional `use`, `use function` or `use const` statement. -/
def accepted (use : Option (Bytes × SymKind)) (tbl : Table) : Table :=
  match use with
  | some (fqn, .other) => tbl.addClassName [] (fqn.drop 1) default
  | some (fqn, .function) => tbl.addFunctionName [] (fqn.drop 1) default
  | some (fqn, _) => tbl.addConstName [] (fqn.drop 1) default
  | none => tbl

/-- A name as declarations have it: one segment in a namespace. -/
structure DeclaredName (t : TypeString) : Prop where
  spaced : ∃ ns, t.fqn = inNamespace ns t.original
  segment : (92 : UInt8) ∉ t.original ∧ t.original ≠ []
  notBuiltIn : t.original ∉ natives

/-- The word typed so far is the beginning of one segment, and is not a built-in name. -/
structure PlainWord (word : Bytes) : Prop where
  parses : ∃ w, newTypeString word = some w ∧ ¬ Qualified w.fqn ∧ w.fqn ∉ natives
  segment : word ≠ [] ∧ ¬ Qualified word
  notBuiltIn : word ∉ natives

/-- The imports do not hide the name: its last segment is not the alias of an import of something else, and the word does not
begin with the name of an import whose alias is the first segment of the name. -/
structure NotHidden (tbl : Table) (word : Bytes) (t : TypeString) : Prop where
  last : ∀ item, tbl.classes.get t.original = some item → 92 :: item.name = t.fqn
  first : ∀ item, tbl.classes.get (firstSegment (t.fqn.drop 1)) = some item → startsWith word item.name = false

/-- An import table as files give it: one entry per alias, and aliases of one segment. -/
structure TableOK (tbl : Table) : Prop where
  once : tbl.classes.WF
  aliases : ∀ e ∈ tbl.classes, e.1 ≠ [] ∧ ¬ Qualified e.1

/-- `u` is a use of the name `q` at which a symbol like `x` may stand: a class in front of `::` or as a type, an interface as
a type or after `implements`, a trait after `use` in a class. -/
def Place (x : Sym) (q : Ty) (u : Use) : Prop :=
  match x with
  | .cla _ => u = .cls [q] ∨ u = .typ [q]
  | .int _ => u = .intf [q] ∨ u = .typ [q]
  | .tra _ => u = .trt [q]
  | _ => False

/-! ### Lemmas -/

variable {env : Env} {root : Bytes} {h : List HOp} {s : Store}

/-- The name of a symbol and the kind of `use` statement it needs. -/
def useOf : Sym → Option (TypeString × SymKind)
  | .cla c => some (c.name, .other)
  | .int c => some (c.name, .other)
  | .tra c => some (c.name, .other)
  | .con c => some (c.name, .constant)
  | .def_ c => some (c.name, .define)
  | .fn c => some (c.name, .function)
  | _ => none

theorem useOf_type {x : Sym} {t : TypeString} (h : typeName x = some t) : useOf x = some (t, .other) ∧ behind x = [] := by
  cases x <;> simp_all [typeName, useOf, behind]

/-- Items come from the offers of `ResolveToQualified`. -/
def FromOffer (tbl : Table) (word : Bytes) (l : CList) : Prop := ∀ x label insert use, Complete.Item.sym x label insert use ∈ l.items →
  ∀ t k, useOf x = some (t, k) → ∃ o, tbl.resolveToQualified k (nameTy t) word = some o ∧ o.label = label ∧ o.use = use

theorem offer_step {tbl : Table} {word : Bytes} {α} {search : Nat → Option (Store.Found α × Bool)} {con : α → Sym}
    {insert : α → Bytes → Bytes} {offer : α → Option Imports.Offer} {l l' : CList} (hl : FromOffer tbl word l)
    (hi : ∀ y t k, useOf (con y) = some (t, k) → offer y = tbl.resolveToQualified k (nameTy t) word)
    (he : searchAll search (fun y => itemOf (insert y) (con y) (offer y)) l = some l') : FromOffer tbl word l' := by
  unfold searchAll at he
  split at he
  · cases he
  · next f complete _ =>
    simp only [Option.map_eq_some_iff] at he
    obtain ⟨is, h1, rfl⟩ := he
    have key : ∀ (rs : List α) (is : List Complete.Item), rs.mapM (fun y => itemOf (insert y) (con y) (offer y)) = some is →
        ∀ i ∈ is, ∃ y o, offer y = some o ∧ i = .sym (con y) o.label (insert y o.label) o.use := by
      intro rs
      induction rs with
      | nil => intro is h i him; simp at h; subst h; cases him
      | cons r rs ih =>
        intro is h i him
        simp only [List.mapM_cons, Option.bind_eq_bind, Option.bind_eq_some_iff, Option.pure_def, Option.some.injEq] at h
        obtain ⟨a, ha, as, has, rfl⟩ := h
        rcases List.mem_cons.1 him with rfl | him
        · simp only [itemOf, Option.map_eq_some_iff] at ha
          obtain ⟨o, ho, rfl⟩ := ha
          exact ⟨r, o, ho, rfl⟩
        · exact ih as has i him
    intro x label ins use him t k ht
    rcases List.mem_append.1 him with him | him
    · exact hl x label ins use him t k ht
    · obtain ⟨y, o, ho, e⟩ := key _ _ h1 _ him
      injection e with e1 e2 e3 e4
      subst e1 e2 e4
      exact ⟨o, hi y t k ht ▸ ho, rfl, rfl⟩

theorem offer_namespaces {tbl : Table} {word : Bytes} {l l' : CList} (hl : FromOffer tbl word l)
    (he : addNamespaces env s word l = some l') : FromOffer tbl word l' := by
  unfold addNamespaces at he
  split at he
  · simp only [Option.map_eq_some_iff] at he
    obtain ⟨⟨names, b⟩, -, rfl⟩ := he
    intro x label ins use him t k ht
    rcases List.mem_append.1 him with him | him
    · exact hl x label ins use him t k ht
    · obtain ⟨n, -, e⟩ := List.mem_map.1 him
      cases e
  · cases he; exact hl

theorem offer_list {tbl : Table} {word : Bytes} {limit : Option Int} {l : CList} (hl : ListOfNames env s tbl word limit l) :
    FromOffer tbl word l := by
  have h0 : FromOffer tbl word CList.empty := by intro _ _ _ _ him; cases him
  have k1 : ∀ a b, FromOffer tbl word a → addClasses env s tbl word limit a = some b → FromOffer tbl word b := fun a b ha hb =>
    offer_step (con := Sym.cla) (insert := fun _ => id) ha (fun _ t k ht => by cases ht; rfl) hb
  have k2 : ∀ a b, FromOffer tbl word a → addInterfaces env s tbl word limit a = some b → FromOffer tbl word b := fun a b ha hb =>
    offer_step (con := Sym.int) (insert := fun _ => id) ha (fun _ t k ht => by cases ht; rfl) hb
  have k3 : ∀ a b, FromOffer tbl word a → addConsts env s tbl word limit a = some b → FromOffer tbl word b := fun a b ha hb =>
    offer_step (con := Sym.con) (insert := fun _ => id) ha (fun _ t k ht => by cases ht; rfl) hb
  have k4 : ∀ a b, FromOffer tbl word a → addDefines env s tbl word limit a = some b → FromOffer tbl word b := fun a b ha hb =>
    offer_step (con := Sym.def_) (insert := fun _ => id) ha (fun _ t k ht => by cases ht; rfl) hb
  have k5 : ∀ a b, FromOffer tbl word a → addFunctions env s tbl word limit a = some b → FromOffer tbl word b := fun a b ha hb =>
    offer_step (con := Sym.fn) (insert := fun c => callText (!c.params.isEmpty)) ha (fun _ t k ht => by cases ht; rfl) hb
  have k6 : ∀ a b, FromOffer tbl word a → addTraits env s tbl word limit a = some b → FromOffer tbl word b := fun a b ha hb =>
    offer_step (con := Sym.tra) (insert := fun _ => id) ha (fun _ t k ht => by cases ht; rfl) hb
  rcases hl with hl | hl | hl | hl | hl
  · simp only [nameCompletion, Option.bind_eq_bind, Option.bind_eq_some_iff] at hl
    obtain ⟨l1, a1, l2, a2, l3, a3, l4, a4, l5, a5, a6⟩ := hl
    exact offer_namespaces (k5 _ _ (k4 _ _ (k3 _ _ (k2 _ _ (k1 _ _ h0 a1) a2) a3) a4) a5) a6
  · exact k1 _ _ h0 hl
  · exact k2 _ _ h0 hl
  · exact k6 _ _ h0 hl
  · simp only [typeCompletion, Option.bind_eq_bind, Option.bind_eq_some_iff] at hl
    obtain ⟨l1, a1, l2, a2, a3⟩ := hl
    exact offer_namespaces (k2 _ _ (k1 _ _ h0 a1) a2) a3

theorem accept_other {tbl : Table} {t : Ty} {word : Bytes} {o : Imports.Offer}
    (ho : tbl.resolveToQualified .other t word = some o) : o.accept tbl = accepted o.use tbl := by
  have : ∀ u, o.use = some u → u.2 = .other := by
    intro u hu
    unfold Table.resolveToQualified at ho
    simp only [ne_eq, not_true_eq_false, false_and, if_false] at ho
    split at ho
    · cases ho; cases hu
    · split at ho
      · cases ho
      · split at ho
        · cases ho; cases hu
        · have fin : ∀ {x : Option Imports.Offer}, x = some o → x = (match tbl.classes.find? fun e => 92 :: e.2.name == t.fqn with
              | some e => some { label := e.1, use := none }
              | none =>
                if (getScopeAndName word).1 ≠ [] ∧ (getScopeAndName word).1 = t.getNamespace then
                  some { label := t.original, use := some (t.getNamespace, .other) }
                else some { label := t.original, use := some (t.fqn, .other) }) → u.2 = .other := by
            rintro x rfl hx
            split at hx
            · cases hx; cases hu
            · split at hx <;> (cases hx; cases hu; rfl)
          split at ho
          · split at ho
            · cases ho; cases hu
            · exact fin ho rfl
          · exact fin ho rfl
  obtain ⟨label, use⟩ := o
  cases use with
  | none => rfl
  | some u =>
    obtain ⟨fqn, k⟩ := u
    have := this _ rfl
    simp only at this
    subst this
    rfl

/-- What is offered if no import hides the name. -/
theorem offer_known (i : Table) (sym : SymKind) (t : TypeString) (word ns : Bytes) (hns : t.fqn = inNamespace ns t.original)
    (hd : DeclaredName t) (hw : PlainWord word) (hno : ∀ e ∈ i.classes, 92 :: e.2.name ≠ t.fqn)
    (hfst : ∀ item, i.classes.get (firstSegment (t.fqn.drop 1)) = some item → startsWith word item.name = false) :
    i.resolveToQualified sym (nameTy t) word = some ⟨t.original,
      if i.getNamespace = ns ∨ sym ≠ .other ∧ ns = [] then none else some (t.fqn, sym)⟩ := by
  obtain ⟨w, hw1, hw2, hw3⟩ := hw.parses
  have notFQN : ∀ x : Bytes, x ∉ natives → ¬ Qualified x → isFQN x = false := by
    intro x h1 h2
    rw [Bool.eq_false_iff]
    intro h
    rcases (isFQN_iff _).mp h with h | h
    · exact h1 h
    · apply h2
      cases hx : x with
      | nil => rw [hx] at h; simp [FullyQualified] at h
      | cons c r =>
        rw [hx] at h
        simp only [FullyQualified, List.head?_cons, Option.some.injEq] at h
        simp [Qualified, h]
  have hwns : (w.setNamespace i.getNamespace).getNamespace = 92 :: i.getNamespace := by
    apply getNamespace_joined i.getNamespace w.fqn _ hw2
    rw [setNamespace_fqn]
    simp [notFQN _ hw3 hw2]
  have hscope : (getScopeAndName word).1 = [] := by
    unfold getScopeAndName
    rw [if_neg hw.segment.1, splitB_of_no_sep 92 word hw.segment.2]
  have hfirst : (nameTy t).firstAndRest.1 = firstSegment (t.fqn.drop 1) := by
    obtain ⟨m, hm⟩ : ∃ m, t.fqn = 92 :: m := by
      rw [hns]; unfold inNamespace; split
      · exact ⟨_, rfl⟩
      · exact ⟨_, rfl⟩
    rw [(firstAndRest_full (nameTy t) m hm).1, hm]; rfl
  have hnone : (i.classes.find? fun e => 92 :: e.2.name == (nameTy t).fqn) = none := by
    rw [List.find?_eq_none]
    intro e he
    simpa [nameTy] using hno e he
  have hsp : (nameTy t).getNamespace = 92 :: ns := getNamespace_joined ns t.original (nameTy t) hd.segment.1 hns
  have hon : (nameTy t).original = t.original := rfl
  unfold Table.resolveToQualified
  rw [notFQN _ hw.notBuiltIn hw.segment.2, hw1]
  simp only [Bool.false_eq_true, if_false, hwns, hsp, List.cons.injEq, true_and, hon, hd.segment.2, or_false, hfirst, hnone,
    hscope, ne_eq, not_true_eq_false, false_and]
  by_cases h1 : i.getNamespace = ns
  · simp [h1]
  · rw [if_neg h1]
    have e : (if ¬sym = SymKind.other ∧ ns = [] then some (⟨t.original, none⟩ : Imports.Offer)
        else some ⟨t.original, some ((nameTy t).fqn, sym)⟩) = some ⟨t.original,
      if i.getNamespace = ns ∨ ¬sym = .other ∧ ns = [] then none else some (t.fqn, sym)⟩ := by
      simp only [h1, false_or]
      split <;> rfl
    rw [← e]
    cases hg : i.classes.get (firstSegment (t.fqn.drop 1)) with
    | none => rfl
    | some item => simp only [hfst item hg, Bool.false_eq_true, if_false]

theorem alias_of_fqn {t : TypeString} {ns : Bytes} (hns : t.fqn = inNamespace ns t.original) (hs : (92 : UInt8) ∉ t.original) :
    sureAlias [] (t.fqn.drop 1) = t.original ∧ 92 :: t.fqn.drop 1 = t.fqn := by
  constructor
  · unfold sureAlias
    simp only [if_true]
    have : splitB 92 (t.fqn.drop 1) = (if ns = [] then [] else splitB 92 ns) ++ [t.original] := by
      rw [hns]
      unfold inNamespace
      by_cases hn : ns = []
      · simp [hn, splitB_of_no_sep _ _ hs]
      · rw [if_neg hn, if_neg hn]
        have := splitB_joined ns t.original hs
        simpa using this
    simp only [this]
    simp
  · rw [hns]
    unfold inNamespace
    split <;> rfl

/-! ### Theorems -/

/-- C136: after an item for a class, an interface or a trait has been accepted, with its `use` statement if it has one, the
inserted name refers to the symbol that the item was made from, as long as the imports do not hide it. -/
theorem C136_refers (tbl : Table) (word : Bytes) (limit : Option Int) (l : CList)
    (hl : ListOfNames env s tbl word limit l) (x : Sym) (label insert : Bytes) (use : Option (Bytes × SymKind))
    (hi : Complete.Item.sym x label insert use ∈ l.items) (t : TypeString) (ht : typeName x = some t) (hd : DeclaredName t)
    (hw : PlainWord word) (hn : NotHidden tbl word t) (htbl : TableOK tbl) :
    ((accepted use tbl).getClassReferenceFQN (nm insert)).1 = t.fqn := by
  obtain ⟨hu, hb⟩ := useOf_type ht
  have hins := C108_symbols tbl word limit l hl x label insert use hi
  rw [hb, List.append_nil] at hins
  subst hins
  obtain ⟨o, ho, rfl, rfl⟩ := offer_list hl x insert insert use hi t .other hu
  obtain ⟨ns, hns⟩ := hd.spaced
  obtain ⟨w, hw1, hw2, hw3⟩ := hw.parses
  obtain ⟨o', ho', e⟩ := C55_accepted_refers_partial tbl ns t.original word w (nameTy t) hd.segment.1 hd.segment.2
    hd.notBuiltIn rfl hns hw1 hw.segment.1 hw.segment.2 hw2 hw.notBuiltIn hw3 hn.last htbl.once htbl.aliases hn.first
  rw [ho] at ho'
  cases ho'
  rwa [accept_other ho] at e

/-- C136: after any history of indexing, re-indexing, deleting, restarting and crashing, go to definition on a name that was
completed leads to the declaration that was offered, together with exactly the other declarations of that name. `q` is the
name as the file resolves it after the item has been accepted. -/
theorem C136_leads (he : EnvOK env) (hsl : env.LowerSlash) (hok : HistOK env h) (hs : run env root h = some s)
    (tbl : Table) (word : Bytes) (limit : Option Int) (l : CList) (hl : ListOfNames env s tbl word limit l)
    (x : Sym) (label insert : Bytes) (use : Option (Bytes × SymKind)) (hi : Complete.Item.sym x label insert use ∈ l.items)
    (t : TypeString) (ht : typeName x = some t) (hd : DeclaredName t) (hw : PlainWord word) (hn : NotHidden tbl word t)
    (htbl : TableOK tbl) (keyOf : Bytes → Bytes) (n ni : Nat) (q : Ty)
    (hq : q.fqn = ((accepted use tbl).getClassReferenceFQN (nm insert)).1) (u : Use) (hu : Place x q u)
    (hc : (u = .cls [q] ∨ u = .intf [q]) → Unaliased (accepted use tbl) q) :
    ∃ r, definitionIn env s (accepted use tbl) keyOf n ni u = some r ∧ Leads env (latest h) r (Wanted env u) ∧
      ∃ d, Live env (latest h) d ∧ d.stored = x ∧ Wanted env u d ∧ (Openable d → x ∈ r) := by
  have hq' : q.fqn = t.fqn := hq.trans (C136_refers tbl word limit l hl x label insert use hi t ht hd hw hn htbl)
  obtain ⟨r, hr, hlead⟩ := C125_names he hsl hok hs (accepted use tbl) keyOf n ni u (by
    have one : Unaliased (accepted use tbl) q → ∀ t ∈ [q], Unaliased (accepted use tbl) t := by
      intro ha t ht; rw [List.mem_singleton.1 ht]; exact ha
    cases x <;> simp only [Place] at hu
    case cla => rcases hu with rfl | rfl; exacts [one (hc (.inl rfl)), trivial]
    case int => rcases hu with rfl | rfl; exacts [one (hc (.inr rfl)), trivial]
    case tra => subst hu; trivial)
  have hsym : x ∈ l.symbols := List.mem_filterMap.2 ⟨_, hi, rfl⟩
  obtain ⟨d, hd1, hd2⟩ := C90_declared he hok hs tbl word limit l hl x hsym
  have hwant : Wanted env u d := by
    subst hd2
    cases d <;> simp only [Sym.stored, Place, typeName, Option.some.injEq] at hu ht <;> try cases ht
    · exact ⟨[q], hu, q, List.mem_singleton.2 rfl, .inl hq'.symm⟩
    · exact ⟨[q], hu, q, List.mem_singleton.2 rfl, hq'.symm⟩
    · exact ⟨[q], hu, q, List.mem_singleton.2 rfl, hq'.symm⟩
  exact ⟨r, hr, hlead, d, hd1, hd2, hwant, fun ho => (hlead x).2 ⟨d, hd1, hwant, ho, hd2⟩⟩

/-- The name that a function or constant is looked for under after its item has been accepted. -/
theorem accepted_plain (tbl : Table) (t : TypeString) (ns : Bytes) (hns : t.fqn = inNamespace ns t.original)
    (hd : DeclaredName t) (own : GoMap Bytes Imports.Item) :
    tbl.importedFQN own (nm t.original) = (own.get t.original).map fun x => 92 :: x.name := by
  refine imported_plain tbl own (nm t.original) ?_ hd.segment.1
  intro h
  cases ho : t.original with
  | nil => exact hd.segment.2 ho
  | cons c r =>
    rw [ho] at h
    have : c = 92 := by simpa [FullyQualified, nm] using h
    exact hd.segment.1 (by simp [ho, this])

theorem plain_not_fqn {t : TypeString} (hd : DeclaredName t) : isFQN t.original = false := by
  rw [Bool.eq_false_iff]
  intro h
  rcases (isFQN_iff _).mp h with h | h
  · exact hd.notBuiltIn h
  · cases ho : t.original with
    | nil => exact hd.segment.2 ho
    | cons c r =>
      rw [ho] at h
      have : c = 92 := by simpa [FullyQualified] using h
      exact hd.segment.1 (by simp [ho, this])

/-- The imports do not hide a function or constant: the short name is not the alias of an import (`own`) of something else, no
class of this name is imported, and the word does not begin with the name of an import whose alias is the first segment. -/
structure NotHiddenIn (own : GoMap Bytes Imports.Item) (tbl : Table) (word : Bytes) (t : TypeString) : Prop where
  last : ∀ item, own.get t.original = some item → 92 :: item.name = t.fqn
  noClass : ∀ e ∈ tbl.classes, 92 :: e.2.name ≠ t.fqn
  first : ∀ item, tbl.classes.get (firstSegment (t.fqn.drop 1)) = some item → startsWith word item.name = false

open Classical in
/-- C136: the same for functions. A function of the namespace of the file is inserted without a `use function` statement; no
global function may have its name (see C27). -/
theorem C136_function (he : EnvOK env) (hok : HistOK env h) (hs : run env root h = some s)
    (tbl : Table) (word : Bytes) (limit : Option Int) (l : CList) (hl : ListOfNames env s tbl word limit l)
    (f : Function) (label insert : Bytes) (use : Option (Bytes × SymKind))
    (hi : Complete.Item.sym (.fn f) label insert use ∈ l.items) (hd : DeclaredName f.name) (hw : PlainWord word)
    (hn : NotHiddenIn tbl.functions tbl word f.name)
    (hglob : use = none → FunctionExists env (latest h) (92 :: f.name.original) → f.name.fqn = 92 :: f.name.original)
    (keyOf : Bytes → Bytes) (n ni : Nat) :
    ∃ r, definitionIn env s (accepted use tbl) keyOf n ni (.function (nm label)) = some r ∧
      Leads env (latest h) r (fun x => ∃ g, x = .fn g ∧ g.name.fqn = f.name.fqn) ∧
      ∃ d, Live env (latest h) (.fn d) ∧ Sym.stored (.fn d) = .fn f ∧ (Openable (.fn d) → .fn f ∈ r) := by
  obtain ⟨ns, hns⟩ := hd.spaced
  obtain ⟨o, ho, rfl, rfl⟩ := offer_list hl (.fn f) label insert use hi f.name .function rfl
  rw [offer_known tbl .function f.name word ns hns hd hw hn.noClass hn.first] at ho
  cases ho
  obtain ⟨d, hd1, hd2⟩ := C90_declared he hok hs tbl word limit l hl _ (List.mem_filterMap.2 ⟨_, hi, rfl⟩)
  obtain ⟨d, rfl⟩ : ∃ d', d = .fn d' := by cases d <;> simp [Sym.stored] at hd2 <;> exact ⟨_, rfl⟩
  have hname : d.name = f.name := by
    simp only [Sym.stored, Sym.fn.injEq] at hd2
    rw [← hd2]
  obtain ⟨r, hr, hlead⟩ := C125_functions he hok hs (accepted (if tbl.getNamespace = ns ∨ SymKind.function ≠ .other ∧ ns = []
    then none else some (f.name.fqn, .function)) tbl) keyOf n ni (nm f.name.original)
  have hres : (accepted (if tbl.getNamespace = ns ∨ SymKind.function ≠ .other ∧ ns = [] then none
      else some (f.name.fqn, .function)) tbl).getFunctionReferenceFQN
      (fun q => decide (FunctionExists env (latest h) q)) (nm f.name.original) = f.name.fqn := by
    unfold Table.getFunctionReferenceFQN
    rw [accepted_plain _ f.name ns hns hd]
    have hg : globalFQN (nm f.name.original) = 92 :: f.name.original := by
      unfold globalFQN; rw [show isFQN (nm f.name.original).fqn = false from plain_not_fqn hd]; rfl
    by_cases hc : tbl.getNamespace = ns ∨ SymKind.function ≠ .other ∧ ns = []
    · rw [if_pos hc]
      simp only [accepted]
      cases hget : tbl.functions.get f.name.original with
      | some item => exact hn.last item hget
      | none =>
        simp only [Option.map_none, hg]
        by_cases hx : FunctionExists env (latest h) (92 :: f.name.original)
        · rw [if_pos (decide_eq_true hx)]
          exact (hglob (if_pos hc) hx).symm
        · rw [if_neg (by simpa using hx)]
          rw [setNamespace_fqn]
          simp only [show isFQN (nm f.name.original).fqn = false from plain_not_fqn hd, Bool.false_eq_true, if_false]
          rcases hc with hc | ⟨-, hc⟩
          · rw [hns, hc]; rfl
          · subst hc
            exact absurd ⟨d, hd1, by rw [hname, hns]; simp [inNamespace]⟩ hx
    · rw [if_neg hc]
      obtain ⟨e1, e2⟩ := alias_of_fqn hns hd.segment.1
      simp only [accepted, Table.addFunctionName, e1, GoMap.get_set, if_true, Option.map_some, e2]
  rw [hres] at hlead
  exact ⟨r, hr, hlead, d, hd1, hd2, fun hop => (hlead _).2 ⟨_, hd1, ⟨d, rfl, by rw [hname]⟩, hop, hd2⟩⟩

open Classical in
/-- C136: the same for constants, declared with `const` or with `define`. -/
theorem C136_constant (he : EnvOK env) (hok : HistOK env h) (hs : run env root h = some s)
    (tbl : Table) (word : Bytes) (limit : Option Int) (l : CList) (hl : ListOfNames env s tbl word limit l)
    (c : Const) (x : Sym) (hx : x = .con c ∨ x = .def_ c) (label insert : Bytes) (use : Option (Bytes × SymKind))
    (hi : Complete.Item.sym x label insert use ∈ l.items) (hd : DeclaredName c.name) (hw : PlainWord word)
    (hn : NotHiddenIn tbl.constants tbl word c.name)
    (hglob : use = none → ConstExists env (latest h) (92 :: c.name.original) ∨
      DefineExists env (latest h) (92 :: c.name.original) → c.name.fqn = 92 :: c.name.original)
    (keyOf : Bytes → Bytes) (n ni : Nat) :
    ∃ r, definitionIn env s (accepted use tbl) keyOf n ni (.constant (nm insert)) = some r ∧
      Leads env (latest h) r (fun x => ∃ g, (x = .con g ∨ x = .def_ g) ∧ g.name.fqn = c.name.fqn) ∧
      Live env (latest h) x ∧ (Openable x → x ∈ r) := by
  obtain ⟨ns, hns⟩ := hd.spaced
  obtain ⟨k, hk, hko⟩ : ∃ k, useOf x = some (c.name, k) ∧ (k = .constant ∨ k = .define) := by
    rcases hx with rfl | rfl
    exacts [⟨_, rfl, .inl rfl⟩, ⟨_, rfl, .inr rfl⟩]
  have hkne : k ≠ .other := by rcases hko with rfl | rfl <;> decide
  have hins := C108_symbols tbl word limit l hl x label insert use hi
  rw [show behind x = [] by rcases hx with rfl | rfl <;> rfl, List.append_nil] at hins
  subst hins
  obtain ⟨o, ho, e1, e2⟩ := offer_list hl x insert insert use hi c.name k hk
  rw [offer_known tbl k c.name word ns hns hd hw hn.noClass hn.first] at ho
  cases ho
  simp only at e1 e2
  subst e1
  obtain ⟨d, hd1, hd2⟩ := C90_declared he hok hs tbl word limit l hl x (List.mem_filterMap.2 ⟨_, hi, rfl⟩)
  have hdx : d = x := by
    rcases hx with rfl | rfl <;> cases d <;> simp_all [Sym.stored]
  subst hdx
  obtain ⟨r, hr, hlead⟩ := C125_constants he hok hs (accepted use tbl) keyOf n ni (nm c.name.original)
  have hglobal : d = .con c ∨ d = .def_ c → c.name.fqn = 92 :: c.name.original →
      ConstExists env (latest h) (92 :: c.name.original) ∨ DefineExists env (latest h) (92 :: c.name.original) := by
    rintro (rfl | rfl) e
    exacts [.inl ⟨c, hd1, e⟩, .inr ⟨c, hd1, e⟩]
  have hres : (accepted use tbl).getConstReferenceFQN (fun q => decide (ConstExists env (latest h) q))
      (fun q => decide (DefineExists env (latest h) q)) (nm c.name.original) = c.name.fqn := by
    unfold Table.getConstReferenceFQN
    rw [accepted_plain _ c.name ns hns hd]
    have hg : globalFQN (nm c.name.original) = 92 :: c.name.original := by
      unfold globalFQN; rw [show isFQN (nm c.name.original).fqn = false from plain_not_fqn hd]; rfl
    by_cases hc : tbl.getNamespace = ns ∨ k ≠ .other ∧ ns = []
    · rw [if_pos hc] at e2
      subst e2
      simp only [accepted]
      cases hget : tbl.constants.get c.name.original with
      | some item => exact hn.last item hget
      | none =>
        simp only [Option.map_none, hg]
        by_cases h1 : ConstExists env (latest h) (92 :: c.name.original)
        · rw [if_pos (decide_eq_true h1)]
          exact (hglob rfl (.inl h1)).symm
        · rw [if_neg (by simpa using h1)]
          by_cases h2 : DefineExists env (latest h) (92 :: c.name.original)
          · rw [if_pos (decide_eq_true h2)]
            exact (hglob rfl (.inr h2)).symm
          · rw [if_neg (by simpa using h2), setNamespace_fqn]
            simp only [show isFQN (nm c.name.original).fqn = false from plain_not_fqn hd, Bool.false_eq_true, if_false]
            rcases hc with hc | ⟨-, hc⟩
            · rw [hns, hc]; rfl
            · subst hc
              rcases hglobal hx (by rw [hns]; simp [inNamespace]) with h | h
              exacts [absurd h h1, absurd h h2]
    · rw [if_neg hc] at e2
      subst e2
      obtain ⟨a1, a2⟩ := alias_of_fqn hns hd.segment.1
      have : accepted (some (c.name.fqn, k)) tbl = tbl.addConstName [] (c.name.fqn.drop 1) default := by
        rcases hko with rfl | rfl <;> rfl
      rw [this]
      simp only [Table.addConstName, a1, GoMap.get_set, if_true, Option.map_some, a2]
  rw [hres] at hlead
  exact ⟨r, hr, hlead, hd1, fun hop => (hlead _).2 ⟨_, hd1, ⟨c, hx, rfl⟩, hop, by rcases hx with rfl | rfl <;> rfl⟩⟩

/-! ### Examples -/

namespace Demo

open Store.Demo (uA uB)

def declared (line : GoInt) (fqn original : Bytes) : Class :=
  ⟨Store.Demo.loc uB line, Store.Demo.loc uB line, 0, [], ⟨fqn, original, 0⟩, ⟨[], [], 0⟩, [], [], none⟩

/-- the classes `Lib\Other\Bar`, `App\Foo` and `Lib\Foo` -/
def namedDoc : Doc where
  uri := uB
  hash := b!"7"
  symbols := [.cla (declared 1 b!"\\Lib\\Other\\Bar" b!"Bar"), .cla (declared 2 b!"\\App\\Foo" b!"Foo"),
    .cla (declared 3 b!"\\Lib\\Foo" b!"Foo")]
  namespaces := []
  refs := []

def namedHist : List HOp := [.upgrade b!"v0.0.16", .index Store.Demo.b1, .restart, .index namedDoc]

theorem namedDoc_ok : DocOK Store.Demo.env namedDoc where
  uri := Store.Demo.uB_ok
  len := by decide
  syms := by
    have : ∀ x ∈ namedDoc.symbols, x.WF := by
      simp [namedDoc, declared, Sym.WF, Class.WF, Location.WF, Store.Demo.loc, uB, Str, TypeString.WF, Types.WF, ListWF, DeprecatedWF]
    intro x hx
    exact Store.Demo.sym_ok (this x hx) ((by decide +kernel : ∀ x ∈ namedDoc.symbols, ∀ n ∈ x.names, sep ∉ n) x hx)
      ((by decide +kernel : ∀ x ∈ namedDoc.symbols, x.location.uri = uB) x hx)
      ((by decide +kernel : ∀ x ∈ namedDoc.symbols, (x.key Store.Demo.env).length < 1000) x hx)
  refsLen := by decide
  refs := by simp [namedDoc]

theorem namedHist_ok : HistOK Store.Demo.env namedHist where
  docs := by
    rw [show docs namedHist = [Store.Demo.b1, namedDoc] from rfl]
    simp [Store.Demo.b1_ok, namedDoc_ok]
  consts := by
    intro d1 h1 d2 h2 c1 c2 m1 m2 _ _
    rw [show docs namedHist = [Store.Demo.b1, namedDoc] from rfl] at h1 h2
    simp only [List.mem_cons, List.not_mem_nil, or_false] at h1 h2
    rcases h1 with rfl | rfl <;> rcases h2 with rfl | rfl <;>
      first
        | rfl
        | (simp [namedDoc, Store.Demo.b1, Store.Demo.cla, Store.Demo.met, Store.Demo.pro, Store.Demo.fn, Store.Demo.glo,
            Store.Demo.claCon] at m1 m2)
  crashes := by simp [Store.Keeps, namedHist]

end Demo

/-- `C136_leads` (and with it `C136_refers`): in a file of the namespace `App`, `Ba` is completed to the class
`Lib\Other\Bar` of another file, with `use Lib\Other\Bar;`. All conditions hold, and go to definition on `Bar::` and on the
type `Bar` leads to the class. -/
example : ∃ s l, run Store.Demo.env Store.Demo.root Demo.namedHist = some s ∧
    classCompletion Store.Demo.env s Imports.demo b!"Ba" none = some l ∧
    (∃ ins use, Complete.Item.sym (.cla (Demo.declared 1 b!"\\Lib\\Other\\Bar" b!"Bar")) b!"Bar" ins use ∈ l.items ∧
      use = some (b!"\\Lib\\Other\\Bar", .other) ∧
      ∃ r, definitionIn Store.Demo.env s (accepted use Imports.demo) id 5 5 (.cls [⟨b!"\\Lib\\Other\\Bar", b!"Bar", 0⟩]) = some r ∧
        Sym.cla (Demo.declared 1 b!"\\Lib\\Other\\Bar" b!"Bar") ∈ r) := by
  obtain ⟨s, h1, h2⟩ := Store.Demo.observe (env := Store.Demo.env) (root := Store.Demo.root) (h := Demo.namedHist)
    (fun s => (classCompletion Store.Demo.env s Imports.demo b!"Ba" none).map (·.items))
    (some [.sym (.cla (Demo.declared 1 b!"\\Lib\\Other\\Bar" b!"Bar")) b!"Bar" b!"Bar" (some (b!"\\Lib\\Other\\Bar", .other))])
    (by decide +kernel)
  obtain ⟨l, hl, hi⟩ := Option.map_eq_some_iff.1 h2
  have hi' : Complete.Item.sym (.cla (Demo.declared 1 b!"\\Lib\\Other\\Bar" b!"Bar")) b!"Bar" b!"Bar"
      (some (b!"\\Lib\\Other\\Bar", .other)) ∈ l.items := by rw [hi]; exact List.mem_singleton.2 rfl
  obtain ⟨r, hr, -, d, hd, hd', -, hm⟩ := C136_leads Store.Demo.env_ok Store.Demo.lower_slash Demo.namedHist_ok h1
    Imports.demo b!"Ba" none l (.inr (.inl hl)) _ _ _ _ hi' ⟨b!"\\Lib\\Other\\Bar", b!"Bar", 0⟩ rfl
    ⟨⟨b!"Lib\\Other", by decide +kernel⟩, by decide, by decide +kernel⟩
    ⟨⟨nm b!"Ba", by decide +kernel, by decide, by decide +kernel⟩, by decide, by decide +kernel⟩
    ⟨fun item hit => absurd ((by decide +kernel : Imports.demo.classes.get b!"Bar" = none).symm.trans hit) (by simp),
     fun item hit => absurd ((by decide +kernel :
      Imports.demo.classes.get (firstSegment (b!"\\Lib\\Other\\Bar".drop 1)) = none).symm.trans hit) (by simp)⟩
    ⟨by unfold GoMap.WF; decide +kernel, by
      have : ∀ e ∈ Imports.demo.classes, e.1 ≠ [] ∧ ¬ Qualified e.1 := by decide +kernel
      exact this⟩
    id 5 5 ⟨b!"\\Lib\\Other\\Bar", b!"Bar", 0⟩ (by decide +kernel) (.cls [⟨b!"\\Lib\\Other\\Bar", b!"Bar", 0⟩]) (.inl rfl)
    (fun _ => ⟨by decide +kernel, by decide +kernel⟩)
  refine ⟨s, l, h1, hl, _, _, hi', rfl, r, hr, hm ?_⟩
  unfold Openable
  have : d.location = d.stored.location := by cases d <;> rfl
  rw [this, hd']
  exact List.isPrefixOf_iff_prefix.1 (by decide +kernel)

/-- Without the condition that no import hides the name, C136 is false: in a file of `App` with `use Lib\Foo;`, completing
`Fo` to the class `App\Foo` inserts `Foo`, and go to definition leads to the class `Lib\Foo`. -/
theorem C136_needs_not_hidden : ∃ s, run Store.Demo.env Store.Demo.root Demo.namedHist = some s ∧
    ((classCompletion Store.Demo.env s Imports.demo b!"Fo" none).map fun l => l.items.head?) =
      some (some (.sym (.cla (Demo.declared 2 b!"\\App\\Foo" b!"Foo")) b!"Foo" b!"Foo" Option.none)) ∧
    (accepted Option.none Imports.demo).getClassReferenceFQN (nm b!"Foo") = (b!"\\Lib\\Foo", (Imports.demo.getClassReferenceFQN (nm b!"Foo")).2) ∧
    definitionIn Store.Demo.env s Imports.demo id 5 5 (.cls [⟨b!"\\Lib\\Foo", b!"Foo", 0⟩]) =
      some [.cla (Demo.declared 3 b!"\\Lib\\Foo" b!"Foo")] := by
  obtain ⟨s, h1, h2⟩ := Store.Demo.observe (env := Store.Demo.env) (root := Store.Demo.root) (h := Demo.namedHist)
    (fun s => ((classCompletion Store.Demo.env s Imports.demo b!"Fo" none).map fun l => l.items.head?,
      definitionIn Store.Demo.env s Imports.demo id 5 5 (.cls [⟨b!"\\Lib\\Foo", b!"Foo", 0⟩])))
    (some (some (.sym (.cla (Demo.declared 2 b!"\\App\\Foo" b!"Foo")) b!"Foo" b!"Foo" Option.none)),
      some [.cla (Demo.declared 3 b!"\\Lib\\Foo" b!"Foo")])
    (by decide +kernel)
  exact ⟨s, h1, congrArg Prod.fst h2, by decide +kernel, congrArg Prod.snd h2⟩

namespace Demo

open Store.Demo (uA uB)

def declaredFn (line : GoInt) (fqn original : Bytes) : Function :=
  ⟨Store.Demo.loc uB line, Location.zero, ⟨fqn, original, 0⟩, [], [], [], none⟩

def declaredConst (line : GoInt) (fqn original : Bytes) : Const :=
  ⟨Store.Demo.loc uB line, [], none, ⟨fqn, original, 0⟩, b!"1"⟩

/-- the functions `Lib\helper`, `App\hide` and `hide`, the constants `App\HIGH` (with `const`) and `Lib\HUGE` (with
`define`) -/
def callsDoc : Doc where
  uri := uB
  hash := b!"8"
  symbols := [.fn (declaredFn 1 b!"\\Lib\\helper" b!"helper"), .fn (declaredFn 2 b!"\\App\\hide" b!"hide"),
    .fn (declaredFn 3 b!"\\hide" b!"hide"), .con (declaredConst 4 b!"\\App\\HIGH" b!"HIGH"),
    .def_ (declaredConst 5 b!"\\Lib\\HUGE" b!"HUGE")]
  namespaces := []
  refs := []

def callsHist : List HOp := [.upgrade b!"v0.0.16", .index Store.Demo.b1, .restart, .index callsDoc]

theorem callsDoc_ok : DocOK Store.Demo.env callsDoc where
  uri := Store.Demo.uB_ok
  len := by decide
  syms := by
    have : ∀ x ∈ callsDoc.symbols, x.WF := by
      simp [callsDoc, declaredFn, declaredConst, Sym.WF, Function.WF, Const.WF, Location.WF, Store.Demo.loc, uB, Str,
        TypeString.WF, Types.WF, ListWF, DeprecatedWF]
    intro x hx
    exact Store.Demo.sym_ok (this x hx) ((by decide +kernel : ∀ x ∈ callsDoc.symbols, ∀ n ∈ x.names, sep ∉ n) x hx)
      ((by decide +kernel : ∀ x ∈ callsDoc.symbols, x.location.uri = uB) x hx)
      ((by decide +kernel : ∀ x ∈ callsDoc.symbols, (x.key Store.Demo.env).length < 1000) x hx)
  refsLen := by decide
  refs := by simp [callsDoc]

theorem callsHist_ok : HistOK Store.Demo.env callsHist where
  docs := by
    rw [show docs callsHist = [Store.Demo.b1, callsDoc] from rfl]
    simp [Store.Demo.b1_ok, callsDoc_ok]
  consts := by
    intro d1 h1 d2 h2 c1 c2 m1 m2 _ _
    rw [show docs callsHist = [Store.Demo.b1, callsDoc] from rfl] at h1 h2
    simp only [List.mem_cons, List.not_mem_nil, or_false] at h1 h2
    rcases h1 with rfl | rfl <;> rcases h2 with rfl | rfl <;>
      simp_all [callsDoc, declaredFn, declaredConst, Store.Demo.b1, Store.Demo.cla, Store.Demo.fn]
  crashes := by simp [Store.Keeps, callsHist]

theorem calls_live {x : Sym} (hx : Live Store.Demo.env (latest callsHist) x) : x ∈ callsDoc.symbols := by
  obtain ⟨u, d, pre, post, hu, hd, -⟩ := hx
  simp only [latest, callsHist, List.foldl_cons, List.foldl_nil, latestStep] at hu
  split at hu
  · obtain rfl := (Option.some.inj hu).symm
    rw [hd]; simp
  · rename_i h1
    rw [if_neg (show ¬ u = Store.Demo.b1.uri from h1)] at hu
    cases hu

/-- no import of the demo table hides anything that is called `original` in `Lib` or `App` -/
theorem shown {own : GoMap Bytes Imports.Item} {word fqn original : Bytes} (h1 : own.get original = none)
    (h2 : ∀ e ∈ Imports.demo.classes, 92 :: e.2.name ≠ fqn)
    (h3 : Imports.demo.classes.get (firstSegment (fqn.drop 1)) = none) :
    NotHiddenIn own Imports.demo word ⟨fqn, original, 0⟩ :=
  ⟨fun _ hit => absurd (h1.symm.trans hit) (by simp), h2, fun _ hit => absurd (h3.symm.trans hit) (by simp)⟩

end Demo

/-- `C136_function`: `he` is completed to the function `Lib\helper` of another file, with `use function Lib\helper;`, and the
call leads to it. `C136_constant`: `HI` is completed to the constant `App\HIGH`, without a statement. -/
example : ∃ s l, run Store.Demo.env Store.Demo.root Demo.callsHist = some s ∧
    nameCompletion Store.Demo.env s Imports.demo b!"h" none = some l ∧
    (∃ ins use r, Complete.Item.sym (.fn (Demo.declaredFn 1 b!"\\Lib\\helper" b!"helper")) b!"helper" ins use ∈ l.items ∧
      use = some (b!"\\Lib\\helper", .function) ∧ ins = b!"helper()" ∧
      definitionIn Store.Demo.env s (accepted use Imports.demo) id 5 5 (.function (nm b!"helper")) = some r ∧
      Sym.fn (Demo.declaredFn 1 b!"\\Lib\\helper" b!"helper") ∈ r) ∧
    (∃ use r, Complete.Item.sym (.con (Demo.declaredConst 4 b!"\\App\\HIGH" b!"HIGH")) b!"HIGH" b!"HIGH" use ∈ l.items ∧
      use = Option.none ∧
      definitionIn Store.Demo.env s (accepted use Imports.demo) id 5 5 (.constant (nm b!"HIGH")) = some r ∧
      Sym.con (Demo.declaredConst 4 b!"\\App\\HIGH" b!"HIGH") ∈ r) := by
  obtain ⟨s, h1, h2⟩ := Store.Demo.observe (env := Store.Demo.env) (root := Store.Demo.root) (h := Demo.callsHist)
    (fun s => (nameCompletion Store.Demo.env s Imports.demo b!"h" none).map fun l => l.items.filter fun i =>
      i = .sym (.fn (Demo.declaredFn 1 b!"\\Lib\\helper" b!"helper")) b!"helper" b!"helper()" (some (b!"\\Lib\\helper", .function)) ∨
      i = .sym (.con (Demo.declaredConst 4 b!"\\App\\HIGH" b!"HIGH")) b!"HIGH" b!"HIGH" Option.none)
    (some [.sym (.con (Demo.declaredConst 4 b!"\\App\\HIGH" b!"HIGH")) b!"HIGH" b!"HIGH" Option.none,
      .sym (.fn (Demo.declaredFn 1 b!"\\Lib\\helper" b!"helper")) b!"helper" b!"helper()" (some (b!"\\Lib\\helper", .function))])
    (by decide +kernel)
  obtain ⟨l, hl, hi⟩ := Option.map_eq_some_iff.1 h2
  have hm : ∀ i ∈ [Complete.Item.sym (.con (Demo.declaredConst 4 b!"\\App\\HIGH" b!"HIGH")) b!"HIGH" b!"HIGH" Option.none,
      .sym (.fn (Demo.declaredFn 1 b!"\\Lib\\helper" b!"helper")) b!"helper" b!"helper()" (some (b!"\\Lib\\helper", .function))],
      i ∈ l.items := by
    intro i him
    rw [← hi] at him
    exact (List.mem_filter.1 him).1
  have hword : PlainWord b!"h" := ⟨⟨nm b!"h", by decide +kernel, by decide, by decide +kernel⟩, by decide, by decide +kernel⟩
  have hmf := hm _ (.tail _ (.head _))
  have hmc := hm _ (.head _)
  obtain ⟨r, hr, -, d, hd, hd', hr'⟩ := C136_function Store.Demo.env_ok Demo.callsHist_ok h1 Imports.demo b!"h" none l (.inl hl)
    _ _ _ _ hmf ⟨⟨b!"Lib", by decide +kernel⟩, by decide, by decide +kernel⟩ hword
    (Demo.shown (by decide +kernel) (by decide +kernel) (by decide +kernel)) (by simp) id 5 5
  obtain ⟨q, hq, -, -, hq'⟩ := C136_constant Store.Demo.env_ok Demo.callsHist_ok h1 Imports.demo b!"h" none l (.inl hl)
    _ _ (.inl rfl) _ _ _ hmc ⟨⟨b!"App", by decide +kernel⟩, by decide, by decide +kernel⟩ hword
    (Demo.shown (by decide +kernel) (by decide +kernel) (by decide +kernel)) (by
      rintro - (⟨c, hc, e⟩ | ⟨c, hc, e⟩) <;>
      · have := Demo.calls_live hc
        simp [Demo.callsDoc] at this
        subst this
        revert e
        decide +kernel) id 5 5
  have op : ∀ x : Sym, b!"file://".isPrefixOf x.stored.location.uri = true → Openable x := by
    intro x hx
    have : x.location = x.stored.location := by cases x <;> rfl
    unfold Openable
    rw [this]
    exact List.isPrefixOf_iff_prefix.1 hx
  exact ⟨s, l, h1, hl, ⟨_, _, r, hmf, rfl, rfl, hr, hr' (op _ (by rw [hd']; decide +kernel))⟩,
    _, q, hmc, rfl, hq, hq' (op _ (by decide +kernel))⟩

/-- Without the condition on global functions C136 is false: in a file of `App`, completing the function `App\hide` inserts
`hide()`, which leads to the global function `hide`. -/
theorem C136_needs_no_global : ∃ s, run Store.Demo.env Store.Demo.root Demo.callsHist = some s ∧
    ((nameCompletion Store.Demo.env s Imports.demo b!"hi" none).map fun l =>
      decide (Complete.Item.sym (.fn (Demo.declaredFn 2 b!"\\App\\hide" b!"hide")) b!"hide" b!"hide()" Option.none ∈ l.items)) =
      some true ∧
    definitionIn Store.Demo.env s Imports.demo id 5 5 (.function (nm b!"hide")) =
      some [.fn (Demo.declaredFn 3 b!"\\hide" b!"hide")] := by
  obtain ⟨s, h1, h2⟩ := Store.Demo.observe (env := Store.Demo.env) (root := Store.Demo.root) (h := Demo.callsHist)
    (fun s => ((nameCompletion Store.Demo.env s Imports.demo b!"hi" none).map fun l : CList =>
      decide (Complete.Item.sym (.fn (Demo.declaredFn 2 b!"\\App\\hide" b!"hide")) b!"hide" b!"hide()" Option.none ∈ l.items),
      definitionIn Store.Demo.env s Imports.demo id 5 5 (.function (nm b!"hide"))))
    (some true, some [.fn (Demo.declaredFn 3 b!"\\hide" b!"hide")]) (by decide +kernel)
  exact ⟨s, h1, congrArg Prod.fst h2, congrArg Prod.snd h2⟩

end Verif.Whole
