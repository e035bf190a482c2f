import Verif.Complete.PropsNames

/-! Property C108: the text that an item of a list of names inserts. -/

namespace Verif.Complete

open Verif.Encoding Verif.Store Verif.Types Verif.Imports

/-! ### Specification -/

/-- The text behind the label: a call with the cursor (`$0`) between the parentheses if the function has parameters, a
call without arguments if it has none, nothing for other symbols. -/
def behind : Sym → Bytes
  | .fn f => if f.params = [] then b!"()" else b!"($0)"
  | _ => []

/-- The lists of names: in expressions, after `extends` and `new`, after `implements`, after `use` in a class and for types. -/
def ListOfNames (env : Env) (s : Store) (tbl : Table) (word : Bytes) (limit : Option Int) (l : CList) : Prop :=
  nameCompletion env s tbl word limit = some l ∨ classCompletion env s tbl word limit = some l ∨
    interfaceCompletion env s tbl word limit = some l ∨ traitCompletion env s tbl word limit = some l ∨
    typeCompletion env s tbl word limit = some l

/-- `full` is the name `n` of a namespace, written with a leading `\`. -/
def Absolute (n full : Bytes) : Prop := full = n ∧ n.head? = some 92 ∨ full = 92 :: n ∧ n.head? ≠ some 92

/-! ### Lemmas -/

variable {env : Env} {s : Store}

/-- Every item is one that the word may offer. -/
def Proper (word : Bytes) (l : CList) : Prop := ∀ i ∈ l.items,
  (∃ x label use, i = .sym x label (label ++ behind x) use) ∨ ∃ n, i = .ns n (namespaceDiff n word)

theorem proper_step {word : Bytes} {α} {search : Nat → Option (Found α × Bool)} {con : α → Sym}
    {insert : α → Bytes → Bytes} {offer : α → Option Offer} {l l' : CList} (hl : Proper word l)
    (hi : ∀ y label, insert y label = label ++ behind (con y))
    (he : searchAll search (fun y => itemOf (insert y) (con y) (offer y)) l = some l') : Proper word l' := by
  unfold searchAll at he
  split at he
  · cases he
  · next f complete _ =>
    simp only [Option.map_eq_some_iff] at he
    obtain ⟨is, h1, rfl⟩ := he
    have key : ∀ (rs : List α) (is : List Item), rs.mapM (fun y => itemOf (insert y) (con y) (offer y)) = some is →
        ∀ i ∈ is, ∃ x label use, i = .sym x label (label ++ behind x) use := by
      intro rs
      induction rs with
      | nil => intro is h i him; simp at h; subst h; cases him
      | cons r rs ih =>
        intro is h i him
        simp only [List.mapM_cons, Option.bind_eq_bind, Option.bind_eq_some_iff, Option.pure_def, Option.some.injEq] at h
        obtain ⟨a, ha, as, has, rfl⟩ := h
        rcases List.mem_cons.1 him with rfl | him
        · simp only [itemOf, Option.map_eq_some_iff] at ha
          obtain ⟨o, -, rfl⟩ := ha
          exact ⟨con r, o.label, o.use, by rw [hi]⟩
        · exact ih as has i him
    intro i him
    rcases List.mem_append.1 him with him | him
    · exact hl i him
    · exact .inl (key _ _ h1 i him)

theorem proper_namespaces {word : Bytes} {l l' : CList} (hl : Proper word l) (he : addNamespaces env s word l = some l') :
    Proper word l' := by
  unfold addNamespaces at he
  split at he
  · simp only [Option.map_eq_some_iff] at he
    obtain ⟨⟨names, b⟩, -, rfl⟩ := he
    intro i him
    rcases List.mem_append.1 him with him | him
    · exact hl i him
    · obtain ⟨n, -, rfl⟩ := List.mem_map.1 him
      exact .inr ⟨n, rfl⟩
  · cases he; exact hl

theorem proper_list {tbl : Table} {word : Bytes} {limit : Option Int} {l : CList} (hl : ListOfNames env s tbl word limit l) :
    Proper word l := by
  have h0 : Proper word CList.empty := by simp [Proper, CList.empty]
  have k1 : ∀ a b, Proper word a → addClasses env s tbl word limit a = some b → Proper word b := fun a b ha hb =>
    proper_step (con := Sym.cla) (insert := fun _ => id) ha (fun _ _ => by simp [behind]) hb
  have k2 : ∀ a b, Proper word a → addInterfaces env s tbl word limit a = some b → Proper word b := fun a b ha hb =>
    proper_step (con := Sym.int) (insert := fun _ => id) ha (fun _ _ => by simp [behind]) hb
  have k3 : ∀ a b, Proper word a → addConsts env s tbl word limit a = some b → Proper word b := fun a b ha hb =>
    proper_step (con := Sym.con) (insert := fun _ => id) ha (fun _ _ => by simp [behind]) hb
  have k4 : ∀ a b, Proper word a → addDefines env s tbl word limit a = some b → Proper word b := fun a b ha hb =>
    proper_step (con := Sym.def_) (insert := fun _ => id) ha (fun _ _ => by simp [behind]) hb
  have k5 : ∀ a b, Proper word a → addFunctions env s tbl word limit a = some b → Proper word b := fun a b ha hb =>
    proper_step (con := Sym.fn) (insert := fun c => callText (!c.params.isEmpty)) ha
      (fun y label => by cases h : y.params <;> simp [behind, callText, h]) hb
  have k6 : ∀ a b, Proper word a → addTraits env s tbl word limit a = some b → Proper word b := fun a b ha hb =>
    proper_step (con := Sym.tra) (insert := fun _ => id) ha (fun _ _ => by simp [behind]) hb
  rcases hl with hl | hl | hl | hl | hl
  · simp only [nameCompletion, Option.bind_eq_bind, Option.bind_eq_some_iff] at hl
    obtain ⟨l1, a1, l2, a2, l3, a3, l4, a4, l5, a5, a6⟩ := hl
    exact proper_namespaces (k5 _ _ (k4 _ _ (k3 _ _ (k2 _ _ (k1 _ _ h0 a1) a2) a3) a4) a5) a6
  · exact k1 _ _ h0 hl
  · exact k2 _ _ h0 hl
  · exact k6 _ _ h0 hl
  · simp only [typeCompletion, Option.bind_eq_bind, Option.bind_eq_some_iff] at hl
    obtain ⟨l1, a1, l2, a2, a3⟩ := hl
    exact proper_namespaces (k2 _ _ (k1 _ _ h0 a1) a2) a3

/-! ### Theorems -/

/-- C108: an item for a symbol inserts its label, and for a function a call behind it, with the cursor between the
parentheses exactly if the function has parameters. -/
theorem C108_symbols (tbl : Table) (word : Bytes) (limit : Option Int) (l : CList)
    (hl : ListOfNames env s tbl word limit l) (x : Sym) (label insert : Bytes) (use : Option (Bytes × SymKind))
    (hi : Item.sym x label insert use ∈ l.items) : insert = label ++ behind x := by
  rcases proper_list hl _ hi with ⟨_, _, _, e⟩ | ⟨_, e⟩
  · injection e with e1 e2 e3 e4
    subst e1 e2
    exact e3
  · cases e

/-- C108: if the word typed so far is the beginning of the name of the namespace, what stands before the last part of the
word, followed by what is inserted, is the whole name. Missing: words in another case (`C108_false_case`). -/
theorem C108_namespaces_partial (tbl : Table) (pre seg : Bytes) (hs : 92 ∉ seg) (limit : Option Int) (l : CList)
    (hl : ListOfNames env s tbl (pre ++ 92 :: seg) limit l) (n insert full : Bytes) (hi : Item.ns n insert ∈ l.items)
    (hn : Absolute n full) (hp : pre ++ 92 :: seg <+: full) : pre ++ 92 :: insert = full := by
  rcases proper_list hl _ hi with ⟨_, _, _, e⟩ | ⟨m, e⟩
  · cases e
  injection e with e1 e2
  subst e1
  subst e2
  obtain ⟨rest, hr⟩ := hp
  have h92 : full.head? = some 92 := by rcases hn with ⟨rfl, h⟩ | ⟨rfl, _⟩ <;> simp_all
  have e2 : normaliseNamespace (pre ++ 92 :: seg) = pre ++ 92 :: seg := by
    cases pre with
    | nil => rfl
    | cons c cs =>
      rw [← hr] at h92
      simp only [List.cons_append, List.head?_cons, Option.some.injEq] at h92
      simp [normaliseNamespace, h92]
  by_cases h0 : n = []
  · subst h0
    rcases hn with ⟨_, h⟩ | ⟨rfl, _⟩
    · cases h
    cases pre with
    | nil =>
      cases seg with
      | nil => rfl
      | cons c cs => cases hr
    | cons c cs => simp at hr
  have e1 : normaliseNamespace n = full := by
    cases n with
    | nil => exact absurd rfl h0
    | cons c cs =>
      rcases hn with ⟨rfl, h⟩ | ⟨rfl, h⟩
      · simp only [List.head?_cons, Option.some.injEq] at h
        simp [normaliseNamespace, h]
      · simp only [List.head?_cons, ne_eq, Option.some.injEq] at h
        simp [normaliseNamespace, h]
  have hpre : (pre ++ 92 :: seg).isPrefixOf full = true := List.isPrefixOf_iff_prefix.2 ⟨rest, hr⟩
  have ht : full.take (pre ++ 92 :: seg).length = pre ++ 92 :: seg := by rw [← hr]; exact List.take_left' rfl
  simp only [namespaceDiff, e1, e2, hpre, if_true, ht, lastIndexB_append hs]
  rw [← hr]
  simp [List.drop_append]

/-! ### Examples -/

namespace Demo

open Verif.Store.Demo

/-- a file with a namespace, a function with and one without parameters -/
def spaces : Doc where
  uri := uA
  hash := b!"c"
  symbols := [fn uA b!"f" 7, .fn ⟨loc uA 8, loc uA 8, ty b!"fg", [⟨loc uA 8, loc uA 8, [], false, b!"$a", [], []⟩], [], [], none⟩, cla uA b!"fc"]
  namespaces := [b!"App\\Http"]
  refs := []

/-- what the list in an expression offers: label and inserted text -/
def texts (s : Store) (word : Bytes) : Option (List (Bytes × Bytes)) :=
  (nameCompletion Store.Demo.env s tbl word none).map fun l => l.items.map fun
    | .sym _ label insert _ => (label, insert)
    | .ns n insert => (n, insert)

end Demo

/-- `C108_symbols`: a class, a function without parameters and one with parameters. `C108_namespaces_partial`: behind
`\App\H`, the last part is completed. -/
example : (run Store.Demo.env Store.Demo.root [.index Demo.spaces]).map (fun s =>
      [Demo.texts s b!"f", Demo.texts s b!"\\App\\H"]) =
    some [some [(b!"fc", b!"fc"), (b!"f", b!"f()"), (b!"fg", b!"fg($0)")], some [(b!"\\App\\Http", b!"Http")]] := by
  decide +kernel

/-- C108 is false for a word in another case: the namespace `\App\Http` is offered for `\app`, but the whole name with its
`\` is inserted behind the `\` that is there already. -/
theorem C108_false_case : (run Store.Demo.env Store.Demo.root [.index Demo.spaces]).map (fun s => Demo.texts s b!"\\app") =
    some (some [(b!"\\App\\Http", b!"\\App\\Http")]) := by
  decide +kernel

end Verif.Complete
