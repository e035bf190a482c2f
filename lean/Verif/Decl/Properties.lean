import Verif.Decl.Uses
import Verif.Decl.PropsDocs
import Verif.Infer.Model

/-! The types of properties: those of a doc comment above, and those of what the constructor assigns
(`analysis/assignment.go`, `class.go`, `interface.go`, `trait.go`, `property.go`). -/

namespace Verif.Decl
open Verif.Analyser (Node PType TokType Tok Ctx Src Item tyOf)
open Verif.Types (Ty Union merge natives)

/-! ### Model -/

/-- The loop of `readMemberName` (`memberAccess.go:13-21`), without the position. -/
def skipArrow : List Node → List Node
  | k :: ks => if tokType? k = some .whitespace ∨ tokType? k = some .arrow then skipArrow ks else k :: ks
  | [] => []

/-- The loop over the children of a `MemberName` (`memberAccess.go:26-38`): a variable ends it. -/
def memberNameOf (c : Ctx) : List Node → Bytes → Bytes
  | k :: ks, name =>
    if typ? k = some .simpleVariable then c.nodeText k
    else memberNameOf c ks (if tokType? k = some .name then c.nodeText k else name)
  | [], name => name

/-- The name of `readMemberName` (`memberAccess.go:10-44`); `readMemberName_scan` says that it is the one in the model of the
whole analysis. -/
def readMemberName (c : Ctx) (ks : List Node) : Bytes :=
  match skipArrow ks with
  | [] => []
  | m :: _ =>
    if typ? m = some .memberName then memberNameOf c m.kids []
    else if tokType? m = some .name then c.nodeText m
    else []

/-- `PropertyAccess.MemberName` (`propertyAccess.go:68-74`), for names of valid UTF-8. -/
def memberName (name : Bytes) : Bytes :=
  match name with
  | [] => []
  | c :: _ => if c = 36 then name else 36 :: name

/-- The property that an assignment is for: the tests of `newAssignment` (`assignment.go:19-24`) and
`processPropertyAccessAssignment` (`assignment.go:89`, `107-112`). `block` is the name of the method that is the current block,
if the current block is a method. -/
def assignedMember (c : Ctx) (block : Option Bytes) (n : Node) : Option Bytes :=
  match n.kids, block with
  | p :: _, some m =>
    if typ? p = some .propertyAccessExpression ∧ asciiLower m = b!"__construct" then
      match p.kids with
      | v :: ks => if typ? v = some .simpleVariable ∧ c.nodeText v = b!"$this" then some (memberName (readMemberName c ks)) else none
      | [] => none
    else none
  | _, _ => none

/-- `findProp` (`class.go:298-310`, `interface.go:174-186`, `trait.go:109-121`) and the merge into what it finds
(`assignment.go:120-122`); only the properties among the children of the class. -/
def assignProperty (name : Bytes) (types : Union) : List PropertyRec → List PropertyRec
  | [] => []
  | p :: ps => if p.name = name then { p with types := merge p.types types } :: ps else p :: assignProperty name types ps

/-- What happens to the properties of a document while it is analysed, in order: a class, interface, trait or anonymous class
begins and ends, a property is declared or in a `@property` tag, and something is assigned: `e` is what `scanForExpression`
returns for the right side. -/
inductive PropEvent
  | enter
  | leave
  | declare (env : Env) (m : Modifiers) (n : Node)
  | tagged (env : Env) (t : Tag) (r : Rng)
  | assign (c : Ctx) (block : Option Bytes) (n : Node) (e : Infer.Expr)

/-- The properties of the classes of the document in the order of `addClass` (`document.go:385-394`), and the classes that are
blocks now (`document.go:287-300`), the innermost last. -/
structure PropState where
  classes : List (List PropertyRec)
  blocks : List Nat
  deriving DecidableEq, Repr

/-- `document.addSymbol` (`document.go:276-285`) of properties, for the class that is the current block. -/
def PropState.add (s : PropState) (ps : List PropertyRec) : PropState :=
  match s.blocks.getLast? with
  | some i => { s with classes := s.classes.modify i (· ++ ps) }
  | none => s

/-- One event. `enter`, `leave`: `addClass`, `pushBlock`, `popBlock` (`class.go:28-62`, `interface.go:22-47`, `trait.go:20-49`,
`anonymousClass.go:18-40`). `declare`: `property.go:66-75`. `tagged`: `class.go:104-116`. `assign`: `assignment.go:84-123`;
`getLastClass` (`document.go:357-362`) is the class that began last, whether it has ended or not. -/
def propStep (s : PropState) : PropEvent → PropState
  | .enter => ⟨s.classes ++ [[]], s.blocks ++ [s.classes.length]⟩
  | .leave => { s with blocks := s.blocks.dropLast }
  | .declare env m n => s.add [newProperty env m n]
  | .tagged env t r => s.add (propertyFromTag env t r).toList
  | .assign c block n e =>
    match assignedMember c block n with
    | some name => if e.isNil then s else { s with classes := s.classes.modify (s.classes.length - 1) (assignProperty name e.getTypes) }
    | none => s

/-- The properties of each class of the document. -/
def propertiesOf (es : List PropEvent) : List (List PropertyRec) := (es.foldl propStep ⟨[], []⟩).classes

/-! ### Specification -/

/-- `->name` with the name written out: whitespace and the arrow, then the name. -/
def WritesMember (c : Ctx) (ks : List Node) (name : Bytes) : Prop :=
  ∃ pre m post, ks = pre ++ m :: post ∧ (∀ k ∈ pre, IsToken .whitespace k ∨ IsToken .arrow k) ∧
    ((IsPhrase .memberName m ∧ NoPhrase .simpleVariable m.kids ∧ ∃ t, OnlyToken .name m.kids t ∧ c.tokText t = name) ∨
      (IsToken .name m ∧ c.nodeText m = name)) ∧ name ≠ [] ∧ name.head? ≠ some 36

/-- The code is in a constructor itself, not in a function inside of it. -/
def InConstructor (block : Option Bytes) : Prop := ∃ m, block = some m ∧ asciiLower m = b!"__construct"

/-- The left side of the assignment is a property of `$this`, with `ks` behind the variable. -/
def OfThis (c : Ctx) (n : Node) (ks : List Node) : Prop :=
  ∃ p rest v, n.kids = p :: rest ∧ IsPhrase .propertyAccessExpression p ∧ p.kids = v :: ks ∧
    IsPhrase .simpleVariable v ∧ c.nodeText v = b!"$this"

/-- In a constructor, `$this->name = …`; `$name` is how the property is declared. -/
def AssignsProperty (c : Ctx) (block : Option Bytes) (n : Node) (name : Bytes) : Prop :=
  InConstructor block ∧ ∃ ks, OfThis c n ks ∧ ∃ w, WritesMember c ks w ∧ name = 36 :: w

/-- Every assignment of a constructor to a property of `$this` has the name of the property written out. -/
def NamesWritten (es : List PropEvent) : Prop :=
  ∀ c block n e, .assign c block n e ∈ es → InConstructor block → ∀ ks, OfThis c n ks → ∃ w, WritesMember c ks w

/-- Neither a class nor the end of one. -/
def PropEvent.isInside : PropEvent → Prop
  | .enter | .leave => False
  | _ => True

/-- What follows the end of a class: no constructor assigns a property before the next class begins. -/
def NoMoreAssigned : List PropEvent → Prop
  | [] => True
  | .enter :: _ => True
  | .assign c block n _ :: es => (¬ InConstructor block ∨ ∀ ks, ¬ OfThis c n ks) ∧ NoMoreAssigned es
  | _ :: es => NoMoreAssigned es

/-- How many classes begin. -/
def entered : List PropEvent → Nat
  | [] => 0
  | .enter :: es => entered es + 1
  | _ :: es => entered es

/-- The properties that are declared or in tags, in order. -/
def declaredIn (es : List PropEvent) : List PropertyRec :=
  es.flatMap fun
    | .declare env m n => [newProperty env m n]
    | .tagged env t r => (propertyFromTag env t r).toList
    | _ => []

/-- The constructor assigns a value of the type `q` to the property. -/
def AssignedType (es : List PropEvent) (name q : Bytes) : Prop :=
  ∃ c block n e, .assign c block n e ∈ es ∧ AssignsProperty c block n name ∧ q ∈ e.getTypes.map Ty.fqn

/-! ### Proofs -/

theorem skipArrow_of {pre : List Node} {m : Node} {post : List Node}
    (h : ∀ k ∈ pre, IsToken .whitespace k ∨ IsToken .arrow k) (hm : ¬ (IsToken .whitespace m ∨ IsToken .arrow m)) :
    skipArrow (pre ++ m :: post) = m :: post := by
  induction pre with
  | nil =>
    rw [List.nil_append, skipArrow, if_neg]
    simpa only [tokType_iff] using hm
  | cons k ks ih =>
    rw [List.cons_append, skipArrow, if_pos, ih fun k hk => h k (List.mem_cons_of_mem _ hk)]
    simpa only [tokType_iff] using h k List.mem_cons_self

theorem memberNameOf_none {c : Ctx} {ks : List Node} (hv : NoPhrase .simpleVariable ks) (hn : ∀ k ∈ ks, ¬ IsToken .name k)
    (name : Bytes) : memberNameOf c ks name = name := by
  induction ks with
  | nil => rfl
  | cons k ks ih =>
    rw [memberNameOf, if_neg (by rw [typ_iff]; exact hv k List.mem_cons_self),
      if_neg (by rw [tokType_iff]; exact hn k List.mem_cons_self)]
    exact ih (fun k hk => hv k (List.mem_cons_of_mem _ hk)) fun k hk => hn k (List.mem_cons_of_mem _ hk)

theorem memberNameOf_of {c : Ctx} {ks : List Node} (hv : NoPhrase .simpleVariable ks) {t : Tok} (ht : OnlyToken .name ks t)
    (name : Bytes) : memberNameOf c ks name = c.nodeText (.tok t) := by
  obtain ⟨pre, post, rfl, htt, hno⟩ := ht
  have skip : ∀ (l : List Node) (m : List Node) (name : Bytes), NoPhrase .simpleVariable l → (∀ k ∈ l, ¬ IsToken .name k) →
      memberNameOf c (l ++ m) name = memberNameOf c m name := by
    intro l m name h1 h2
    induction l with
    | nil => rfl
    | cons k ks ih =>
      rw [List.cons_append, memberNameOf, if_neg (by rw [typ_iff]; exact h1 k List.mem_cons_self),
        if_neg (by rw [tokType_iff]; exact h2 k List.mem_cons_self)]
      exact ih (fun k hk => h1 k (List.mem_cons_of_mem _ hk)) fun k hk => h2 k (List.mem_cons_of_mem _ hk)
  rw [skip pre _ _ (fun k hk => hv k (List.mem_append_left _ hk)) fun k hk => hno k (List.mem_append_left _ hk), memberNameOf,
    if_neg (by simp [typ?]), if_pos (by simp [tokType?, htt])]
  exact memberNameOf_none (fun k hk => hv k (List.mem_append_right _ (List.mem_cons_of_mem _ hk)))
    (fun k hk => hno k (List.mem_append_right _ hk)) _

theorem nodeText_tok (c : Ctx) (t : Tok) : c.nodeText (.tok t) = c.tokText t := rfl

theorem readMemberName_of {c : Ctx} {ks : List Node} {name : Bytes} (h : WritesMember c ks name) :
    memberName (readMemberName c ks) = 36 :: name := by
  obtain ⟨pre, m, post, rfl, hpre, hm, hne, hd⟩ := h
  have hread : readMemberName c (pre ++ m :: post) = name := by
    rcases hm with ⟨⟨ms, rfl⟩, hv, t, ht, e⟩ | ⟨⟨t, rfl, htt⟩, e⟩
    · rw [readMemberName, skipArrow_of hpre (by rintro (⟨_, h, _⟩ | ⟨_, h, _⟩) <;> cases h)]
      simp only
      rw [if_pos (show typ? (Node.phr .memberName ms) = some .memberName from rfl), memberNameOf_of hv ht, nodeText_tok, e]
    · rw [readMemberName, skipArrow_of hpre (by
        rintro (⟨_, h, h'⟩ | ⟨_, h, h'⟩) <;> cases h <;> rw [htt] at h' <;> cases h')]
      simp only
      rw [if_neg (by simp [typ?]), if_pos (by simp [tokType?, htt]), e]
  rw [hread]
  cases name with
  | nil => exact absurd rfl hne
  | cons a l =>
    rw [memberName, if_neg]
    simpa using hd

theorem assignedMember_some {c : Ctx} {block : Option Bytes} {n : Node} (hb : InConstructor block) {ks : List Node}
    (h : OfThis c n ks) : assignedMember c block n = some (memberName (readMemberName c ks)) := by
  obtain ⟨p, rest, v, h1, h2, h3, h4, h5⟩ := h
  obtain ⟨m, rfl, hm⟩ := hb
  unfold assignedMember
  rw [h1]
  simp only
  rw [if_pos ⟨(typ_iff _ _).mpr h2, hm⟩, h3]
  simp only
  rw [if_pos ⟨(typ_iff _ _).mpr h4, h5⟩]

theorem assignedMember_inv {c : Ctx} {block : Option Bytes} {n : Node} {name : Bytes} (h : assignedMember c block n = some name) :
    InConstructor block ∧ ∃ ks, OfThis c n ks ∧ name = memberName (readMemberName c ks) := by
  unfold assignedMember at h
  split at h
  · rename_i p rest m hk
    split at h
    · rename_i hc
      split at h
      · rename_i v ks hv
        split at h
        · rename_i hc'
          exact ⟨⟨m, rfl, hc.2⟩, ks, ⟨p, rest, v, hk, (typ_iff _ _).mp hc.1, hv, (typ_iff _ _).mp hc'.1, hc'.2⟩,
            (Option.some.inj h).symm⟩
        · cases h
      · cases h
    · cases h
  · cases h

theorem assignedMember_none {c : Ctx} {block : Option Bytes} {n : Node}
    (h : ¬ InConstructor block ∨ ∀ ks, ¬ OfThis c n ks) : assignedMember c block n = none := by
  cases e : assignedMember c block n with
  | none => rfl
  | some name =>
    obtain ⟨h1, ks, h2, -⟩ := assignedMember_inv e
    rcases h with h | h
    · exact absurd h1 h
    · exact absurd h2 (h ks)

/-- For readable assignments. -/
theorem assigned_iff {c : Ctx} {block : Option Bytes} {n : Node}
    (hw : InConstructor block → ∀ ks, OfThis c n ks → ∃ w, WritesMember c ks w) (name : Bytes) :
    assignedMember c block n = some name ↔ AssignsProperty c block n name := by
  constructor
  · intro h
    obtain ⟨h1, ks, h2, rfl⟩ := assignedMember_inv h
    obtain ⟨w, h3⟩ := hw h1 ks h2
    exact ⟨h1, ks, h2, w, h3, readMemberName_of h3⟩
  · rintro ⟨h1, ks, h2, w, h3, rfl⟩
    rw [assignedMember_some h1 h2, readMemberName_of h3]

/-! What an assignment does to the properties of a class. -/

theorem assignProperty_get (name : Bytes) (types : Union) (ps : List PropertyRec) (i : Nat) (p : PropertyRec)
    (hp : ps[i]? = some p) :
    ∃ ts, (assignProperty name types ps)[i]? = some { p with types := ts } ∧
      ∀ q, q ∈ ts.map Ty.fqn ↔ q ∈ p.types.map Ty.fqn ∨
        (p.name = name ∧ (∀ j < i, ∀ x, ps[j]? = some x → x.name ≠ name) ∧ q ∈ types.map Ty.fqn) := by
  induction ps generalizing i with
  | nil => cases hp
  | cons a ps ih =>
    unfold assignProperty
    by_cases ha : a.name = name
    · rw [if_pos ha]
      cases i with
      | zero =>
        obtain rfl : a = p := by simpa using hp
        refine ⟨_, rfl, fun q => ?_⟩
        rw [Types.C25_merge]
        simp [ha]
      | succ i =>
        refine ⟨p.types, hp, fun q => ⟨.inl, ?_⟩⟩
        rintro (h | ⟨-, h, -⟩)
        · exact h
        · exact absurd ha (h 0 (by omega) a rfl)
    · rw [if_neg ha]
      cases i with
      | zero =>
        obtain rfl : a = p := by simpa using hp
        exact ⟨a.types, rfl, fun q => by simp [ha]⟩
      | succ i =>
        obtain ⟨ts, h1, h2⟩ := ih i hp
        refine ⟨ts, h1, fun q => (h2 q).trans ?_⟩
        refine or_congr Iff.rfl (and_congr Iff.rfl (and_congr ?_ Iff.rfl))
        constructor
        · intro h j hj x hx
          cases j with
          | zero => obtain rfl : a = x := by simpa using hx
                    exact ha
          | succ j => exact h j (by omega) x hx
        · exact fun h j hj x hx => h (j + 1) (by omega) x hx

theorem assignProperty_names (name : Bytes) (types : Union) (ps : List PropertyRec) :
    (assignProperty name types ps).map (·.name) = ps.map (·.name) := by
  induction ps with
  | nil => rfl
  | cons p ps ih =>
    unfold assignProperty
    split
    · rfl
    · simp [ih]

theorem assignProperty_length (name : Bytes) (types : Union) (ps : List PropertyRec) :
    (assignProperty name types ps).length = ps.length := by
  simpa using congrArg List.length (assignProperty_names name types ps)

/-- An event inside of a class, for the properties of the class. -/
def insideStep (ps : List PropertyRec) : PropEvent → List PropertyRec
  | .declare env m n => ps ++ [newProperty env m n]
  | .tagged env t r => ps ++ (propertyFromTag env t r).toList
  | .assign c block n e =>
    match assignedMember c block n with
    | some name => if e.isNil then ps else assignProperty name e.getTypes ps
    | none => ps
  | _ => ps

theorem isNil_types {e : Infer.Expr} (h : e.isNil = true) : e.getTypes = [] := by
  cases e <;> first | rfl | cases h

/-- The events after a property. -/
theorem inside_after (body : List PropEvent) (hin : ∀ e ∈ body, e.isInside) (hw : NamesWritten body) (ps : List PropertyRec)
    (i : Nat) (p : PropertyRec) (hp : ps[i]? = some p) :
    ∃ ts, (body.foldl insideStep ps)[i]? = some { p with types := ts } ∧
      ∀ q, q ∈ ts.map Ty.fqn ↔ q ∈ p.types.map Ty.fqn ∨
        ((∀ j < i, ∀ x, ps[j]? = some x → x.name ≠ p.name) ∧ AssignedType body p.name q) := by
  induction body generalizing ps p with
  | nil => exact ⟨p.types, hp, fun q => by simp [AssignedType]⟩
  | cons e body ih =>
    have hi : i < ps.length := (List.getElem?_eq_some_iff.1 hp).1
    have hin' : ∀ e ∈ body, e.isInside := fun x hx => hin x (List.mem_cons_of_mem _ hx)
    have hw' : NamesWritten body := fun c b n x hx => hw c b n x (List.mem_cons_of_mem _ hx)
    have same : ∀ l : List PropertyRec, (∀ a : Ctx, ∀ b n x, e ≠ .assign a b n x) →
        insideStep ps e = ps ++ l → ∃ ts, ((e :: body).foldl insideStep ps)[i]? = some { p with types := ts } ∧
        ∀ q, q ∈ ts.map Ty.fqn ↔ q ∈ p.types.map Ty.fqn ∨
          ((∀ j < i, ∀ x, ps[j]? = some x → x.name ≠ p.name) ∧ AssignedType (e :: body) p.name q) := by
      intro l hne hl
      obtain ⟨ts, h1, h2⟩ := ih hin' hw' (ps ++ l) p (by rw [List.getElem?_append_left hi]; exact hp)
      refine ⟨ts, by rw [List.foldl_cons, hl]; exact h1, fun q => (h2 q).trans (or_congr Iff.rfl (and_congr ?_ ?_))⟩
      · refine forall_congr' fun j => forall_congr' fun hj => ?_
        rw [List.getElem?_append_left (by omega)]
      · constructor
        · rintro ⟨c, b, n, x, h, h'⟩; exact ⟨c, b, n, x, List.mem_cons_of_mem _ h, h'⟩
        · rintro ⟨c, b, n, x, h, h'⟩
          rcases List.mem_cons.1 h with h | h
          · exact absurd h.symm (hne c b n x)
          · exact ⟨c, b, n, x, h, h'⟩
    cases e with
    | enter => exact (hin _ List.mem_cons_self).elim
    | leave => exact (hin _ List.mem_cons_self).elim
    | declare env m n => exact same _ (by simp) rfl
    | tagged env t r => exact same _ (by simp) rfl
    | assign c b n x =>
      have hiff := fun name => assigned_iff (hw c b n x List.mem_cons_self) name
      have more : ∀ q, AssignedType (.assign c b n x :: body) p.name q ↔
          (AssignsProperty c b n p.name ∧ q ∈ x.getTypes.map Ty.fqn) ∨ AssignedType body p.name q := by
        intro q
        constructor
        · rintro ⟨c', b', n', x', h, h'⟩
          rcases List.mem_cons.1 h with h | h
          · cases h; exact .inl h'
          · exact .inr ⟨c', b', n', x', h, h'⟩
        · rintro (h | ⟨c', b', n', x', h, h'⟩)
          · exact ⟨c, b, n, x, List.mem_cons_self, h⟩
          · exact ⟨c', b', n', x', List.mem_cons_of_mem _ h, h'⟩
      cases ha : assignedMember c b n with
      | none =>
        obtain ⟨ts, h1, h2⟩ := ih hin' hw' ps p hp
        refine ⟨ts, ?_, fun q => (h2 q).trans ?_⟩
        · rw [List.foldl_cons]
          simpa only [insideStep, ha] using h1
        · rw [more, ← hiff, ha]
          simp
      | some name =>
        by_cases hx : x.isNil = true
        · obtain ⟨ts, h1, h2⟩ := ih hin' hw' ps p hp
          refine ⟨ts, ?_, fun q => (h2 q).trans ?_⟩
          · rw [List.foldl_cons]
            simpa only [insideStep, ha, hx, if_true] using h1
          · rw [more, isNil_types hx]
            simp
        · obtain ⟨ts', h1', h2'⟩ := assignProperty_get name x.getTypes ps i p hp
          obtain ⟨ts, h1, h2⟩ := ih hin' hw' (assignProperty name x.getTypes ps) { p with types := ts' } h1'
          refine ⟨ts, ?_, fun q => (h2 q).trans ?_⟩
          · rw [List.foldl_cons]
            simpa only [insideStep, ha, if_neg hx] using h1
          · have names : (∀ j < i, ∀ y, (assignProperty name x.getTypes ps)[j]? = some y → y.name ≠ p.name) ↔
                (∀ j < i, ∀ y, ps[j]? = some y → y.name ≠ p.name) := by
              refine forall_congr' fun j => forall_congr' fun hj => ?_
              have ej := congrArg (fun l => l[j]?) (assignProperty_names name x.getTypes ps)
              simp only [List.getElem?_map] at ej
              constructor
              · intro h y hy
                rw [hy] at ej
                obtain ⟨y', hy', e'⟩ := Option.map_eq_some_iff.1 ej
                rw [← show y'.name = y.name from e']
                exact h y' hy'
              · intro h y hy
                rw [hy] at ej
                obtain ⟨y', hy', e'⟩ := Option.map_eq_some_iff.1 ej.symm
                rw [← show y'.name = y.name from e']
                exact h y' hy'
            simp only
            rw [names, h2', more, ← hiff, ha, Option.some.injEq]
            constructor
            · rintro ((h | ⟨rfl, hf, h⟩) | ⟨hf, h⟩)
              · exact .inl h
              · exact .inr ⟨hf, .inl ⟨rfl, h⟩⟩
              · exact .inr ⟨hf, .inr h⟩
            · rintro (h | ⟨hf, ⟨rfl, h⟩ | h⟩)
              · exact .inl (.inl h)
              · exact .inl (.inr ⟨rfl, hf, h⟩)
              · exact .inr ⟨hf, h⟩

/-- The properties that are declared inside of a class, by their names. -/
theorem inside_names (body : List PropEvent) (ps : List PropertyRec) :
    (body.foldl insideStep ps).map (·.name) = (ps ++ declaredIn body).map (·.name) := by
  induction body generalizing ps with
  | nil => simp [declaredIn]
  | cons e body ih =>
    rw [List.foldl_cons, ih]
    cases e with
    | enter => simp [insideStep, declaredIn]
    | leave => simp [insideStep, declaredIn]
    | declare env m n => simp [insideStep, declaredIn]
    | tagged env t r => simp [insideStep, declaredIn]
    | assign c b n x =>
      simp only [insideStep, declaredIn, List.flatMap_cons, List.nil_append, List.map_append]
      congr 1
      split
      · split
        · rfl
        · exact assignProperty_names _ _ _
      · rfl

/-! The properties of the document. -/

/-- The blocks are classes that have begun, each of them once. -/
structure PropState.OK (s : PropState) : Prop where
  known : ∀ i ∈ s.blocks, i < s.classes.length
  once : s.blocks.Nodup

theorem length_modify {α : Type} (l : List α) (i : Nat) (f : α → α) : (l.modify i f).length = l.length := by simp

theorem add_length (s : PropState) (ps : List PropertyRec) : (s.add ps).classes.length = s.classes.length := by
  unfold PropState.add
  split <;> simp

theorem add_blocks (s : PropState) (ps : List PropertyRec) : (s.add ps).blocks = s.blocks := by
  unfold PropState.add
  split <;> rfl

theorem propStep_ok {s : PropState} (h : s.OK) (e : PropEvent) : (propStep s e).OK := by
  cases e with
  | enter =>
    refine ⟨fun i hi => ?_, ?_⟩
    · simp only [propStep, List.mem_append, List.mem_singleton, List.length_append, List.length_cons, List.length_nil] at hi ⊢
      rcases hi with hi | rfl
      · have := h.known i hi; omega
      · omega
    · simp only [propStep]
      rw [List.nodup_append]
      refine ⟨h.once, by simp, fun a ha b hb => ?_⟩
      obtain rfl := List.mem_singleton.1 hb
      have := h.known a ha
      omega
  | leave => exact ⟨fun i hi => h.known i (List.dropLast_subset _ hi), h.once.sublist (List.dropLast_sublist _)⟩
  | declare env m n =>
    exact ⟨fun i hi => by rw [propStep, add_length]; exact h.known i (by rwa [propStep, add_blocks] at hi),
      by rw [propStep, add_blocks]; exact h.once⟩
  | tagged env t r =>
    exact ⟨fun i hi => by rw [propStep, add_length]; exact h.known i (by rwa [propStep, add_blocks] at hi),
      by rw [propStep, add_blocks]; exact h.once⟩
  | assign c b n x =>
    simp only [propStep]
    split
    · split
      · exact h
      · exact ⟨fun i hi => by simpa using h.known i hi, h.once⟩
    · exact h

theorem run_ok {s : PropState} (h : s.OK) (es : List PropEvent) : (es.foldl propStep s).OK := by
  induction es generalizing s with
  | nil => exact h
  | cons e es ih => exact ih (propStep_ok h e)

theorem run_length (s : PropState) (es : List PropEvent) :
    (es.foldl propStep s).classes.length = s.classes.length + entered es := by
  induction es generalizing s with
  | nil => rfl
  | cons e es ih =>
    rw [List.foldl_cons, ih]
    cases e with
    | enter => simp [propStep, entered]; omega
    | leave => simp [propStep, entered]
    | declare => simp [propStep, entered, add_length]
    | tagged => simp [propStep, entered, add_length]
    | assign =>
      simp only [propStep, entered]
      split
      · split
        · rfl
        · simp
      · rfl

/-- Inside of the class that began last. -/
theorem run_inside (body : List PropEvent) (hin : ∀ e ∈ body, e.isInside) (cs : List (List PropertyRec)) (ps : List PropertyRec)
    (bs : List Nat) :
    body.foldl propStep ⟨cs ++ [ps], bs ++ [cs.length]⟩ = ⟨cs ++ [body.foldl insideStep ps], bs ++ [cs.length]⟩ := by
  have hmod : ∀ (ps : List PropertyRec) f, (cs ++ [ps]).modify cs.length f = cs ++ [f ps] := by
    intro ps f
    clear hin
    induction cs with
    | nil => rfl
    | cons c cs ih => simp [ih]
  induction body generalizing ps with
  | nil => rfl
  | cons e body ih =>
    have hin' : ∀ e ∈ body, e.isInside := fun x hx => hin x (List.mem_cons_of_mem _ hx)
    rw [List.foldl_cons, List.foldl_cons, ← ih hin']
    congr 1
    cases e with
    | enter => exact (hin _ List.mem_cons_self).elim
    | leave => exact (hin _ List.mem_cons_self).elim
    | declare env m n => simp [propStep, PropState.add, insideStep, hmod]
    | tagged env t r => simp [propStep, PropState.add, insideStep, hmod]
    | assign c b n x =>
      simp only [propStep, insideStep]
      split
      · split
        · rfl
        · simp [hmod]
      · rfl

/-- After the class has ended and another one has begun, nothing changes it; before that, only assignments could. -/
theorem run_after (post : List PropEvent) (i : Nat) (s : PropState) (hs : s.OK) (hb : i ∉ s.blocks) (hi : i < s.classes.length)
    (hlast : i + 1 < s.classes.length ∨ NoMoreAssigned post) :
    (post.foldl propStep s).classes[i]? = s.classes[i]? := by
  induction post generalizing s with
  | nil => rfl
  | cons e post ih =>
    rw [List.foldl_cons]
    have hadd : ∀ ps, (s.add ps).classes[i]? = s.classes[i]? := by
      intro ps
      unfold PropState.add
      split
      · rename_i j hj
        have : j ≠ i := fun e => hb (e ▸ List.mem_of_getLast? hj)
        simp [this]
      · rfl
    have hok := propStep_ok hs e
    cases e with
    | enter =>
      rw [ih _ hok]
      · simp [propStep, List.getElem?_append_left hi]
      · simp only [propStep, List.mem_append, List.mem_singleton, not_or]
        exact ⟨hb, by omega⟩
      · simp [propStep]; omega
      · left; simp [propStep]; omega
    | leave =>
      rw [ih _ hok]
      · rfl
      · exact fun h => hb (List.dropLast_subset _ h)
      · exact hi
      · exact hlast
    | declare env m n =>
      rw [ih _ hok]
      · exact hadd _
      · rw [propStep, add_blocks]; exact hb
      · rw [propStep, add_length]; exact hi
      · rw [propStep, add_length]; exact hlast
    | tagged env t r =>
      rw [ih _ hok]
      · exact hadd _
      · rw [propStep, add_blocks]; exact hb
      · rw [propStep, add_length]; exact hi
      · rw [propStep, add_length]; exact hlast
    | assign c b n x =>
      rcases hlast with hlast | ⟨hnone, hlast⟩
      · have key : (propStep s (.assign c b n x)).classes[i]? = s.classes[i]? ∧
            (propStep s (.assign c b n x)).blocks = s.blocks ∧
            (propStep s (.assign c b n x)).classes.length = s.classes.length := by
          simp only [propStep]
          split
          · split
            · exact ⟨rfl, rfl, rfl⟩
            · refine ⟨?_, rfl, by simp⟩
              have : s.classes.length - 1 ≠ i := by omega
              simp [this]
          · exact ⟨rfl, rfl, rfl⟩
        rw [ih _ hok (by rw [key.2.1]; exact hb) (by rw [key.2.2]; exact hi) (by rw [key.2.2]; exact .inl hlast)]
        exact key.1
      · have : propStep s (.assign c b n x) = s := by
          simp only [propStep, assignedMember_none hnone]
        rw [this]
        exact ih s hs hb hi (.inr hlast)

theorem at_class (pre body post : List PropEvent) (hin : ∀ e ∈ body, e.isInside) (hpost : NoMoreAssigned post) :
    (propertiesOf (pre ++ .enter :: (body ++ .leave :: post)))[entered pre]? = some (body.foldl insideStep []) := by
  have hok : (pre.foldl propStep ⟨[], []⟩).OK := run_ok ⟨by simp, List.nodup_nil⟩ pre
  have hlen : (pre.foldl propStep ⟨[], []⟩).classes.length = entered pre := by
    rw [run_length]; simp
  unfold propertiesOf
  rw [List.foldl_append, List.foldl_cons, List.foldl_append, List.foldl_cons]
  generalize hs0 : pre.foldl propStep ⟨[], []⟩ = s0 at hok hlen
  have hok1 : (body.foldl propStep (propStep s0 .enter)).OK := run_ok (propStep_ok hok _) _
  have hrun : body.foldl propStep (propStep s0 .enter) =
      ⟨s0.classes ++ [body.foldl insideStep []], s0.blocks ++ [s0.classes.length]⟩ := run_inside body hin s0.classes [] s0.blocks
  have hok2 := propStep_ok hok1 .leave
  rw [hrun] at hok2 ⊢
  rw [run_after post (entered pre) _ hok2]
  · simp [propStep, ← hlen]
  · simp only [propStep, List.dropLast_concat]
    intro h
    have := hok.known _ h
    omega
  · simp [propStep, hlen]
  · exact .inr hpost

/-! ### Theorems -/

/-- C144: the types of a property are those of its declaration and those of what the constructor assigns to it. The class
begins after `pre` and ends before `post`; `b1` are its properties and constructor up to the property, `b2` those behind it. No
class is inside of it. The types go to the first property of that name, and only from assignments behind the property. -/
theorem C144_types (pre b1 b2 post : List PropEvent) (env : Env) (m : Modifiers) (n : Node)
    (hin : ∀ e ∈ b1 ++ b2, e.isInside) (hw : NamesWritten b2) (hpost : NoMoreAssigned post) :
    ∃ ps p, (propertiesOf (pre ++ .enter :: (b1 ++ .declare env m n :: b2 ++ .leave :: post)))[entered pre]? = some ps ∧
      ps[(declaredIn b1).length]? = some p ∧ p.name = (newProperty env m n).name ∧ p.range = env.ctx.range n ∧
      ∀ q, q ∈ p.types.map Ty.fqn ↔ q ∈ (newProperty env m n).types.map Ty.fqn ∨
        ((∀ x ∈ declaredIn b1, x.name ≠ p.name) ∧ AssignedType b2 p.name q) := by
  have hin' : ∀ e ∈ b1 ++ .declare env m n :: b2, e.isInside := by
    intro e he
    rcases List.mem_append.1 he with h | h
    · exact hin e (List.mem_append_left _ h)
    · rcases List.mem_cons.1 h with rfl | h
      · trivial
      · exact hin e (List.mem_append_right _ h)
  have hnames : (b1.foldl insideStep []).map (·.name) = (declaredIn b1).map (·.name) := by
    simpa using inside_names b1 []
  have hlen : (b1.foldl insideStep []).length = (declaredIn b1).length := by simpa using congrArg List.length hnames
  obtain ⟨ts, h1, h2⟩ := inside_after b2 (fun e he => hin e (List.mem_append_right _ he)) hw
    (b1.foldl insideStep [] ++ [newProperty env m n]) (declaredIn b1).length (newProperty env m n) (by simp [← hlen])
  refine ⟨_, { newProperty env m n with types := ts }, at_class pre _ post hin' hpost, ?_, rfl, ?_, fun q => (h2 q).trans ?_⟩
  · rw [List.foldl_append, List.foldl_cons]
    exact h1
  · unfold newProperty
    simp only
    split
    · unfold PropertyRec.applyDoc
      simp only
      split <;> rfl
    · rfl
  · refine or_congr Iff.rfl (and_congr ?_ Iff.rfl)
    constructor
    · intro h x hx
      obtain ⟨j, hj⟩ := List.mem_iff_getElem?.1 hx
      have hjl := (List.getElem?_eq_some_iff.1 hj).1
      have ej := congrArg (fun l => l[j]?) hnames
      simp only [List.getElem?_map, hj, Option.map_some] at ej
      obtain ⟨y, hy, e⟩ := Option.map_eq_some_iff.1 ej
      rw [← e]
      exact h j hjl y (by rw [List.getElem?_append_left (by omega)]; exact hy)
    · intro h j hj y hy
      rw [List.getElem?_append_left (by omega)] at hy
      have ej := congrArg (fun l => l[j]?) hnames
      simp only [List.getElem?_map, hy, Option.map_some] at ej
      obtain ⟨x, hx, e⟩ := Option.map_eq_some_iff.1 ej.symm
      rw [← e]
      exact h x (List.mem_of_getElem? hx)

end Verif.Decl
