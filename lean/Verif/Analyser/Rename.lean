import Verif.Analyser.Sound
import Verif.Analyser.PropsFind
import Verif.Symbols.PropsLookup

/-!
Renaming a variable (`internal/lsp/reference.go` 89-120).
-/

namespace Verif.Analyser
open Verif.Symbols (Tree Var Rec Info)
open Verif.Position (Before)

/-! ### model -/

mutual

/-- `GetVariableTableAt` (`document.go:324-341`) with the recordings of the tables; `Symbols.findScope` is the same
without them. -/
def scopeAt (pos : Pos) : Tree (Rng × List Rec) → Tree (Rng × List Rec)
  | .node x kids => (scopeAtIn pos kids).getD (.node x kids)

/-- The loop over the children (`document.go:330-334`). -/
def scopeAtIn (pos : Pos) : List (Tree (Rng × List Rec)) → Option (Tree (Rng × List Rec))
  | [] => none
  | t :: ts => if isInRange pos t.info.1 = 0 then some (scopeAt pos t) else scopeAtIn pos ts

end

/-- The edits for the document in the answer of `rename` (`lsp/reference.go:99-119`), once the document is found: for
every recorded variable of that name (`GetContextualVariables`, `variable.go:236-242`) its range and the new text. Only
variables are renamed. -/
def rename (c : Ctx) (root : Node) (pos : Pos) (newName : Bytes) : List (Rng × Bytes) :=
  match Symbols.hasTypesAtPos (infosOf c root) pos with
  | some s =>
    if s.info.kind = .variable then
      ((GoMap.get (Symbols.record (scopeAt pos (scopesOf c root)).info.2) s.info.tag).getD []).map fun x => (x.v.range, newName)
    else []
  | none => []

/-! ### the table at a position -/

mutual

theorem rangeTree_scopeAt (pos : Pos) : ∀ t : Tree (Rng × List Rec), rangeTree (scopeAt pos t) = Symbols.findScope pos (rangeTree t)
  | .node x kids => by
    rw [scopeAt, rangeTree, Symbols.findScope, ← rangeTrees_scopeAt pos kids]
    cases scopeAtIn pos kids <;> rfl

theorem rangeTrees_scopeAt (pos : Pos) : ∀ ts : List (Tree (Rng × List Rec)),
    (scopeAtIn pos ts).map rangeTree = Symbols.findScopeIn pos (rangeTrees ts)
  | [] => rfl
  | t :: ts => by
    rw [scopeAtIn, rangeTrees, Symbols.findScopeIn, rangeTree_info]
    split
    · rw [Option.map_some, rangeTree_scopeAt pos t]
    · exact rangeTrees_scopeAt pos ts

end

mutual

/-- It is one of the tables, and it contains the position if it is not the first one. -/
theorem scopeAt_mem (pos : Pos) : ∀ t : Tree (Rng × List Rec),
    (scopeAt pos t).info ∈ scopeTree t ∧ (scopeAt pos t = t ∨ Symbols.Inside pos (scopeAt pos t).info.1)
  | .node x kids => by
    rw [scopeAt, scopeTree]
    cases h : scopeAtIn pos kids with
    | none => exact ⟨by simp [Tree.info], .inl rfl⟩
    | some u =>
      obtain ⟨h1, h2⟩ := scopeAtIn_mem pos kids u h
      exact ⟨List.mem_cons_of_mem _ h1, .inr h2⟩

theorem scopeAtIn_mem (pos : Pos) : ∀ (ts : List (Tree (Rng × List Rec))) (u : Tree (Rng × List Rec)), scopeAtIn pos ts = some u →
    u.info ∈ scopeList ts ∧ Symbols.Inside pos u.info.1
  | [], u, h => by cases h
  | t :: ts, u, h => by
    rw [scopeAtIn] at h
    rw [scopeList, List.mem_append]
    split at h
    · next hr =>
      injection h with h
      subst h
      obtain ⟨h1, h2⟩ := scopeAt_mem pos t
      refine ⟨.inl h1, ?_⟩
      rcases h2 with h2 | h2
      · rw [h2]; exact (Symbols.rel_zero _ _).mp hr
      · exact h2
    · obtain ⟨h1, h2⟩ := scopeAtIn_mem pos ts u h
      exact ⟨.inr h1, h2⟩

end

/-! ### the symbol at a position -/

mutual

/-- What is found is a symbol with types that touches the position. -/
theorem atPos_block (pos : Pos) (G : Tree Info → Prop) : ∀ (t : Tree Info) (spine : List (Tree Info)) (x : Option (Tree Info)) (v : Symbols.Trav),
    (∀ s, Symbols.Within t s.info → s.info.hasTypes = true → Symbols.Touches pos s.info.range → G s) → (∀ s, x = some s → G s) →
    ∀ s, (Symbols.traverseBlock (Symbols.atPosVisitor pos) spine x v t).1 = some s → G s
  | .node a kids, spine, x, v, hG, hx, s, h => by
    have hf : ∀ s, (Symbols.atPosVisitor pos x v (spine ++ [.node a kids])).1 = some s → G s := by
      intro s hs
      rw [Symbols.atPosVisitor, List.getLast?_append] at hs
      simp only [List.getLast?_singleton, Option.some_or] at hs
      split at hs
      · next hr =>
        dsimp only at hs
        split at hs
        · next ht =>
          injection hs with hs
          subst hs
          refine hG _ (.root _ _) ht ?_
          rcases hr with hr | ⟨hr, he⟩
          · have := (Symbols.rel_zero _ _).mp hr
            exact ⟨this.1, fun hb => Symbols.before_irrefl (Symbols.before_trans this.2 hb)⟩
          · exact ⟨((Symbols.rel_pos _ _).mp hr).1, by rw [((Position.C50_compare pos _).2.1).mp he]; exact Symbols.before_irrefl⟩
        · exact hx s hs
      · split at hs
        · exact hx s hs
        · split at hs <;> exact hx s hs
    rw [Symbols.traverseBlock] at h
    dsimp only at h
    split at h
    · exact hf s h
    · dsimp only at h
      split at h
      · exact atPos_all pos G kids _ _ _ (fun t ht s hw => hG s (.kid ht hw)) hf s h
      · exact hf s h

theorem atPos_all (pos : Pos) (G : Tree Info → Prop) : ∀ (ts : List (Tree Info)) (spine : List (Tree Info)) (x : Option (Tree Info)) (v : Symbols.Trav),
    (∀ t ∈ ts, ∀ s, Symbols.Within t s.info → s.info.hasTypes = true → Symbols.Touches pos s.info.range → G s) → (∀ s, x = some s → G s) →
    ∀ s, (Symbols.traverseAll (Symbols.atPosVisitor pos) spine x v ts).1 = some s → G s
  | [], _, _, _, _, hx, s, h => hx s h
  | t :: ts, spine, x, v, hG, hx, s, h => by
    have hf := atPos_block pos G t spine x v (hG t (by simp)) hx
    rw [Symbols.traverseAll] at h
    split at h
    · exact hf s h
    · exact atPos_all pos G ts _ _ _ (fun u hu => hG u (by simp [hu])) hf s h

end

mutual

theorem within_info : ∀ (t : Tree Sym) (i : Info), Symbols.Within (infoTree t) i → ∃ s ∈ flatTree t, infoOf s = i
  | .node s kids, i, h => by
    rw [infoTree] at h
    cases h with
    | root => exact ⟨s, by simp [flatTree], rfl⟩
    | kid hc hw =>
      obtain ⟨s', h1, h2⟩ := within_infos kids i _ hc hw
      exact ⟨s', by rw [flatTree]; exact List.mem_cons_of_mem _ h1, h2⟩

theorem within_infos : ∀ (ts : List (Tree Sym)) (i : Info) (u : Tree Info), u ∈ infoTrees ts → Symbols.Within u i → ∃ s ∈ flat ts, infoOf s = i
  | [], i, u, hu, _ => by simp [infoTrees] at hu
  | t :: ts, i, u, hu, h => by
    rw [infoTrees] at hu
    rw [flat]
    rcases List.mem_cons.mp hu with rfl | hu
    · obtain ⟨s, h1, h2⟩ := within_info t i h
      exact ⟨s, List.mem_append_left _ h1, h2⟩
    · obtain ⟨s, h1, h2⟩ := within_infos ts i u hu h
      exact ⟨s, List.mem_append_right _ h1, h2⟩

end

/-- The symbol that is found at a position is a symbol of the document there. -/
theorem atPos_symbol {c : Ctx} {root : Node} {pos : Pos} {t : Tree Info} (h : Symbols.hasTypesAtPos (infosOf c root) pos = some t) :
    ∃ s, IsSymbol c root s ∧ infoOf s = t.info ∧ Symbols.Touches pos s.range := by
  refine atPos_all pos (fun t => ∃ s, IsSymbol c root s ∧ infoOf s = t.info ∧ Symbols.Touches pos s.range) (infosOf c root) [] none .new ?_
    (by simp) t h
  intro u hu s hw _ ht
  obtain ⟨s', h1, h2⟩ := within_infos _ _ u hu hw
  refine ⟨s', h1, h2, ?_⟩
  rw [← h2] at ht
  exact ht

end Verif.Analyser
