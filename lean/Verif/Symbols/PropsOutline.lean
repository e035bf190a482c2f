import Verif.Symbols.Outline
import Verif.Symbols.PropsTree

/-! C43: the document outline. -/

namespace Verif.Symbols
variable {α : Type}

mutual
/-- For each symbol, itself last, what is known about the symbols above it. -/
def chainsOf (anc : List α) : Tree α → List (List α)
  | .node a kids => (anc ++ [a]) :: chainsAll (anc ++ [a]) kids
def chainsAll (anc : List α) : List (Tree α) → List (List α)
  | [] => []
  | s :: ss => chainsOf anc s ++ chainsAll anc ss
end

mutual
theorem chains_block (ts : List (Tree α)) : ∀ (s : Tree α) (p : Path) (spine : List (Tree α)),
    spineAt ts p = some (spine ++ [s]) → (pathsOf p s).map (infosAt ts) = chainsOf (spine.map Tree.info) s
  | .node a kids, p, spine, hs => by
    have h := chains_all ts kids p 0 (spine ++ [.node a kids])
      (fun j k hj => by rw [Nat.zero_add]; exact spineAt_snoc ts p j spine (.node a kids) k hs hj)
    simp only [pathsOf, List.map_cons, chainsOf, h]
    simp [infosAt, hs, Tree.info]
theorem chains_all (ts : List (Tree α)) : ∀ (ss : List (Tree α)) (p : Path) (i : Nat) (spine : List (Tree α)),
    (∀ j k, ss[j]? = some k → spineAt ts (p ++ [i + j]) = some (spine ++ [k])) →
    (pathsFrom p i ss).map (infosAt ts) = chainsAll (spine.map Tree.info) ss
  | [], p, i, spine, hs => rfl
  | s :: ss, p, i, spine, hs => by
    simp only [pathsFrom, List.map_append, chainsAll]
    rw [chains_block ts s (p ++ [i]) spine (hs 0 s rfl),
      chains_all ts ss p (i + 1) spine
        (fun j k hj => by have := hs (j + 1) k hj; rw [← this]; congr 3; omega)]
end

theorem chains_paths (ts : List (Tree α)) : (pathsFrom [] 0 ts).map (infosAt ts) = chainsAll [] ts := by
  have := chains_all ts ts [] 0 [] (fun j k hj => by simp [spineAt, hj])
  simpa using this

/-- What is kept of a chain in the outline. -/
def keep (c : List Sym) : Option (List Entry) :=
  if (c.getLast?.map Declares).getD false then some ((c.filter Declares).map entryOf) else none

theorem entryOf_kind (s : Sym) : (entryOf s).kind = 0 ↔ Declares s = false := by
  unfold entryOf Declares
  cases s.kind <;> simp

mutual
theorem outline_block : ∀ (s : Tree Sym) (anc : List Sym),
    chainsAll ((anc.filter Declares).map entryOf)
      (if (toDocumentSymbol s).info.kind = 0 then (toDocumentSymbol s).kids else [toDocumentSymbol s])
      = (chainsOf anc s).filterMap keep
  | .node a kids, anc => by
    have h := outline_all kids (anc ++ [a])
    simp only [toDocumentSymbol, Tree.info, Tree.kids, entryOf_kind, chainsOf, List.filterMap_cons]
    by_cases hd : Declares a = false
    · have hk : keep (anc ++ [a]) = none := by simp [keep, hd]
      simp only [hd, if_true, hk]
      rw [← h]
      simp [hd]
    · have hd' : Declares a = true := by simpa using hd
      have hk : keep (anc ++ [a]) = some (((anc ++ [a]).filter Declares).map entryOf) := by simp [keep, hd']
      simp only [hd', Bool.true_eq_false, if_false, hk, chainsAll, chainsOf, List.append_nil]
      rw [← h]
      simp [hd']
theorem outline_all : ∀ (ss : List (Tree Sym)) (anc : List Sym),
    chainsAll ((anc.filter Declares).map entryOf) (toDocumentSymbols ss) = (chainsAll anc ss).filterMap keep
  | [], anc => rfl
  | s :: ss, anc => by
    have happ : ∀ (c : List Entry) (xs ys : List (Tree Entry)), chainsAll c (xs ++ ys) = chainsAll c xs ++ chainsAll c ys := by
      intro c xs ys
      induction xs with
      | nil => rfl
      | cons x xs ih => simp [chainsAll, ih]
    simp only [toDocumentSymbols, happ, chainsAll, List.filterMap_append, outline_block s anc, outline_all ss anc]
end

theorem shows_entryOf (s : Sym) (h : Declares s = true) : Shows (entryOf s) s := by
  unfold Shows entryOf
  unfold Declares at h
  cases hk : s.kind <;> simp_all

/-- C43. Take the declarations of a document in the order of the text and, for each of them, the declarations it is
in, outermost first and itself last. The outline in its own order consists of the entries showing these, one for
each, and each entry has above it exactly the entries of the declarations around it. -/
theorem C43_outline (doc : List (Tree Sym)) :
    ∃ ps qs : List Path, InOrder ps ∧ (∀ p, p ∈ ps ↔ Valid doc p) ∧
      InOrder qs ∧ (∀ q, q ∈ qs ↔ Valid (documentSymbol doc) q) ∧
      Correspond (Correspond Shows)
        (qs.map (infosAt (documentSymbol doc)))
        (((ps.map (infosAt doc)).filter (fun c => (c.getLast?.map Declares).getD false)).map (·.filter Declares)) := by
  refine ⟨pathsFrom [] 0 doc, pathsFrom [] 0 (documentSymbol doc), pathsFrom_sorted _ _ _, mem_paths doc,
    pathsFrom_sorted _ _ _, mem_paths _, ?_⟩
  rw [chains_paths, chains_paths]
  have h := outline_all doc []
  simp only [List.filter_nil, List.map_nil] at h
  rw [documentSymbol, h]
  generalize chainsAll [] doc = cs
  have hshow : ∀ c : List Sym, Correspond Shows ((c.filter Declares).map entryOf) (c.filter Declares) := by
    intro c
    induction c with
    | nil => exact .nil
    | cons a c ih =>
      by_cases ha : Declares a = true
      · simp only [List.filter_cons, ha, if_true, List.map_cons]
        exact .cons (shows_entryOf a ha) ih
      · simp only [List.filter_cons, ha]
        exact ih
  induction cs with
  | nil => exact .nil
  | cons c cs ih =>
    simp only [List.filterMap_cons, List.filter_cons, keep] at ih ⊢
    split
    · rename_i hc
      split at hc
      · cases hc
      · rename_i h'
        simp only [h', Bool.false_eq_true, if_false]; exact ih
    · rename_i e hc
      split at hc
      · rename_i h'
        simp only [h', if_true, List.map_cons]
        cases hc
        exact .cons (hshow c) ih
      · cases hc

/-- A class with a method in which a function is declared inside the argument of a call. -/
def exOutline : List (Tree Sym) :=
  [.node ⟨.class_, b!"A", [], ⟨⟨0, 0⟩, ⟨9, 1⟩⟩⟩
    [.node ⟨.property, b!"$p", [], ⟨⟨1, 0⟩, ⟨1, 9⟩⟩⟩ [],
     .node ⟨.method, b!"m", b!"text", ⟨⟨2, 0⟩, ⟨8, 1⟩⟩⟩
      [.node ⟨.other, [], [], ⟨⟨3, 0⟩, ⟨7, 1⟩⟩⟩
        [.node ⟨.other, [], [], ⟨⟨4, 0⟩, ⟨6, 1⟩⟩⟩ [.node ⟨.function, b!"f", [], ⟨⟨5, 0⟩, ⟨5, 9⟩⟩⟩ []]]]],
   .node ⟨.other, [], [], ⟨⟨10, 0⟩, ⟨11, 0⟩⟩⟩ [.node ⟨.define, b!"D", [], ⟨⟨10, 1⟩, ⟨10, 5⟩⟩⟩ []]]

/-- Non-vacuity: the outline of the example. -/
example : (pathsFrom [] 0 (documentSymbol exOutline)).map (fun q => (infosAt (documentSymbol exOutline) q).map (·.name))
    = [[b!"A"], [b!"A", b!"$p"], [b!"A", b!"m"], [b!"A", b!"m", b!"f"], [b!"D"]] := by decide +kernel

end Verif.Symbols
