import Verif.Analyser.PropsRename
import Verif.Store.Model

/-!
C96: the completion of variables (`internal/lsp/completion.go` 181-212) in an analysed document.
-/

namespace Verif.Analyser
open Verif.Symbols (Tree Var Rec Info Inside Touches IsLatest)
open Verif.Position (Before)

/-! ### model -/

/-- The labels of the items of `variableCompletion` (`completion.go:181-212`), which are also the texts that are inserted.
A document that is analysed always has a table of variables (185-187). The order is that of a Go map. Descriptions and types
are not modelled. -/
def variableCompletion (c : Ctx) (root : Node) (pos : Pos) (word : Bytes) : List Bytes :=
  let symbol := (Symbols.hasTypesAtPos (infosOf c root) pos).map (·.info.range)
  ((Symbols.VarTable.getVariables (Symbols.record (scopeAt pos (scopesOf c root)).info.2) pos).filter fun v =>
    !(v.name == b!"$") && !(symbol == some v.range) && (word == [] || Store.containsB v.name word)).map (·.name)

/-! ### lemmas -/

theorem containsB_iff (s sub : Bytes) : Store.containsB s sub = true ↔ sub <:+: s := by
  unfold Store.containsB
  rw [List.any_eq_true]
  constructor
  · rintro ⟨i, -, h⟩
    exact (List.isPrefixOf_iff_prefix.mp h).isInfix.trans (List.drop_suffix i s).isInfix
  · rintro ⟨a, b, h⟩
    refine ⟨a.length, ?_, ?_⟩
    · rw [List.mem_range, ← h]; simp; omega
    · rw [List.isPrefixOf_iff_prefix, ← h, List.append_assoc, List.drop_left]
      exact List.prefix_append _ _

section
variable {c : Ctx} {root : Node} {pos : Pos} {word name : Bytes}

theorem latest_name {rs : List Rec} {P : Pos → Prop} {v : Var} (h : IsLatest rs name P (some v)) : v.name = name := by
  rcases h with ⟨h, _⟩ | ⟨k, r, hr, hv, _⟩
  · cases h
  · cases hv; exact hr.2

theorem mem_variableCompletion : name ∈ variableCompletion c root pos word ↔
    name ≠ b!"$" ∧ word <:+: name ∧
      ∃ v, IsLatest (scopeAt pos (scopesOf c root)).info.2 name (fun s => Before s pos) (some v) ∧
        ∀ s, Symbols.hasTypesAtPos (infosOf c root) pos = some s → s.info.range ≠ v.range := by
  unfold variableCompletion
  simp only [List.mem_map, List.mem_filter, (Symbols.C45_offered _ pos).1, Bool.and_eq_true, Bool.or_eq_true, Bool.not_eq_true',
    beq_eq_false_iff_ne, beq_iff_eq, containsB_iff]
  constructor
  · rintro ⟨v, ⟨h1, ⟨h2, h3⟩, h4⟩, rfl⟩
    refine ⟨h2, ?_, v, h1, ?_⟩
    · rcases h4 with h4 | h4
      · rw [h4]; exact List.nil_infix
      · exact h4
    · intro s hs he
      rw [hs] at h3
      exact h3 (by rw [Option.map_some, he])
  · rintro ⟨h1, h2, v, h3, h4⟩
    have hn := latest_name h3
    refine ⟨v, ⟨by rw [hn]; exact h3, ⟨by rw [hn]; exact h1, ?_⟩, .inr (by rw [hn]; exact h2)⟩, hn⟩
    intro he
    cases hs : Symbols.hasTypesAtPos (infosOf c root) pos with
    | none => rw [hs] at he; cases he
    | some s =>
      rw [hs, Option.map_some] at he
      exact h4 s hs (Option.some.inj he)

/-- Positions in the text are ordered. -/
theorem before_total (a b : Pos) : Before a b ∨ a = b ∨ Before b a := by
  obtain ⟨al, ac⟩ := a
  obtain ⟨bl, bc⟩ := b
  simp only [Before, Pos.mk.injEq]
  omega

/-- Among the recordings of a name that start before a position there is a latest one. -/
theorem latest_exists (rs : List Rec) (name : Bytes) (pos : Pos) {x : Rec} (hx : x ∈ rs) (hn : x.v.name = name)
    (hb : Before x.start pos) : ∃ v, IsLatest rs name (fun s => Before s pos) (some v) ∧ ∃ y ∈ rs, y.v = v ∧ y.v.name = name := by
  obtain ⟨k, hk⟩ := List.getElem?_of_mem hx
  obtain ⟨h1, h2⟩ := Symbols.C45_offered rs pos
  -- the lookup right before the position
  obtain ⟨P, hP⟩ := Symbols.record_inv rs name
  have key := Symbols.latest_of_search hP (fun c => decide (comparePos c.start pos ≥ 0)) (fun s => Before s pos)
    (by intro c; rw [← Symbols.cmp_neg]; simp)
    (by
      intro a b hb hab
      rcases Symbols.before_or hab with h | h
      · exact Symbols.before_trans h hb
      · rw [h]; exact hb)
  rcases key with ⟨-, hno⟩ | ⟨j, r, hr, hv, hb', hm⟩
  · exact absurd hb (hno k x ⟨hk, hn⟩)
  · exact ⟨r.v, .inr ⟨j, r, hr, rfl, hb', hm⟩, r, List.mem_of_getElem? hr.1, rfl, hr.2⟩

mutual

theorem scopeTree_within : ∀ (t : Tree (Rng × List Rec)) (x : Rng × List Rec), x ∈ scopeTree t → Symbols.Within t x
  | .node y kids, x, h => by
    rw [scopeTree, List.mem_cons] at h
    rcases h with rfl | h
    · exact .root ..
    · obtain ⟨u, hu, hw⟩ := scopeList_within kids x h
      exact .kid hu hw

theorem scopeList_within : ∀ (ts : List (Tree (Rng × List Rec))) (x : Rng × List Rec), x ∈ scopeList ts →
    ∃ u ∈ ts, Symbols.Within u x
  | [], x, h => by simp [scopeList] at h
  | t :: ts, x, h => by
    rw [scopeList, List.mem_append] at h
    rcases h with h | h
    · exact ⟨t, by simp, scopeTree_within t x h⟩
    · obtain ⟨u, hu, hw⟩ := scopeList_within ts x h
      exact ⟨u, by simp [hu], hw⟩

end

/-- No variable counts from before its end. -/
theorem counts_after (hp : Parsed c root) {x : Rec} (hx : x ∈ (scopeAt pos (scopesOf c root)).info.2) : Le x.v.range.stop x.start := by
  obtain ⟨lo, hi, R, T, -, -, -, -, h5, h6, h7⟩ := hp.facts
  have hw := scopeTree_within _ _ (scopeAt_mem pos (scopesOf c root)).1
  rw [h5] at hw
  obtain ⟨lo', hi', hr⟩ := within_recs (.node (c.range root, R) T) lo hi h6 ⟨_, _, h7⟩ _ hw
  exact hr.counts x (by rw [h5] at hx; exact hx)

/-! ### C96 -/

/-- C96: a variable is offered exactly if it is not a lone `$`, the word before the cursor is part of its name, and a variable
of that name counts from before the cursor in the table of the function around it. -/
theorem C96_exact (hp : Parsed c root) (pos : Pos) (word name : Bytes) : name ∈ variableCompletion c root pos word ↔
    name ≠ b!"$" ∧ word <:+: name ∧ ∃ x ∈ (scopeAt pos (scopesOf c root)).info.2, x.v.name = name ∧ Before x.start pos := by
  rw [mem_variableCompletion]
  refine and_congr_right fun _ => and_congr_right fun _ => ?_
  constructor
  · rintro ⟨v, hv, -⟩
    rcases hv with ⟨hv, -⟩ | ⟨k, r, hr, -, hb, -⟩
    · cases hv
    · exact ⟨r, List.mem_of_getElem? hr.1, hr.2, hb⟩
  · rintro ⟨x, hx, hn, hb⟩
    obtain ⟨v, hv, -⟩ := latest_exists _ _ pos hx hn hb
    refine ⟨v, hv, fun s hs he => ?_⟩
    rcases hv with ⟨hv, -⟩ | ⟨k, r, hr, hrv, hb', -⟩
    · cases hv
    · injection hrv with hrv
      have h1 := counts_after hp (List.mem_of_getElem? hr.1)
      obtain ⟨s', -, h2, h3⟩ := atPos_symbol hs
      have h4 : s'.range = v.range := by rw [← he, ← h2]; rfl
      rw [h4, hrv] at h3
      rcases before_total r.v.range.stop r.start with h | h | h
      · exact h3.2 (Symbols.before_trans h hb')
      · exact h3.2 (by rw [h]; exact hb')
      · exact h1 h

/-- C96: no variable is offered twice. -/
theorem C96_once (c : Ctx) (root : Node) (pos : Pos) (word : Bytes) : (variableCompletion c root pos word).Nodup := by
  unfold variableCompletion
  rw [List.Nodup, List.pairwise_map]
  exact (Symbols.C45_offered _ pos).2.filter _

/-- C96: every variable that is offered is written in the document before the cursor, and belongs to a function around the
cursor or to the document. (Parameters that lack their name after a syntax error have the empty name.) -/
theorem C96_written (hp : Parsed c root) (h : name ∈ variableCompletion c root pos word) :
    ∃ n f, BelongsTo c root n f ∧ (f = c.range root ∨ Inside pos f) ∧ Before (c.range n).stop pos ∧
      (n.isVariable = true ∧ c.nodeText n = name ∨ n.isPhrase .parameterDeclaration = true ∧ name = []) := by
  obtain ⟨-, -, x, hx, hxn, hb⟩ := (C96_exact hp pos word name).mp h
  obtain ⟨n, hbel, hr, hn⟩ := rec_belongs hx
  refine ⟨n, _, hbel, ?_, ?_, by rw [← hxn]; exact hn⟩
  · rcases (scopeAt_mem pos (scopesOf c root)).2 with h | h
    · left
      rw [h]
      exact ((closed_grow c True True).analyse (σ := ()) root (fun _ _ => trivial) (fun _ _ _ => trivial) fun _ => trivial).vars.range
    · exact .inr h
  · rw [hr]
    have h1 := counts_after hp hx
    rcases before_total x.v.range.stop x.start with h | h | h
    · exact Symbols.before_trans h hb
    · rw [h]; exact hb
    · exact absurd h h1

end

/-! ### examples -/

open Src in
/-- A function with two variables and an unfinished use, and a variable outside. -/
def sampleTyping : Src := doc [
  stmt (assign (var b!"$aOut") (num b!"1")),
  funDecl b!"f" [param b!"$apple"] [
    stmt (assign (var b!"$ape") (var b!"$apple")),
    stmt (assign (var b!"$b") (num b!"1")),
    ret (call b!"g" [var b!"$ap"])]]

example : sampleTyping.text = b!"<?php\n$aOut = 1;function f($apple){$ape = $apple;$b = 1;return g($ap);}" := by decide +kernel

theorem sampleTyping_parsed : Parsed sampleTyping.ctx sampleTyping.root := Src.parsed _ (by decide +kernel)

/-- With the cursor after `$ap`, the parameter and the variable that begin with it are offered, once each; not `$b`, not the
variable outside, not `$ap` itself. -/
example : variableCompletion sampleTyping.ctx sampleTyping.root ⟨1, 62⟩ b!"ap" = [b!"$apple", b!"$ape"] ∧
    ((scopeAt ⟨1, 62⟩ (scopesOf sampleTyping.ctx sampleTyping.root)).info.2.map fun x => (x.v.name, decide (comparePos x.start ⟨1, 62⟩ < 0))) =
      [(b!"$apple", true), (b!"$apple", true), (b!"$ape", true), (b!"$b", true), (b!"$ap", false)] := by
  decide +kernel

/-- In an assignment the variable that is assigned does not count yet: in `$ape = $apple` it is not offered. -/
example : variableCompletion sampleTyping.ctx sampleTyping.root ⟨1, 39⟩ b!"" = [b!"$apple"] := by decide +kernel

end Verif.Analyser
