import Verif.Server.Workspace
import Verif.Common.Tactics
import Mathlib.Data.List.Induction
import Mathlib.Data.List.Nodup

/-! C39: files are routed to the folder that contains them. C61: folders can be added and removed. -/

namespace Verif.Server

/-! ### specification -/

/-- `uri` is the folder itself or lies below it. -/
def Inside (folder uri : Bytes) : Prop := uri = folder ∨ folder ++ [47] <+: uri

/-- The folder was added and not removed since. -/
def Served (h : List WEv) (f : Bytes) : Prop := ∃ pre post, h = pre ++ .add f :: post ∧ .remove f ∉ post

/-! ## C39 -/

theorem getStore_some {w : WS} {u f : Bytes} (h : w.getStore u = some f) : f ∈ w.stores ∧ f <+: u := by
  unfold WS.getStore at h
  exact ⟨List.mem_of_find?_eq_some h, by simpa using List.find?_some h⟩

theorem getStore_none {w : WS} {u : Bytes} : w.getStore u = none ↔ ∀ f ∈ w.stores, ¬ f <+: u := by
  simp [WS.getStore, List.find?_eq_none]

theorem Inside.prefix {f u : Bytes} (h : Inside f u) : f <+: u := by
  rcases h with rfl | ⟨t, rfl⟩
  · exact List.prefix_rfl
  · exact ⟨47 :: t, by simp⟩

/-- C39, as far as it holds: every file inside a folder is handled by some folder; the folder that handles a file
is on the list, and its URI is how the file's begins. Missing: that the file lies inside it. -/
theorem C39_handled_partial (w : WS) (u : Bytes) :
    (∀ f ∈ w.stores, Inside f u → w.getStore u ≠ none) ∧
    ∀ f, w.getStore u = some f → f ∈ w.stores ∧ f <+: u := by
  refine ⟨fun f hf hi hn => getStore_none.mp hn f hf hi.prefix, fun f h => getStore_some h⟩

/-- C39, as far as it holds: if no folder has a name that only continues as text into the file's path (`/ab` next
to `/a`), a file is handled exactly when it lies inside a folder, by a folder it lies inside, and if only one
folder contains it, by that one. -/
theorem C39_right_folder_partial (w : WS) (u : Bytes) (hsib : ∀ f ∈ w.stores, f <+: u → Inside f u) :
    (w.getStore u = none ↔ ∀ f ∈ w.stores, ¬ Inside f u) ∧
    (∀ f, w.getStore u = some f → f ∈ w.stores ∧ Inside f u) ∧
    ∀ f ∈ w.stores, Inside f u → (∀ g ∈ w.stores, Inside g u → g = f) → w.getStore u = some f := by
  have h1 : ∀ f, w.getStore u = some f → f ∈ w.stores ∧ Inside f u := fun f hf =>
    ⟨(getStore_some hf).1, hsib f (getStore_some hf).1 (getStore_some hf).2⟩
  refine ⟨⟨fun hn f hf hi => getStore_none.mp hn f hf hi.prefix,
    fun hn => getStore_none.mpr fun f hf hp => hn f hf (hsib f hf hp)⟩, h1, fun f hf hi huniq => ?_⟩
  cases hg : w.getStore u with
  | none => exact absurd hi.prefix (getStore_none.mp hg f hf)
  | some g => rw [huniq g (h1 g hg).1 (h1 g hg).2]

/-- The missing case does not arise for folder URIs that end in a slash, in the sense that then being a prefix is
lying inside. -/
theorem C39_slash_partial (w : WS) (u : Bytes) (hs : ∀ f ∈ w.stores, ∃ g, f = g ++ [47]) (f : Bytes)
    (h : w.getStore u = some f) : ∃ g, f = g ++ [47] ∧ Inside g u := by
  obtain ⟨h1, h2⟩ := getStore_some h
  obtain ⟨g, rfl⟩ := hs f h1
  exact ⟨g, rfl, .inr h2⟩

def Demo.wenv : WEnv := ⟨fun _ => true, id⟩

/-- Two folders, `/w/b` and `/w/a`. -/
def Demo.two : WS := WS.run Demo.wenv [.add b!"file:///w/b", .add b!"file:///w/a"]

example : (∀ f ∈ Demo.two.stores, f <+: b!"file:///w/a/x.php" → Inside f b!"file:///w/a/x.php") ∧
    Demo.two.getStore b!"file:///w/a/x.php" = some b!"file:///w/a" := by
  refine ⟨?_, by decide⟩
  have : Demo.two.stores = [b!"file:///w/b", b!"file:///w/a"] := by decide
  rw [this]
  intro f hf hp
  simp only [List.mem_cons, List.not_mem_nil, or_false] at hf
  rcases hf with rfl | rfl
  · exact absurd hp (by decide)
  · exact .inr (by decide)

/-- C39 is false: the files of `/w/ab` are handled by the folder `/w/a`, even when `/w/ab` is a folder too. -/
theorem C39_false_sibling :
    ∃ (w : WS) (u f g : Bytes), w = WS.run Demo.wenv [.add f, .add g] ∧ g ∈ w.stores ∧ Inside g u ∧ ¬ Inside f u ∧
      w.getStore u = some f := by
  refine ⟨_, b!"file:///w/ab/x.php", b!"file:///w/a", b!"file:///w/ab", rfl, by decide, .inr (by decide), ?_,
    by decide⟩
  rintro (h | h)
  · revert h; decide
  · revert h; decide

/-- C39 is false: a file outside all folders is handled. -/
theorem C39_false_outside :
    ∃ (w : WS) (u f : Bytes), w = WS.run Demo.wenv [.add f] ∧ ¬ Inside f u ∧ w.getStore u = some f := by
  refine ⟨_, b!"file:///w/ab/x.php", b!"file:///w/a", rfl, ?_, by decide⟩
  rintro (h | h)
  · revert h; decide
  · revert h; decide

/-- C39 is false: removing a folder that lies inside an earlier one removes the outer one and keeps the inner. -/
theorem C39_false_remove_inner :
    ∃ (f g : Bytes), Inside f g ∧ (WS.run Demo.wenv [.add f, .add g]).stores = [f, g] ∧
      (WS.run Demo.wenv [.add f, .add g, .remove g]).stores = [g] :=
  ⟨b!"file:///w", b!"file:///w/b", .inr (by decide), by decide, by decide⟩

/-! ## C61 -/

theorem newStore_ok {held : List (Bytes × Part)} {d : Bytes} (h : ∀ p, (d, p) ∉ held) :
    newStore held d = ((d, .symbols) :: (d, .completion) :: (d, .main) :: held, true) := by
  unfold newStore openPart
  simp [h]

theorem newStore_main {held : List (Bytes × Part)} {d : Bytes} (h : (newStore held d).2 = true) :
    (d, Part.main) ∉ held ∧ (newStore held d).1 = (d, .symbols) :: (d, .completion) :: (d, .main) :: held := by
  unfold newStore openPart at h ⊢
  by_cases h1 : (d, Part.main) ∈ held
  · simp [h1] at h
  · by_cases h2 : (d, Part.completion) ∈ held
    · simp [h1, h2] at h
    · by_cases h3 : (d, Part.symbols) ∈ held
      · simp [h1, h2, h3] at h
      · simp [h1, h2, h3]

theorem newStore_grows {held : List (Bytes × Part)} {d : Bytes} {e : Bytes × Part} (h : e ∈ held) :
    e ∈ (newStore held d).1 := by
  unfold newStore openPart
  split
  · exact h
  · rename_i h1
    split at h1
    · cases h1
    · cases h1
      split
      · simp [h]
      · rename_i h2
        split at h2
        · cases h2
        · cases h2
          split
          · simp [h]
          · rename_i h3
            split at h3
            · cases h3
            · cases h3; simp [h]

/-- Every folder that is served holds its main database, and no two share a storage directory. -/
structure WInv (env : WEnv) (w : WS) : Prop where
  nodup : (w.stores.map env.dirOf).Nodup
  held : ∀ f ∈ w.stores, (env.dirOf f, Part.main) ∈ w.held

theorem winv_step (env : WEnv) (w : WS) (e : WEv) (hi : WInv env w) : WInv env (w.step env e) := by
  cases e with
  | add u =>
    simp only [WS.step, WS.addView]
    split
    · split
      · rename_i h
        obtain ⟨h1, h2⟩ := newStore_main h
        refine ⟨?_, ?_⟩
        · simp only [List.map_append, List.map_cons, List.map_nil]
          rw [List.nodup_append]
          refine ⟨hi.nodup, by simp, ?_⟩
          intro a ha b hb hab
          simp only [List.mem_singleton] at hb
          obtain ⟨f, hf, rfl⟩ := List.mem_map.mp ha
          exact h1 (by rw [← hb, ← hab]; exact hi.held f hf)
        · intro f hf
          simp only [h2]
          rcases List.mem_append.mp hf with hf | hf
          · simp [hi.held f hf]
          · simp [List.mem_singleton.mp hf]
      · exact ⟨hi.nodup, fun f hf => newStore_grows (hi.held f hf)⟩
    · exact hi
  | remove u =>
    simp only [WS.step, WS.removeView]
    split
    · exact hi
    · rename_i g hg
      obtain ⟨hm, -⟩ := getStore_some hg
      have hn : w.stores.Nodup := List.Nodup.of_map _ hi.nodup
      refine ⟨(hi.nodup.sublist (List.Sublist.map _ List.erase_sublist)), ?_⟩
      intro f hf
      obtain ⟨hne, hf⟩ := (List.Nodup.mem_erase_iff hn).mp hf
      simp only [closeStore, List.mem_filter]
      refine ⟨hi.held f hf, ?_⟩
      have : env.dirOf f ≠ env.dirOf g := fun h => hne (List.inj_on_of_nodup_map hi.nodup hf hm h)
      simp [this]

theorem winv_run (env : WEnv) (h : List WEv) : WInv env (WS.run env h) := by
  induction h using List.reverseRecOn with
  | nil => exact ⟨by simp [WS.run, WS.new], by simp [WS.run, WS.new]⟩
  | append_singleton h e ih =>
    simp only [WS.run, List.foldl_append, List.foldl_cons, List.foldl_nil]
    exact winv_step env _ e ih

/-- C61: whatever the editor adds and removes, no folder is served twice, and adding a folder that is served
changes nothing: in particular it is not indexed a second time. -/
theorem C61_no_duplicates (env : WEnv) (h : List WEv) (f : Bytes) :
    (WS.run env h).stores.Nodup ∧
    (f ∈ (WS.run env h).stores → WS.run env (h ++ [.add f]) = WS.run env h) := by
  have hi := winv_run env h
  refine ⟨List.Nodup.of_map _ hi.nodup, fun hf => ?_⟩
  simp only [WS.run, List.foldl_append, List.foldl_cons, List.foldl_nil]
  show WS.addView env (WS.run env h) f = WS.run env h
  have : newStore (WS.run env h).held (env.dirOf f) = ((WS.run env h).held, false) := by
    unfold newStore openPart
    simp [hi.held f hf]
  unfold WS.addView
  rw [this]
  simp

theorem served_append {h : List WEv} {e : WEv} {f : Bytes} :
    Served (h ++ [e]) f ↔ e = .add f ∨ (Served h f ∧ e ≠ .remove f) := by
  constructor
  · rintro ⟨pre, post, h1, h2⟩
    rcases List.eq_nil_or_concat post with rfl | ⟨post, x, rfl⟩
    · have := List.append_inj' h1 rfl
      exact .inl (by simpa using this.2)
    · rw [List.concat_eq_append, ← List.cons_append, ← List.append_assoc] at h1
      have := List.append_inj' h1 rfl
      obtain ⟨rfl⟩ := List.singleton_inj.mp this.2
      refine .inr ⟨⟨pre, post, this.1, fun hm => h2 (by simp [hm])⟩, fun hx => h2 (by simp [hx])⟩
  · rintro (rfl | ⟨⟨pre, post, rfl, h2⟩, h3⟩)
    · exact ⟨h, [], rfl, by simp⟩
    · exact ⟨pre, post ++ [e], by simp, by simp [h2, Ne.symm h3]⟩

def WEv.uri : WEv → Bytes
  | .add u => u
  | .remove u => u

/-- C61, as far as it holds: if the editor adds each folder at most once, the folders that are served are those
that were added and not removed since, provided that no folder it names has a URI that is the beginning of
another's. Missing: adding a folder again after it was removed. -/
theorem C61_served_partial (env : WEnv) (h : List WEv)
    (hu : ∀ f, WEv.add f ∈ h → env.usable f = true)
    (hinj : ∀ f g, WEv.add f ∈ h → WEv.add g ∈ h → env.dirOf f = env.dirOf g → f = g)
    (honce : ∀ f, h.count (.add f) ≤ 1)
    (hpre : ∀ a ∈ h, ∀ b ∈ h, a.uri <+: b.uri → a.uri = b.uri) (f : Bytes) :
    f ∈ (WS.run env h).stores ↔ Served h f := by
  suffices H : (∀ f, f ∈ (WS.run env h).stores ↔ Served h f) ∧
      ∀ d p, (d, p) ∈ (WS.run env h).held → ∃ f, WEv.add f ∈ h ∧ d = env.dirOf f from H.1 f
  clear f
  induction h using List.reverseRecOn with
  | nil => exact ⟨fun f => by simp [WS.run, WS.new, Served], by simp [WS.run, WS.new]⟩
  | append_singleton h e ih =>
    obtain ⟨ih1, ih2⟩ := ih (fun f hf => hu f (by simp [hf]))
      (fun f g hf hg => hinj f g (by simp [hf]) (by simp [hg]))
      (fun f => Nat.le_trans (by rw [List.count_append]; omega) (honce f))
      (fun a ha b hb => hpre a (by simp [ha]) b (by simp [hb]))
    have hi := winv_run env h
    have hrun : WS.run env (h ++ [e]) = (WS.run env h).step env e := by
      simp only [WS.run, List.foldl_append, List.foldl_cons, List.foldl_nil]
    rw [hrun]
    cases e with
    | add u =>
      have hnew : WEv.add u ∉ h := by
        intro hm
        have h1 := honce u
        rw [List.count_append] at h1
        have h2 := List.count_pos_iff.mpr hm
        have h3 : List.count (WEv.add u) [WEv.add u] = 1 := by simp
        omega
      have hfree : ∀ p, (env.dirOf u, p) ∉ (WS.run env h).held := by
        intro p hp
        obtain ⟨g, hg, hd⟩ := ih2 _ p hp
        exact hnew (hinj u g (by simp) (by simp [hg]) hd ▸ hg)
      have hadd : (WS.run env h).step env (.add u) = ⟨(WS.run env h).stores ++ [u],
          (env.dirOf u, .symbols) :: (env.dirOf u, .completion) :: (env.dirOf u, .main) :: (WS.run env h).held⟩ := by
        simp [WS.step, WS.addView, hu u (by simp), newStore_ok hfree]
      rw [hadd]
      refine ⟨fun f => ?_, fun d p hp => ?_⟩
      · rw [served_append]
        simp only [List.mem_append, List.mem_singleton, ih1]
        constructor
        · rintro (h | rfl)
          · exact .inr ⟨h, by simp⟩
          · exact .inl rfl
        · rintro (h | ⟨h, -⟩)
          · exact .inr (WEv.add.inj h).symm
          · exact .inl h
      · simp only [List.mem_cons, Prod.mk.injEq] at hp
        rcases hp with ⟨rfl, -⟩ | ⟨rfl, -⟩ | ⟨rfl, -⟩ | hp
        · exact ⟨u, by simp, rfl⟩
        · exact ⟨u, by simp, rfl⟩
        · exact ⟨u, by simp, rfl⟩
        · obtain ⟨g, hg, hd⟩ := ih2 d p hp
          exact ⟨g, by simp [hg], hd⟩
    | remove u =>
      simp only [WS.step, WS.removeView]
      cases hg : (WS.run env h).getStore u with
      | none =>
        refine ⟨fun f => ?_, fun d p hp => ?_⟩
        · rw [served_append, ← ih1]
          constructor
          · intro hf
            refine .inr ⟨hf, fun hx => ?_⟩
            rw [WEv.remove.inj hx] at hg
            exact getStore_none.mp hg f hf List.prefix_rfl
          · rintro (h | ⟨h, -⟩)
            · cases h
            · exact h
        · obtain ⟨g, hg, hd⟩ := ih2 d p hp
          exact ⟨g, by simp [hg], hd⟩
      | some g =>
        obtain ⟨hm, hp⟩ := getStore_some hg
        have hgu : g = u := by
          obtain ⟨pre, post, rfl, -⟩ := (ih1 g).mp hm
          exact hpre (.add g) (by simp) (.remove u) (by simp) hp
        subst hgu
        refine ⟨fun f => ?_, fun d p hp => ?_⟩
        · rw [served_append, List.Nodup.mem_erase_iff (List.Nodup.of_map _ hi.nodup), ih1]
          constructor
          · rintro ⟨h1, h2⟩
            exact .inr ⟨h2, fun hx => h1 (WEv.remove.inj hx).symm⟩
          · rintro (h | ⟨h, h2⟩)
            · cases h
            · exact ⟨fun hx => h2 (by rw [hx]), h⟩
        · obtain ⟨g, hg, hd⟩ := ih2 d p (List.mem_filter.mp hp).1
          exact ⟨g, by simp [hg], hd⟩

/-- The hypotheses of `C61_served_partial` are met by three folders of which one is removed. -/
example : let h : List WEv := [.add b!"file:///w/a", .add b!"file:///w/b", .remove b!"file:///w/a", .add b!"file:///v"]
    (∀ a ∈ h, ∀ b ∈ h, a.uri <+: b.uri → a.uri = b.uri) ∧ (∀ f, h.count (.add f) ≤ 1) ∧
    (WS.run Demo.wenv h).stores = [b!"file:///w/b", b!"file:///v"] := by
  refine ⟨by decide, ?_, by decide⟩
  intro f
  have : List.Nodup [WEv.add b!"file:///w/a", .add b!"file:///w/b", .remove b!"file:///w/a", .add b!"file:///v"] := by
    decide
  exact List.nodup_iff_count_le_one.mp this _

/-- C61 is false: a folder that was removed can not be added again: its completion index is still held open. -/
theorem C61_false_add_again :
    ∃ f u, Inside f u ∧ Served [.add f, .remove f, .add f] f ∧
      (WS.run Demo.wenv [.add f]).getStore u = some f ∧
      (WS.run Demo.wenv [.add f, .remove f, .add f]).getStore u = none :=
  ⟨b!"file:///w/a", b!"file:///w/a/x.php", .inr (by decide), ⟨[_, _], [], rfl, by simp⟩, by decide, by decide⟩

end Verif.Server
