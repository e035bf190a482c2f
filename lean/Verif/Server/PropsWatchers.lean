import Verif.Server.Watchers
import Verif.Server.PropsWorkspace

/-! C147: the file watchers that the editor is asked for are those of the folders that are served. -/

namespace Verif.Server

/-! ### specification -/

/-- What an editor does with the requests: the ids that are registered, in order. -/
def client (ids : List Bytes) : List WatchReq → List Bytes
  | [] => ids
  | .register i :: rs => client (ids ++ [i]) rs
  | .unregister i :: rs => client (ids.erase i) rs

/-- Every request makes sense for the editor: no id is registered while it is, or taken back while it is not. -/
def Sensible (ids : List Bytes) : List WatchReq → Prop
  | [] => True
  | .register i :: rs => i ∉ ids ∧ Sensible (ids ++ [i]) rs
  | .unregister i :: rs => i ∈ ids ∧ Sensible (ids.erase i) rs

/-- The watchers the editor has after a history. -/
def Watched (env : WEnv) (h : List WEv) : List Bytes := client [] (WS.new.sent env h)

/-! ### lemmas -/

theorem client_append (ids : List Bytes) (a b : List WatchReq) :
    client ids (a ++ b) = client (client ids a) b := by
  induction a generalizing ids with
  | nil => rfl
  | cons x a ih => cases x <;> exact ih _

theorem sensible_append (ids : List Bytes) (a b : List WatchReq) :
    Sensible ids (a ++ b) ↔ Sensible ids a ∧ Sensible (client ids a) b := by
  induction a generalizing ids with
  | nil => simp [Sensible, client]
  | cons x a ih => cases x <;> simp [Sensible, client, ih, and_assoc]

theorem sent_append (env : WEnv) (w : WS) (a b : List WEv) :
    w.sent env (a ++ b) = w.sent env a ++ (a.foldl (WS.step env) w).sent env b := by
  induction a generalizing w with
  | nil => rfl
  | cons e a ih => simp [WS.sent, ih, List.append_assoc]

theorem sent_snoc (env : WEnv) (h : List WEv) (e : WEv) :
    WS.new.sent env (h ++ [e]) = WS.new.sent env h ++ (WS.run env h).requests env e := by
  rw [sent_append]
  simp [WS.sent, WS.run]

theorem watcherId_inj {f g : Bytes} (h : watcherId f = watcherId g) : f = g := List.append_cancel_right h

theorem run_snoc (env : WEnv) (h : List WEv) (e : WEv) : WS.run env (h ++ [e]) = (WS.run env h).step env e := by
  simp only [WS.run, List.foldl_append, List.foldl_cons, List.foldl_nil]

/-- The completion index of a folder that was asked to be watched stays open. -/
theorem registered_held (env : WEnv) (h : List WEv) (i : Bytes) (hi : .register i ∈ WS.new.sent env h) :
    ∃ f, i = watcherId f ∧ (env.dirOf f, Part.completion) ∈ (WS.run env h).held := by
  induction h using List.reverseRecOn with
  | nil => simp [WS.sent] at hi
  | append_singleton h e ih =>
    rw [sent_snoc, List.mem_append] at hi
    rw [run_snoc]
    rcases hi with hi | hi
    · obtain ⟨f, rfl, hf⟩ := ih hi
      refine ⟨f, rfl, ?_⟩
      cases e with
      | add u =>
        simp only [WS.step, WS.addView]
        split
        · split <;> exact newStore_grows hf
        · exact hf
      | remove u =>
        simp only [WS.step, WS.removeView]
        split
        · exact hf
        · simp [closeStore, hf]
    · cases e with
      | add u =>
        simp only [WS.requests] at hi
        split at hi
        · rename_i hc
          simp only [List.mem_singleton, WatchReq.register.injEq] at hi
          simp only [Bool.and_eq_true] at hc
          refine ⟨u, hi, ?_⟩
          simp only [WS.step, WS.addView, hc.1, hc.2, if_true]
          rw [(newStore_main hc.2).2]
          simp
        · cases hi
      | remove u =>
        simp only [WS.requests] at hi
        split at hi <;> simp at hi

theorem newStore_completion {held : List (Bytes × Part)} {d : Bytes} (h : (newStore held d).2 = true) :
    (d, Part.completion) ∉ held := by
  intro hm
  unfold newStore openPart at h
  by_cases h1 : (d, Part.main) ∈ held <;> simp [h1, hm] at h

/-! ### C147 -/

/-- C147: whatever folders come and go, in whatever way they lie inside each other, no watcher is asked for twice. -/
theorem C147_once (env : WEnv) (h : List WEv) (i : Bytes) :
    (WS.new.sent env h).count (.register i) ≤ 1 := by
  induction h using List.reverseRecOn with
  | nil => simp [WS.sent]
  | append_singleton h e ih =>
    rw [sent_snoc, List.count_append]
    cases e with
    | remove u =>
      have : ((WS.run env h).requests env (.remove u)).count (.register i) = 0 := by
        simp only [WS.requests]
        split <;> simp
      omega
    | add u =>
      simp only [WS.requests]
      split
      · rename_i hc
        simp only [Bool.and_eq_true] at hc
        by_cases hiu : i = watcherId u
        · have h0 : (WS.new.sent env h).count (.register i) = 0 := by
            rw [List.count_eq_zero]
            intro hm
            obtain ⟨f, hf, hheld⟩ := registered_held env h i hm
            obtain rfl := watcherId_inj (hf.symm.trans hiu)
            exact newStore_completion hc.2 hheld
          rw [h0, hiu]
          simp
        · have : List.count (WatchReq.register i) [WatchReq.register (watcherId u)] = 0 := by
            simp [Ne.symm hiu]
          omega
      · simpa using ih

/-- C147, as far as it holds: if no folder the editor names has a URI that is the beginning of another's, then after
any history the watchers are those of the folders that are served, in the order in which they are served, and every
request makes sense. Missing: folders inside each other. -/
theorem C147_watched_partial (env : WEnv) (h : List WEv)
    (hpre : ∀ a ∈ h, ∀ b ∈ h, a.uri <+: b.uri → a.uri = b.uri) :
    Watched env h = (WS.run env h).stores.map (fun f => f ++ b!"-fileWatcher") ∧
    Sensible [] (WS.new.sent env h) := by
  suffices H : (Watched env h = (WS.run env h).stores.map watcherId ∧ Sensible [] (WS.new.sent env h)) ∧
      ∀ f ∈ (WS.run env h).stores, WEv.add f ∈ h from H.1
  induction h using List.reverseRecOn with
  | nil => simp [Watched, WS.sent, WS.run, WS.new, client, Sensible]
  | append_singleton h e ih =>
    obtain ⟨⟨ih1, ih2⟩, ih3⟩ := ih (fun a ha b hb => hpre a (by simp [ha]) b (by simp [hb]))
    have hi := winv_run env h
    unfold Watched at ih1 ⊢
    rw [sent_snoc, client_append, sensible_append, run_snoc, ih1]
    cases e with
    | add u =>
      by_cases hu : env.usable u = true
      · by_cases hn : (newStore (WS.run env h).held (env.dirOf u)).2 = true
        · simp only [WS.requests, hu, hn, Bool.and_self, if_true, WS.step, WS.addView, client, Sensible,
            List.map_append, List.map_cons, List.map_nil, and_true, true_and]
          refine ⟨⟨ih2, ?_⟩, ?_⟩
          · intro hm
            obtain ⟨f, hf, hfu⟩ := List.mem_map.mp hm
            obtain rfl := watcherId_inj hfu
            exact (newStore_main hn).1 (hi.held f hf)
          · intro f hf
            rcases List.mem_append.mp hf with hf | hf
            · simp [ih3 f hf]
            · simp [List.mem_singleton.mp hf]
        · simp only [WS.requests, hu, hn, Bool.and_false, WS.step, WS.addView]
          simp only [Bool.false_eq_true, if_false, if_true, client, Sensible]
          exact ⟨⟨trivial, ih2, trivial⟩, fun f hf => by simp [ih3 f hf]⟩
      · simp only [WS.requests, hu, WS.step, WS.addView, Bool.false_and]
        simp only [Bool.false_eq_true, if_false, client, Sensible]
        exact ⟨⟨trivial, ih2, trivial⟩, fun f hf => by simp [ih3 f hf]⟩
    | remove u =>
      cases hg : (WS.run env h).getStore u with
      | none =>
        simp only [WS.requests, hg, WS.step, WS.removeView, client, Sensible]
        exact ⟨⟨trivial, ih2, trivial⟩, fun f hf => by simp [ih3 f hf]⟩
      | some g =>
        obtain ⟨hm, hp⟩ := getStore_some hg
        have hgu : g = u := hpre (.add g) (by simp [ih3 g hm]) (.remove u) (by simp) hp
        subst hgu
        simp only [WS.requests, hg, WS.step, WS.removeView, client, Sensible, and_true]
        refine ⟨⟨?_, ih2, List.mem_map_of_mem hm⟩, ?_⟩
        · exact (List.map_erase (fun a b h => watcherId_inj h) _).symm
        · intro f hf
          simp [ih3 f (List.mem_of_mem_erase hf)]

/-- Three folders of which one is removed: the hypothesis is met, and two watchers are left. -/
example : let h : List WEv := [.add b!"file:///w/a", .add b!"file:///w/b", .remove b!"file:///w/a", .add b!"file:///v"]
    (∀ a ∈ h, ∀ b ∈ h, a.uri <+: b.uri → a.uri = b.uri) ∧
    Watched Demo.wenv h = [b!"file:///w/b-fileWatcher", b!"file:///v-fileWatcher"] := by
  refine ⟨by decide, by decide⟩

/-- C147 is false for folders inside each other: after the inner one is removed, the one that is served is not
watched, and the one that is watched is not served. -/
theorem C147_false_inner :
    ∃ f g : Bytes, Inside f g ∧ (WS.run Demo.wenv [.add f, .add g, .remove g]).stores = [g] ∧
      Watched Demo.wenv [.add f, .add g, .remove g] = [f ++ b!"-fileWatcher"] :=
  ⟨b!"file:///w", b!"file:///w/b", .inr (by decide), by decide, by decide⟩

/-- C147 is false: removing something that is not a folder but lies inside one closes the folder, and a watcher is
taken back that was never asked for. -/
theorem C147_false_not_a_folder :
    ∃ f g : Bytes, Inside f g ∧ (WS.run Demo.wenv [.add f, .remove g]).stores = [] ∧
      Watched Demo.wenv [.add f, .remove g] = [f ++ b!"-fileWatcher"] ∧
      ¬ Sensible [] (WS.new.sent Demo.wenv [.add f, .remove g]) := by
  refine ⟨b!"file:///w", b!"file:///w/b", .inr (by decide), by decide, by decide, ?_⟩
  have : WS.new.sent Demo.wenv [.add b!"file:///w", .remove b!"file:///w/b"] =
      [.register (watcherId b!"file:///w"), .unregister (watcherId b!"file:///w/b")] := by decide
  rw [this]
  intro h
  have := h.2.1
  revert this
  decide

end Verif.Server
