import Verif.Whole.World

/-! A history with a class, its parent in another file, and a method that is inherited. -/

namespace Verif.Whole.Demo

open Verif.Encoding Verif.Storage Verif.Store Verif.Query
open Verif.Store.Demo (env root uA uB a1 a2 b1)

def foo : Class := ⟨Store.Demo.loc uA 1, Store.Demo.loc uA 1, 0, [], Store.Demo.ty b!"N\\Foo", Store.Demo.ty b!"Base", [], [], none⟩
def base : Class := ⟨Store.Demo.loc uB 1, Store.Demo.loc uB 1, 0, [], Store.Demo.ty b!"Base", Store.Demo.ty b!"Base", [], [], none⟩
def go : Method := ⟨Store.Demo.loc uB 3, Store.Demo.loc uB 3, b!"go", [], [], [], Store.Demo.ty b!"Base", 0, false, 0, none⟩

/-- second version of `b.php`: the class has got a method -/
def b2 : Doc where
  uri := uB
  hash := b!"4"
  symbols := [Store.Demo.fn uB b!"f" 2, .cla base, .met go]
  namespaces := []
  refs := []

def hist : List HOp := [.upgrade b!"v0.0.16", .index a1, .index b1, .index a2, .restart, .index b2]

theorem b2_ok : DocOK env b2 where
  uri := Store.Demo.uB_ok
  len := by decide
  syms := by
    have : ∀ x ∈ b2.symbols, x.WF := by
      simp [b2, base, go, Store.Demo.fn, Sym.WF, Class.WF, Function.WF, Method.WF,
        Location.WF, Store.Demo.loc, uB, Str, Store.Demo.ty, TypeString.WF, Types.WF, ListWF, DeprecatedWF]
    intro x hx
    exact Store.Demo.sym_ok (this x hx) ((by decide +kernel : ∀ x ∈ b2.symbols, ∀ n ∈ x.names, sep ∉ n) x hx)
      ((by decide +kernel : ∀ x ∈ b2.symbols, x.location.uri = uB) x hx)
      ((by decide +kernel : ∀ x ∈ b2.symbols, (x.key env).length < 1000) x hx)
  refsLen := by decide
  refs := by simp [b2]

theorem docs_hist : docs hist = [a1, b1, a2, b2] := rfl

theorem hist_ok : HistOK env hist where
  docs := by
    rw [docs_hist]
    simp [Store.Demo.a1_ok, Store.Demo.a2_ok, Store.Demo.b1_ok, b2_ok]
  consts := by
    intro d1 h1 d2 h2 c1 c2 m1 m2 _ _
    rw [docs_hist] at h1 h2
    simp only [List.mem_cons, List.not_mem_nil, or_false] at h1 h2
    rcases h1 with rfl | rfl | rfl | rfl <;> rcases h2 with rfl | rfl | rfl | rfl <;>
      first
        | rfl
        | (simp [a1, a2, b1, b2, Store.Demo.cla, Store.Demo.met, Store.Demo.pro, Store.Demo.fn, Store.Demo.glo,
            Store.Demo.claCon] at m1 m2)
  crashes := by simp [Store.Keeps, hist]

theorem latest_hist (u : Bytes) (d : Doc) (hu : latest hist u = some d) : d = a2 ∨ d = b2 := by
  simp only [latest, hist, List.foldl_cons, List.foldl_nil, latestStep] at hu
  split at hu
  · exact .inr (Option.some.inj hu).symm
  · split at hu
    · exact .inl (Option.some.inj hu).symm
    · rename_i h1 h2
      rw [if_neg (show ¬ u = b1.uri from h1), if_neg (show ¬ u = a1.uri from h2)] at hu
      cases hu

theorem live_mem {x : Sym} (hx : Live env (latest hist) x) : x ∈ a2.symbols ++ b2.symbols := by
  obtain ⟨u, d, pre, post, hu, hd, -⟩ := hx
  rw [List.mem_append]
  rcases latest_hist u d hu with rfl | rfl
  · left; rw [hd]; simp
  · right; rw [hd]; simp

theorem live_cla {c : Class} (hc : Live env (latest hist) (.cla c)) : c = foo ∨ c = base := by
  have := live_mem hc
  simpa [a2, b2, Store.Demo.cla, Store.Demo.met, Store.Demo.pro, Store.Demo.fn, foo] using this

theorem live_int {c : Interface} (hc : Live env (latest hist) (.int c)) : False := by
  have := live_mem hc
  simp [a2, b2, Store.Demo.cla, Store.Demo.met, Store.Demo.pro, Store.Demo.fn] at this

theorem live_tra {c : Trait} (hc : Live env (latest hist) (.tra c)) : False := by
  have := live_mem hc
  simp [a2, b2, Store.Demo.cla, Store.Demo.met, Store.Demo.pro, Store.Demo.fn] at this

theorem live_met {m : Method} (hm : Live env (latest hist) (.met m)) : m.name = b!"setBar" ∨ m = go := by
  have := live_mem hm
  have : Sym.met m = Store.Demo.met uA b!"N\\Foo" b!"setBar" ∨ m = go := by
    simpa [a2, b2, Store.Demo.cla, Store.Demo.met, Store.Demo.pro, Store.Demo.fn] using this
  rcases this with h | h
  · left
    injection h with h
    rw [h]
  · exact .inr h

theorem foo_live : Live env (latest hist) (.cla foo) :=
  ⟨uA, a2, [], _, rfl, rfl, trivial, by
    simp [Store.Demo.met, Store.Demo.pro, SameDecl, Sym.kind]⟩

theorem base_live : Live env (latest hist) (.cla base) :=
  ⟨uB, b2, [Store.Demo.fn uB b!"f" 2], [.met go], rfl, rfl, trivial, by simp [SameDecl, Sym.kind]⟩

theorem go_live : Live env (latest hist) (.met go) :=
  ⟨uB, b2, [Store.Demo.fn uB b!"f" 2, .cla base], [], rfl, rfl, trivial, by simp⟩

theorem one_each : OneEach env (latest hist) where
  classes c d hc hd h := by
    rcases live_cla hc with rfl | rfl <;> rcases live_cla hd with rfl | rfl
    · rfl
    · exact absurd ((classFQNLower_eq_iff Store.Demo.lower_slash _ _).mpr h) (by decide +kernel)
    · exact absurd ((classFQNLower_eq_iff Store.Demo.lower_slash _ _).mpr h) (by decide +kernel)
    · rfl
  interfaces c _ hc := (live_int hc).elim

end Verif.Whole.Demo
