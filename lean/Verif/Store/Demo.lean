import Verif.Store.Refs

/-! A concrete environment and history used to show that the hypotheses of the store theorems are met,
and as witnesses of negations. -/

namespace Verif.Store.Demo

open Verif.Encoding Verif.Storage

/-- Lower-casing of ASCII, one token per name, a filter that answers "maybe" to everything. -/
def env : Env where
  lower := asciiLower
  tokenise := fun s => [s]
  dropRune := fun s => s.drop 1
  populate := fun _ => some ⟨0, 0, []⟩
  contains := fun _ _ => true

def rng (l : GoInt) : Range := ⟨⟨l, 0⟩, ⟨l, 5⟩⟩
def loc (u : Bytes) (l : GoInt) : Location := ⟨u, rng l⟩
def ty (n : Bytes) : TypeString := ⟨92 :: n, n, 0⟩

def cla (u n : Bytes) : Sym := .cla ⟨loc u 1, loc u 1, 0, [], ty n, ty b!"Base", [], [], none⟩
def fn (u n : Bytes) (l : GoInt) : Sym := .fn ⟨loc u l, loc u l, ty n, [], [ty b!"int"], b!"doc", none⟩
def met (u c n : Bytes) : Sym := .met ⟨loc u 3, loc u 3, n, [], [], [], ty c, 0, false, 0, none⟩
def pro (u c n : Bytes) : Sym := .pro ⟨loc u 4, loc u 4, [], none, n, ty c, 0, false, []⟩
def claCon (u c n : Bytes) : Sym :=
  .claCon { refLocation := loc u 5, location := loc u 5, description := [], name := n, value := b!"1",
            scope := ty c, visibility := 0, deprecated := none }
def glo (u n : Bytes) (ts : TypeComposite) : Sym :=
  .gloVar { location := loc u 6, description := [], name := n, types := ts }

def root : Bytes := b!"file:///w"
def uA : Bytes := b!"file:///w/a.php"
def uB : Bytes := b!"file:///w/b.php"

/-- first version of `a.php` -/
def a1 : Doc where
  uri := uA
  hash := b!"1"
  symbols := [cla uA b!"N\\Foo", met uA b!"N\\Foo" b!"getBar", pro uA b!"N\\Foo" b!"$p",
    claCon uA b!"N\\Foo" b!"X", fn uA b!"f" 7, glo uA b!"$g" [ty b!"int"], glo uA b!"$untyped" []]
  namespaces := [b!"N"]
  refs := [(b!"\\f", rng 9), (b!"\\Base", rng 1)]
/-- second version of `a.php`: the method is renamed, the function removed -/
def a2 : Doc where
  uri := uA
  hash := b!"2"
  symbols := [cla uA b!"N\\Foo", met uA b!"N\\Foo" b!"setBar", pro uA b!"N\\Foo" b!"$p"]
  namespaces := [b!"N"]
  refs := [(b!"\\g", rng 9)]
def b1 : Doc where
  uri := uB
  hash := b!"3"
  symbols := [fn uB b!"f" 2, cla uB b!"Base"]
  namespaces := []
  refs := [(b!"\\f", rng 4), (b!"\\g", rng 5)]

/-- a new store, re-indexing, deletion, restart, and re-creation -/
def hist : List HOp := [.upgrade b!"v0.0.16", .index a1, .index b1, .index a2, .restart, .delete uB, .index b1]

theorem lower_ok : env.LowerOK := by
  intro s h hc
  obtain ⟨c, hc, e⟩ := List.mem_map.mp (show sep ∈ asciiLower s from hc)
  split at e
  · rename_i hr
    have := congrArg UInt8.toNat e
    rw [UInt8.toNat_add] at this
    have h0 : sep.toNat = 0 := rfl
    have h32 : (32 : UInt8).toNat = 32 := rfl
    omega
  · exact h (e ▸ hc)

theorem lower_slash : env.LowerSlash := by
  intro s h hc
  obtain ⟨c, hc, e⟩ := List.mem_map.mp (show 92 ∈ asciiLower s from hc)
  split at e
  · rename_i hr
    have := congrArg UInt8.toNat e
    rw [UInt8.toNat_add] at this
    have h0 : (92 : UInt8).toNat = 92 := rfl
    have h32 : (32 : UInt8).toNat = 32 := rfl
    omega
  · exact h (e ▸ hc)

theorem filter_ok : env.FilterOK where
  populate _ _ := ⟨_, rfl, fun _ _ => rfl⟩
  size _ _ h := by cases h; simp [Str]

theorem env_ok : EnvOK env := ⟨lower_ok, filter_ok.size⟩

theorem uri_ok {u : Bytes} (h : sep ∉ u) (c : UInt8) (h1 : u.getLast? = some c) (h2 : ¬ rangeChar c) : UriOK u :=
  ⟨h, c, h1, h2⟩

theorem uA_ok : UriOK uA := ⟨by decide, 112, by decide, by unfold rangeChar; decide⟩
theorem uB_ok : UriOK uB := ⟨by decide, 112, by decide, by unfold rangeChar; decide⟩

theorem short {s : Bytes} (h : s.length < 1000) : Str s := by unfold Str; omega

/-- A symbol of the kinds above with short names is well-formed. -/
theorem sym_ok {u : Bytes} {x : Sym} (hw : x.WF) (hn : ∀ n ∈ x.names, sep ∉ n) (hu : x.location.uri = u)
    (hk : (x.key env).length < 1000) : SymOK env u x := ⟨hw, hn, hu, short hk⟩

theorem a1_ok : DocOK env a1 where
  uri := uA_ok
  len := by decide
  syms := by
    have : ∀ x ∈ a1.symbols, x.WF := by
      simp [a1, cla, met, pro, claCon, fn, glo, Sym.WF, Class.WF, Method.WF, Property.WF, ClassConst.WF,
        Function.WF, GlobalVariable.WF, Location.WF, loc, uA, Str, ty, TypeString.WF, Types.WF, ListWF, DeprecatedWF]
    intro x hx
    exact sym_ok (this x hx) ((by decide +kernel : ∀ x ∈ a1.symbols, ∀ n ∈ x.names, sep ∉ n) x hx)
      ((by decide +kernel : ∀ x ∈ a1.symbols, x.location.uri = uA) x hx)
      ((by decide +kernel : ∀ x ∈ a1.symbols, (x.key env).length < 1000) x hx)
  refsLen := by decide
  refs := by simp [a1, Str]

theorem a2_ok : DocOK env a2 where
  uri := uA_ok
  len := by decide
  syms := by
    have : ∀ x ∈ a2.symbols, x.WF := by
      simp [a2, cla, met, pro, Sym.WF, Class.WF, Method.WF, Property.WF,
        Location.WF, loc, uA, Str, ty, TypeString.WF, Types.WF, ListWF, DeprecatedWF]
    intro x hx
    exact sym_ok (this x hx) ((by decide +kernel : ∀ x ∈ a2.symbols, ∀ n ∈ x.names, sep ∉ n) x hx)
      ((by decide +kernel : ∀ x ∈ a2.symbols, x.location.uri = uA) x hx)
      ((by decide +kernel : ∀ x ∈ a2.symbols, (x.key env).length < 1000) x hx)
  refsLen := by decide
  refs := by simp [a2, Str]

theorem b1_ok : DocOK env b1 where
  uri := uB_ok
  len := by decide
  syms := by
    have : ∀ x ∈ b1.symbols, x.WF := by
      simp [b1, cla, fn, Sym.WF, Class.WF, Function.WF,
        Location.WF, loc, uB, Str, ty, TypeString.WF, Types.WF, ListWF, DeprecatedWF]
    intro x hx
    exact sym_ok (this x hx) ((by decide +kernel : ∀ x ∈ b1.symbols, ∀ n ∈ x.names, sep ∉ n) x hx)
      ((by decide +kernel : ∀ x ∈ b1.symbols, x.location.uri = uB) x hx)
      ((by decide +kernel : ∀ x ∈ b1.symbols, (x.key env).length < 1000) x hx)
  refsLen := by decide
  refs := by simp [b1, Str]

theorem docs_hist : docs hist = [a1, b1, a2, b1] := rfl

theorem hist_ok : HistOK env hist where
  docs := by
    rw [docs_hist]
    simp [a1_ok, a2_ok, b1_ok]
  consts := by
    intro d1 h1 d2 h2 c1 c2 m1 m2 _ _
    rw [docs_hist] at h1 h2
    simp only [List.mem_cons, List.not_mem_nil, or_false] at h1 h2
    rcases h1 with rfl | rfl | rfl | rfl <;> rcases h2 with rfl | rfl | rfl | rfl <;>
      first
        | rfl
        | (simp [a1, a2, b1, cla, met, pro, fn, glo, claCon] at m1 m2)
  crashes := by simp [Keeps, hist]

end Verif.Store.Demo
