import Verif.Store.Model
import Verif.Encoding.Spec

/-!
Specification of the store: what a user expects of a history of indexing and deleting files.
-/

namespace Verif.Store

open Verif.Encoding Verif.Storage

/-! ### histories -/

/-- What happens to the store over its life. -/
inductive HOp where
  | index (d : Doc)
  | delete (uri : Bytes)
  | restart
  /-- the process dies while `d` is being indexed, after `point` of the four durable writes, and is
  started again -/
  | crash (d : Doc) (point : Nat)
  /-- the store was written by an older release and is emptied by this one, whose version is recorded;
  this is also what happens to a brand-new store -/
  | upgrade (version : Bytes)
  deriving DecidableEq, Repr

/-- The model's reaction. -/
def step (env : Env) (s : Store) : HOp → Option Store
  | .index d => s.sync env d
  | .delete u => s.deleteDocument u
  | .restart => s.restart
  | .crash d k => s.crashDuring env d k
  | .upgrade v => some (s.clear.putVersion v)

def runFrom (env : Env) (s : Option Store) (h : List HOp) : Option Store :=
  h.foldl (fun acc o => acc.bind fun s => step env s o) s

def run (env : Env) (root : Bytes) (h : List HOp) : Option Store := runFrom env (some (Store.new root)) h

/-- The most recently indexed version of every file that has not since been deleted; an upgrade deletes
all of them. -/
def latestStep (L : Bytes → Option Doc) : HOp → Bytes → Option Doc
  | .index d => fun u => if u = d.uri then some d else L u
  | .delete v => fun u => if u = v then none else L u
  | .restart => L
  | .crash d k => fun u => if 4 ≤ k ∧ u = d.uri then some d else L u
  | .upgrade _ => fun _ => none

def latest (h : List HOp) : Bytes → Option Doc := h.foldl latestStep fun _ => none

/-- Every document ever indexed (or whose indexing was interrupted). -/
def docs (h : List HOp) : List Doc := h.filterMap fun
  | .index d => some d
  | .crash d _ => some d
  | _ => none

/-! ### symbols -/

def Sym.kind : Sym → Nat
  | .cla _ => 0 | .int _ => 1 | .tra _ => 2 | .fn _ => 3 | .con _ => 4
  | .def_ _ => 5 | .met _ => 6 | .claCon _ => 7 | .pro _ => 8 | .gloVar _ => 9

def Sym.location : Sym → Location
  | .cla c => c.location | .int c => c.location | .tra c => c.location | .fn c => c.location
  | .con c => c.location | .def_ c => c.location | .met c => c.location | .claCon c => c.location
  | .pro c => c.location | .gloVar c => c.location

/-- The name a symbol is looked up by: the class it belongs to (if any) and its own name. Class
names are compared ignoring the case of the last segment, method names ignoring case. -/
def Sym.path (env : Env) : Sym → List Bytes
  | .cla c => [classFQNLower env c.name.fqn]
  | .int c => [c.name.fqn] | .tra c => [c.name.fqn] | .fn c => [c.name.fqn] | .con c => [c.name.fqn]
  | .def_ c => [c.name.fqn]
  | .met c => [c.scope.fqn, env.lower c.name]
  | .claCon c => [c.scope.fqn, c.name]
  | .pro c => [c.scope.fqn, c.name]
  | .gloVar c => [c.name]

/-- Two symbols of one file are the same declaration to the index if they have the same kind and
name (for properties also the same place). -/
def SameDecl (env : Env) (x y : Sym) : Prop :=
  x.kind = y.kind ∧ x.path env = y.path env ∧
    match x, y with
    | .pro a, .pro b => rangeString a.location.range = rangeString b.location.range
    | _, _ => True

/-- Global variables of which no type is known are not indexed; everything else is. -/
def Sym.Indexed : Sym → Prop
  | .gloVar c => typesEmpty c.types = false
  | _ => True

/-- `x` is declared in the current version `L u` of some file, and is not superseded by a later
declaration of the same name in that file. -/
def Live (env : Env) (L : Bytes → Option Doc) (x : Sym) : Prop :=
  ∃ u d pre post, L u = some d ∧ d.symbols = pre ++ x :: post ∧ x.Indexed ∧
    ∀ y ∈ post, ¬ (y.Indexed ∧ SameDecl env x y)

/-- What remains of a symbol in its stored form (see C02). -/
def Parameter.forget (p : Parameter) : Parameter := { p with description := [] }
def Sym.stored : Sym → Sym
  | .int c => .int { c with refLocation := Location.zero }
  | .fn c => .fn { c with refLocation := Location.zero, params := c.params.map Parameter.forget }
  | .met c => .met { c with refLocation := Location.zero, params := c.params.map Parameter.forget }
  | .pro c => .pro { c with refLocation := Location.zero }
  | .claCon c => .claCon { c with refLocation := Location.zero, visibility := 0 }
  | x => x

/-- A lookup answers exactly the stored forms of the live symbols of one kind that satisfy `P`, each
once. -/
def Exactly {α} (env : Env) (L : Bytes → Option Doc) (kind : α → Sym) (answer : Option (List α))
    (P : α → Prop) : Prop :=
  ∃ xs : List α, answer.map (List.map kind) = some (xs.map fun a => (kind a).stored) ∧ xs.Nodup ∧
    ∀ a, a ∈ xs ↔ Live env L (kind a) ∧ P a

/-- Two class names are the same to PHP as this index sees it: equal namespaces, last segments equal
up to case. (A class name without any backslash is compared exactly.) -/
def SameClassName (env : Env) (a b : Bytes) : Prop :=
  a = b ∨ ∃ ns x y, a = ns ++ 92 :: x ∧ b = ns ++ 92 :: y ∧ 92 ∉ x ∧ 92 ∉ y ∧ env.lower x = env.lower y

/-- Looking `y`'s name up finds `y`. -/
def Finds (env : Env) (s : Store) : Sym → Prop
  | .cla c => ∃ l, s.queryClasses env c.name.fqn = some l ∧ c ∈ l
  | .int c => ∃ l, s.getInterfaces c.name.fqn = some l ∧ c ∈ l
  | .tra c => ∃ l, s.getTraits c.name.fqn = some l ∧ c ∈ l
  | .fn c => ∃ l, s.getFunctions c.name.fqn = some l ∧ c ∈ l
  | .con c => ∃ l, s.getConsts c.name.fqn = some l ∧ c ∈ l
  | .def_ c => ∃ l, s.getDefines c.name.fqn = some l ∧ c ∈ l
  | .met c => ∃ l, s.getMethods env c.scope.fqn c.name = some l ∧ c ∈ l
  | .claCon c => ∃ l, s.getClassConsts c.scope.fqn c.name = some l ∧ c ∈ l
  | .pro c => ∃ l, s.getProperties c.scope.fqn c.name = some l ∧ c ∈ l
  | .gloVar c => ∃ l, s.getGlobalVariables c.name = some l ∧ c ∈ l

/-! ### well-formedness -/

/-- The names in a symbol. -/
def Sym.names : Sym → List Bytes
  | .cla c => [c.name.fqn]
  | .int c => [c.name.fqn] | .tra c => [c.name.fqn] | .fn c => [c.name.fqn] | .con c => [c.name.fqn]
  | .def_ c => [c.name.fqn]
  | .met c => [c.scope.fqn, c.name]
  | .claCon c => [c.scope.fqn, c.name]
  | .pro c => [c.scope.fqn, c.name]
  | .gloVar c => [c.name]

/-- Names contain no NUL byte (true of PHP identifiers). -/
def Sym.NameOK (x : Sym) : Prop := ∀ n ∈ x.names, sep ∉ n

def Sym.WF : Sym → Prop
  | .cla c => c.WF | .int c => c.WF | .tra c => c.WF | .fn c => c.WF | .con c => c.WF
  | .def_ c => c.WF | .met c => c.WF | .claCon c => c.WF | .pro c => c.WF | .gloVar c => c.WF

/-- The characters of a printed range. -/
def rangeChar (c : UInt8) : Prop := c.toNat = 45 ∨ c.toNat = 58 ∨ (48 ≤ c.toNat ∧ c.toNat ≤ 57)

/-- A file URI: no NUL byte, and its last character is not a digit, `:` or `-`
(e.g. it ends in `.php`). -/
def UriOK (u : Bytes) : Prop := sep ∉ u ∧ ∃ c, u.getLast? = some c ∧ ¬ rangeChar c

structure SymOK (env : Env) (uri : Bytes) (x : Sym) : Prop where
  wf : x.WF
  name : x.NameOK
  uri : x.location.uri = uri
  key : Str (x.key env)

structure DocOK (env : Env) (d : Doc) : Prop where
  uri : UriOK d.uri
  len : d.symbols.length < 2 ^ 63
  syms : ∀ x ∈ d.symbols, SymOK env d.uri x
  refsLen : d.refs.length < 2 ^ 63
  refs : ∀ r ∈ d.refs, Str r.1

/-- Lower-casing does not invent NUL bytes. -/
def Env.LowerOK (env : Env) : Prop := ∀ s, sep ∉ s → sep ∉ env.lower s

/-- Lower-casing does not invent backslashes. -/
def Env.LowerSlash (env : Env) : Prop := ∀ s, (92 : UInt8) ∉ s → (92 : UInt8) ∉ env.lower s

/-- The filter library forgets no key, never fails, and its tables fit in memory. -/
structure Env.FilterOK (env : Env) : Prop where
  populate : ∀ ks, ks ≠ [] → ∃ h, env.populate ks = some h ∧ ∀ k ∈ ks, env.contains h k = true
  size : ∀ ks h, env.populate ks = some h → Str h.fingerprints

/-- No class constant (same class name, same constant name) is declared in two different files. -/
def ConstsOK (ds : List Doc) : Prop :=
  ∀ d1 ∈ ds, ∀ d2 ∈ ds, ∀ c1 c2, .claCon c1 ∈ d1.symbols → .claCon c2 ∈ d2.symbols →
    c1.scope.fqn = c2.scope.fqn → c1.name = c2.name → d1.uri = d2.uri

/-- Whenever the process dies between the first and the last write of an indexing, the version being
indexed still declares everything the version in the index declares. (Vacuous for histories without
crashes; see C14 for why it is needed.) -/
def Keeps (env : Env) : (Bytes → Option Doc) → List HOp → Prop
  | _, [] => True
  | L, o :: h =>
    (match o with
      | .crash d k => 0 < k → k < 4 → ∀ d0, L d.uri = some d0 →
          ∀ x ∈ d0.symbols, x.Indexed → ∃ y ∈ d.symbols, y.Indexed ∧ SameDecl env x y
      | _ => True) ∧ Keeps env (latestStep L o) h

structure HistOK (env : Env) (h : List HOp) : Prop where
  docs : ∀ d ∈ docs h, DocOK env d
  consts : ConstsOK (Store.docs h)
  crashes : Keeps env (fun _ => none) h

/-! ### references -/

/-- The uses of `ref` recorded by the latest indexing of `u`. Files of the bundled stubs
(`phpstorm-stubs://`) are not searched for references. -/
def uses (L : Bytes → Option Doc) (u ref : Bytes) : List Range :=
  match L u with
  | none => []
  | some d => if haveReferences u then (d.refs.filter fun i => i.1 == ref).map (·.2) else []

/-- A file inside the workspace: its URI starts with the workspace's, and the rest does not start
with the workspace's URI again. -/
def InWorkspace (root u : Bytes) : Prop := root <+: u ∧ ¬ root <+: u.drop root.length

/-- Every file that is indexed or deleted is inside the workspace (or a bundled stub). -/
def RefsOK (root : Bytes) (h : List HOp) : Prop :=
  ∀ o ∈ h, match o with
    | .index d => haveReferences d.uri = true → InWorkspace root d.uri
    | .delete u => haveReferences u = true → InWorkspace root u
    | .restart => True
    | .crash d _ => haveReferences d.uri = true → InWorkspace root d.uri
    | .upgrade _ => True

/-- The searched name occurs in the answer, file by file, exactly as recorded. -/
def AnswersUses (L : Bytes → Option Doc) (ref : Bytes) (answer : Option (List (Bytes × Range))) : Prop :=
  ∃ res, answer = some res ∧ ∀ u, (res.filter fun e => e.1 == u).map (·.2) = uses L u ref

/-! ### keyword searches -/

/-- The name a symbol can be searched by: its name as written in the declaration, without namespace;
for a property the name without the `$` (`dropRune`). Global variables cannot be searched. -/
def Sym.searchName (env : Env) : Sym → Option Bytes
  | .cla c => some c.name.original | .int c => some c.name.original | .tra c => some c.name.original
  | .fn c => some c.name.original | .con c => some c.name.original | .def_ c => some c.name.original
  | .met c => some c.name | .claCon c => some c.name
  | .pro c => some (if c.name = [] then [] else env.dropRune c.name)
  | .gloVar _ => none

/-- Searchable names contain no NUL byte, and splitting into words does not invent one. -/
structure SearchOK (env : Env) (h : List HOp) : Prop where
  tok : ∀ n, sep ∉ n → ∀ t ∈ env.tokenise n, sep ∉ t
  names : ∀ d ∈ docs h, ∀ x ∈ d.symbols, ∀ n, x.searchName env = some n → sep ∉ n

/-- A word of the name starts with a word of the keyword, ignoring case. -/
def Matches (env : Env) (keyword name : Bytes) : Prop :=
  ∃ w ∈ env.tokenise keyword, ∃ t ∈ env.tokenise name, env.lower w <+: env.lower t

/-- A search succeeds and every result is the stored form of a symbol that is currently declared. -/
def SoundSearch {α} (env : Env) (L : Bytes → Option Doc) (kind : α → Sym) (answer : Option (Found α × Bool)) : Prop :=
  ∃ f complete, answer = some (f, complete) ∧ ∀ y ∈ f.results, ∃ a, Live env L (kind a) ∧ (kind a).stored = kind y

/-- A search succeeds, claims to be complete, lists nothing twice and lists every declared symbol that
satisfies `P`. -/
def CompleteSearch {α} (env : Env) (L : Bytes → Option Doc) (kind : α → Sym) (answer : Option (Found α × Bool))
    (P : α → Prop) : Prop :=
  ∃ f, answer = some (f, true) ∧ f.results.Nodup ∧
    ∀ a, Live env L (kind a) → P a → ∃ y ∈ f.results, (kind a).stored = kind y

/-- A search limited to `n ≥ 1` results returns the first results of the unlimited search, at most `n`
of them, and claims to be complete only if that is all there is. -/
def LimitedSearch {α} (search : Option Int → Option (Found α × Bool)) : Prop :=
  ∃ all, search none = some (all, true) ∧ ∀ n : Nat, 1 ≤ n → ∃ f complete, search (some n) = some (f, complete) ∧
    f.results.length ≤ n ∧ f.results <+: all.results ∧ (complete = true → f.results = all.results)

/-- A search succeeds and every result satisfies `P` and is, or in an earlier version of some file was,
declared under a name that the keyword matches. (Same key: the same kind of symbol with the same
qualified name in the same file, up to the case of the name.) -/
def OnlyMatches {α} (env : Env) (h : List HOp) (kind : α → Sym) (name : α → Bytes) (keyword : Bytes) (P : α → Prop)
    (answer : Option (Found α × Bool)) : Prop :=
  ∃ f complete, answer = some (f, complete) ∧ ∀ y ∈ f.results, P y ∧
    ∃ d ∈ docs h, ∃ a, kind a ∈ d.symbols ∧ (kind a).key env = (kind y).key env ∧ Matches env keyword (name a)

/-- `part` is a level of the namespace `ns`, below the levels `pre`. -/
def NsLevel (ns : Bytes) (pre : List Bytes) (part : Bytes) : Prop := ∃ post, splitB 92 ns = pre ++ part :: post

/-- A namespace name as the parser delivers it: no NUL byte, empty or without empty segments (so
without a leading `\`), of a realistic length. -/
structure NsOK (ns : Bytes) : Prop where
  nosep : sep ∉ ns
  parts : ns = [] ∨ [] ∉ splitB 92 ns
  len : ns.length < 2 ^ 60

/-- The text typed to see what is below the levels `pre`: `\pre1\pre2\kw`. -/
def nsKeyword (pre : List Bytes) (kw : Bytes) : Bytes := pre.flatMap (92 :: ·) ++ 92 :: kw

end Verif.Store
