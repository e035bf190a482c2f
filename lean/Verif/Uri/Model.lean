import Verif.Common.Strings
import Verif.Common.Utf8

/-!
Model of `util/uri.go`: paths of files as URIs and back, and the functions of Go's package `net/url` that it uses
(`QueryEscape`, `QueryUnescape`, `Parse`, `ParseRequestURI`, `URL.String`), transcribed from the Go library.
-/

namespace Verif.Uri

/-- Where in a URL a text stands (`net/url`, type `encoding`): the modes used here. -/
inductive Mode where
  | path | query | fragment
  deriving DecidableEq, Repr

def isAlnum (c : UInt8) : Bool :=
  (97 ≤ c.toNat && c.toNat ≤ 122) || (65 ≤ c.toNat && c.toNat ≤ 90) || (48 ≤ c.toNat && c.toNat ≤ 57)

/-- `net/url` `shouldEscape`. -/
def shouldEscape (m : Mode) (c : UInt8) : Bool :=
  if isAlnum c then false
  else if c ∈ b!"-_.~" then false
  else if c ∈ b!"$&+,/:;=?@" then
    match m with
    | .path => c == 63
    | .query => true
    | .fragment => false
  else if m = .fragment && c ∈ b!"!()*" then false
  else true

/-- The digit in `upperhex`. -/
def upperhex (n : Nat) : UInt8 := (b!"0123456789ABCDEF").getD n 48

def percent (c : UInt8) : Bytes := [37, upperhex (c.toNat / 16), upperhex (c.toNat % 16)]

def escapeByte (m : Mode) (c : UInt8) : Bytes :=
  if c = 32 ∧ m = .query then [43] else if shouldEscape m c then percent c else [c]

/-- `net/url` `escape`; `QueryEscape` is `escape .query`. -/
def escape (m : Mode) (s : Bytes) : Bytes := s.flatMap (escapeByte m)

/-- `ishex` and `unhex`. -/
def unhex (c : UInt8) : Option Nat :=
  if 48 ≤ c.toNat ∧ c.toNat ≤ 57 then some (c.toNat - 48)
  else if 97 ≤ c.toNat ∧ c.toNat ≤ 102 then some (c.toNat - 97 + 10)
  else if 65 ≤ c.toNat ∧ c.toNat ≤ 70 then some (c.toNat - 65 + 10)
  else none

/-- `net/url` `unescape`; `QueryUnescape` is `unescape .query`; `none` is an error. -/
def unescape (m : Mode) : Bytes → Option Bytes
  | [] => some []
  | c :: s =>
    if c = 37 then
      match s with
      | a :: b :: s =>
        match unhex a, unhex b with
        | some x, some y => (unescape m s).map (UInt8.ofNat (x * 16 + y) :: ·)
        | _, _ => none
      | _ => none
    else (unescape m s).map ((if c = 43 ∧ m = .query then 32 else c) :: ·)

/-- `url.URL` without user information; the host is that of a URL made by hand. -/
structure Url where
  scheme : Bytes := []
  opaq : Bytes := []
  host : Bytes := []
  path : Bytes := []
  rawPath : Bytes := []
  forceQuery : Bool := false
  rawQuery : Bytes := []
  fragment : Bytes := []
  rawFragment : Bytes := []
  deriving DecidableEq, Repr

/-- `net/url` `getScheme`, from the byte `i` on; `none` is an error. -/
def getScheme (raw : Bytes) (i : Nat) : Bytes → Option (Bytes × Bytes)
  | [] => some ([], raw)
  | c :: s =>
    if (97 ≤ c.toNat && c.toNat ≤ 122) || (65 ≤ c.toNat && c.toNat ≤ 90) then getScheme raw (i + 1) s
    else if (48 ≤ c.toNat && c.toNat ≤ 57) || c ∈ b!"+-." then
      if i = 0 then some ([], raw) else getScheme raw (i + 1) s
    else if c = 58 then
      if i = 0 then none else some (raw.take i, s)
    else some ([], raw)

/-- `strings.Cut` at a byte: what is before and behind it. -/
def cut (sep : UInt8) : Bytes → Bytes × Bytes
  | [] => ([], [])
  | c :: s => if c = sep then ([], s) else (c :: (cut sep s).1, (cut sep s).2)

/-- `setPath`. -/
def Url.setPath (u : Url) (p : Bytes) : Option Url :=
  (unescape .path p).map fun path => { u with path, rawPath := if escape .path path = p then [] else p }

/-- `setFragment`. -/
def Url.setFragment (u : Url) (f : Bytes) : Option Url :=
  (unescape .fragment f).map fun fragment =>
    { u with fragment, rawFragment := if escape .fragment fragment = f then [] else f }

def isCtl (c : UInt8) : Bool := c.toNat < 32 || c.toNat == 127

/-- The path of a URL whose authority begins at `rest`, `parse` from `parseAuthority` on. Simplified: a non-empty
authority (`file://host/share`) is not modelled, it counts as an error. -/
def parseRest (viaRequest : Bool) (u : Url) (rest : Bytes) : Option Url :=
  if (u.scheme ≠ [] ∨ (viaRequest = false ∧ ¬ (b!"///").isPrefixOf rest)) ∧ (b!"//").isPrefixOf rest then
    let a := rest.drop 2
    if a.head? = some 47 ∨ a = [] then u.setPath a else none
  else u.setPath rest

/-- `net/url` `parse`; `none` is an error. -/
def parse (viaRequest : Bool) (raw : Bytes) : Option Url :=
  if raw.any isCtl then none
  else if raw = [] ∧ viaRequest then none
  else if raw = [42] then some { path := [42] }
  else
    match getScheme raw 0 raw with
    | none => none
    | some (scheme, rest) =>
      let u : Url := { scheme := asciiLower scheme }
      let (u, rest) : Url × Bytes :=
        if rest.getLast? = some 63 ∧ rest.count 63 = 1 then ({ u with forceQuery := true }, rest.dropLast)
        else ({ u with rawQuery := (cut 63 rest).2 }, (cut 63 rest).1)
      if rest.head? ≠ some 47 then
        if u.scheme ≠ [] then some { u with opaq := rest }
        else if viaRequest then none
        else if 58 ∈ (cut 47 rest).1 then none
        else parseRest viaRequest u rest
      else parseRest viaRequest u rest

/-- `url.Parse`. -/
def urlParse (raw : Bytes) : Option Url :=
  (parse false (cut 35 raw).1).bind fun u => if (cut 35 raw).2 = [] then some u else u.setFragment (cut 35 raw).2

/-- `validEncoded`. -/
def validEncoded (m : Mode) (s : Bytes) : Bool :=
  s.all fun c => c ∈ b!"!$&'()*+,;=:@" || c ∈ b!"[]" || c == 37 || !shouldEscape m c

/-- `EscapedPath`. -/
def Url.escapedPath (u : Url) : Bytes :=
  if u.rawPath ≠ [] ∧ validEncoded .path u.rawPath ∧ unescape .path u.rawPath = some u.path then u.rawPath
  else if u.path = [42] then [42]
  else escape .path u.path

/-- `EscapedFragment`. -/
def Url.escapedFragment (u : Url) : Bytes :=
  if u.rawFragment ≠ [] ∧ validEncoded .fragment u.rawFragment ∧ unescape .fragment u.rawFragment = some u.fragment then
    u.rawFragment
  else escape .fragment u.fragment

/-- `URL.String`. -/
def Url.toBytes (u : Url) : Bytes :=
  let scheme := if u.scheme ≠ [] then u.scheme ++ [58] else []
  let slashes := if (u.scheme ≠ [] ∨ u.host ≠ []) ∧ (u.host ≠ [] ∨ u.path ≠ []) then b!"//" else []
  let path := u.escapedPath
  let main :=
    if u.opaq ≠ [] then scheme ++ u.opaq
    else
      let start := scheme ++ slashes ++ u.host
      let start := if path ≠ [] ∧ path.head? ≠ some 47 ∧ u.host ≠ [] then start ++ [47] else start
      let start := if start = [] ∧ 58 ∈ (cut 47 path).1 then b!"./" else start
      start ++ path
  main ++ (if u.forceQuery ∨ u.rawQuery ≠ [] then 63 :: u.rawQuery else []) ++
    (if u.fragment ≠ [] then 35 :: u.escapedFragment else [])

/-- `strings.Trim(s, "/")`. -/
def trimSlashes (s : Bytes) : Bytes := ((s.dropWhile (· == 47)).reverse.dropWhile (· == 47)).reverse

/-- `strings.Replace(s, old, new, -1)` for one byte. -/
def replaceB (old new : UInt8) (s : Bytes) : Bytes := s.map fun c => if c = old then new else c

/-- `PathToURI` (`util/uri.go` 40-60). -/
def pathToURI (path : Bytes) : Bytes :=
  let path := replaceB 92 47 (trimSlashes path)
  match splitB 47 path with
  | [] => []      -- never reached: `strings.Split` delivers at least one part
  | first :: parts =>
    let first := if first.getLast? = some 58 then first else escape .query first
    let u : Url := { scheme := b!"file", path := 47 :: joinB 47 (first :: parts.map (escape .query)) }
    u.toBytes

/-- `URIToPath` (`util/uri.go` 14-37); `none` is an error. -/
def uriToPath (uri : Bytes) : Option Bytes :=
  (parse true uri).bind fun u =>
    if u.scheme ≠ b!"file" then none
    else (unescape .query u.path).map fun p => if 58 ∈ p then replaceB 47 92 (trimPrefix p [47]) else p

/-- `DecodeURIFromQuery` (`util/uri.go` 113-124), with which the workers begin (`internal/lsp/workspaceStore.go` 53,
80); `none` is an error. -/
def decodeURIFromQuery (uri : Bytes) : Option Bytes :=
  (unescape .query uri).bind fun uri => (urlParse uri).map Url.toBytes

/-- `IsURINavigatable` (`util/uri.go` 106-111). -/
def isNavigatable (uri : Bytes) : Bool := (b!"file://").isPrefixOf uri

/-- `string(r[0])` for `r := []rune(part)`: the first character; what is not UTF-8 becomes U+FFFD. -/
def firstRune (part : Bytes) : Bytes :=
  let r := decodeRune part
  if r.1 = runeError then [0xEF, 0xBF, 0xBD] else part.take r.2

/-- `GetURIID` (`util/uri.go` 64-92) with the hash (hexadecimal) as a parameter; `none` is a panic. -/
def getURIID (md5 : Bytes → Bytes) (uri : Bytes) : Option Bytes :=
  match urlParse uri with
  | none => some (md5 uri)
  | some u =>
    let parts := splitB 47 u.path
    let parts := if parts.getLast? = some [] then parts.dropLast else parts
    match parts.getLast? with
    | none => none
    | some last =>
      let initials := parts.dropLast.dropLast.flatMap fun part => if part = [] then [] else firstRune part
      some (last ++ [45] ++ initials ++ [45] ++ (md5 uri).take 8)

end Verif.Uri
