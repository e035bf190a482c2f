import Verif.Common.Strings

/-! `headerStream` of internal/jsonrpc2/stream.go on the bytes of the connection. -/

namespace Verif.Rpc

/-- The UTF-8 encodings of the runes for which `unicode.IsSpace` holds (Go library `unicode/graphic.go`):
tab, LF, VT, FF, CR, space, U+0085, U+00A0, U+1680, U+2000 to U+200A, U+2028, U+2029, U+202F, U+205F, U+3000. -/
def spaces : List Bytes :=
  [[9], [10], [11], [12], [13], [32], [0xC2, 0x85], [0xC2, 0xA0], [0xE1, 0x9A, 0x80],
   [0xE2, 0x80, 0x80], [0xE2, 0x80, 0x81], [0xE2, 0x80, 0x82], [0xE2, 0x80, 0x83], [0xE2, 0x80, 0x84],
   [0xE2, 0x80, 0x85], [0xE2, 0x80, 0x86], [0xE2, 0x80, 0x87], [0xE2, 0x80, 0x88], [0xE2, 0x80, 0x89],
   [0xE2, 0x80, 0x8A], [0xE2, 0x80, 0xA8], [0xE2, 0x80, 0xA9], [0xE2, 0x80, 0xAF], [0xE2, 0x81, 0x9F],
   [0xE3, 0x80, 0x80]]

/-- Drop any of `ps` from the front of `s`, again and again, `fuel` times at most. -/
def strip (ps : List Bytes) : Nat → Bytes → Bytes
  | 0, s => s
  | fuel + 1, s =>
    match ps.find? (·.isPrefixOf s) with
    | some p => strip ps fuel (s.drop p.length)
    | none => s

/-- Left half of `strings.TrimSpace`: a rune is decoded at the front and dropped while it is a space.
`utf8.DecodeRune` gives a (valid) rune exactly if the string begins with the encoding of that rune. -/
def trimLeft (s : Bytes) : Bytes := strip spaces s.length s

/-- Right half of `strings.TrimSpace`: `utf8.DecodeLastRune` gives a (valid) rune exactly if the string ends
with the encoding of that rune. -/
def trimRight (s : Bytes) : Bytes := (strip (spaces.map List.reverse) s.length s.reverse).reverse

/-- `strings.TrimSpace`. -/
def trimSpace (s : Bytes) : Bytes := trimRight (trimLeft s)

/-- internal/jsonrpc2/stream.go 97 `s.in.ReadString('\n')`: the bytes up to and including the first line feed and
what follows; `none` if the stream ends before (the error case of line 99). The split of the incoming bytes into
reads of the operating system is hidden by `bufio.Reader`. -/
def readString : Bytes → Option (Bytes × Bytes)
  | [] => none
  | c :: s => if c = 10 then some ([10], s) else (readString s).map fun r => (c :: r.1, r.2)

/-- The value of a string of digits, `none` if empty or another byte occurs. -/
def parseDigits (s : Bytes) : Option Nat :=
  if s ≠ [] ∧ s.all (fun c => 48 ≤ c.toNat && c.toNat ≤ 57) then some (s.foldl (fun n c => n * 10 + (c.toNat - 48)) 0)
  else none

/-- `strconv.ParseInt(s, 10, 32)`: an optional sign, digits, a value of 32 bits; `none` is an error. -/
def parseInt32 (s : Bytes) : Option Int :=
  let r : Option Int := match s with
    | 43 :: t => (parseDigits t).map Int.ofNat
    | 45 :: t => (parseDigits t).map fun n => - Int.ofNat n
    | t => (parseDigits t).map Int.ofNat
  r.filter fun n => decide (-2147483648 ≤ n ∧ n ≤ 2147483647)

/-- `strings.IndexRune(line, ':')` and the two slices of stream.go 107-111: the part before the first colon and the
part after it; `none` if there is no colon. -/
def cutColon : Bytes → Option (Bytes × Bytes)
  | [] => none
  | c :: s => if c = 58 then some ([], s) else (cutColon s).map fun r => (c :: r.1, r.2)

/-- The loop over header lines, stream.go 96-123, with the variable `length`; every turn consumes at least one
byte, so a number of turns equal to the number of bytes is enough (`fuel`). `none`: `Read` returns an error. -/
def readHeader : Nat → Int → Bytes → Option (Int × Bytes)
  | 0, _, _ => none
  | fuel + 1, length, s =>
    match readString s with
    | none => none
    | some (line, rest) =>
      let line := trimSpace line
      if line = [] then some (length, rest)
      else match cutColon line with
        | none => none
        | some (name, value) =>
          if name = b!"Content-Length" then
            match parseInt32 (trimSpace value) with
            | none => none
            | some n => if n ≤ 0 then none else readHeader fuel n rest
          else readHeader fuel length rest

/-- `headerStream.Read`, stream.go 88-133: the next message and the bytes behind it; `none` is an error, after
which `Run` gives up the connection. The context of the connection is never cancelled (main.go 56), so the test at
the beginning is left out; the count of bytes that is returned for statistics is left out. -/
def read (s : Bytes) : Option (Bytes × Bytes) :=
  match readHeader s.length 0 s with
  | none => none
  | some (length, rest) =>
    if length = 0 then none
    else if rest.length < length.toNat then none
    else some (rest.take length.toNat, rest.drop length.toNat)

/-- The bytes that `headerStream.Write` puts out, stream.go 135-150, when the writer does not fail. -/
def write (data : Bytes) : Bytes := b!"Content-Length: " ++ itoa data.length ++ b!"\r\n\r\n" ++ data

/-- `Run` (jsonrpc2.go 310-316) reading message after message until `Read` fails: the messages. -/
def readAll : Nat → Bytes → List Bytes
  | 0, _ => []
  | fuel + 1, s =>
    match read s with
    | none => []
    | some (d, rest) => d :: readAll fuel rest

end Verif.Rpc
