import Verif.Common.Bytes

/-! Specification for URIs: how an editor writes the URI of a file. -/

namespace Verif.Uri

/-- The characters that stand for themselves in a URI wherever they are (RFC 3986, 2.3). -/
def unreserved (c : UInt8) : Prop :=
  (97 ≤ c.toNat ∧ c.toNat ≤ 122) ∨ (65 ≤ c.toNat ∧ c.toNat ≤ 90) ∨ (48 ≤ c.toNat ∧ c.toNat ≤ 57) ∨ c ∈ b!"-_.~"

instance (c : UInt8) : Decidable (unreserved c) := by unfold unreserved; infer_instance

def hexDigit (n : Nat) : UInt8 := if n < 10 then UInt8.ofNat (48 + n) else UInt8.ofNat (55 + n)

/-- One byte of a path: itself if it is unreserved or a slash, `%XX` otherwise. -/
def editorByte (c : UInt8) : Bytes :=
  if unreserved c ∨ c = 47 then [c] else [37, hexDigit (c.toNat / 16), hexDigit (c.toNat % 16)]

/-- The URI that an editor uses for the file with this path (as VS Code's `URI.toString` writes it). -/
def editorURI (path : Bytes) : Bytes := b!"file://" ++ path.flatMap editorByte

/-- An absolute path as walking through a directory delivers it: no slash at the end, none twice at the beginning, no
backslash; the first name does not end in a colon. -/
structure Listed (path : Bytes) : Prop where
  shape : ∃ q : Bytes, path = 47 :: q ∧ q.head? ≠ some 47 ∧ q.getLast? ≠ some 47 ∧ (q.takeWhile (· ≠ 47)).getLast? ≠ some 58
  backslash : 92 ∉ path

end Verif.Uri
