import Verif.Rpc.Stream

/-! What a frame is: header lines, an empty line, the announced number of bytes. -/

namespace Verif.Rpc

/-- `s` is a sequence of spaces. -/
def SpaceRun (s : Bytes) : Prop := ∃ l : List Bytes, (∀ p ∈ l, p ∈ spaces) ∧ s = l.flatten

/-- A line with the line feed that ends it. -/
def Line (l : Bytes) : Prop := ∃ b, l = b ++ [10] ∧ (10 : UInt8) ∉ b

/-- The line is a header field with this name and this value: up to spaces around, `name:value`. -/
def Field (l name value : Bytes) : Prop :=
  ∃ v, trimSpace l = name ++ [58] ++ v ∧ (58 : UInt8) ∉ name ∧ value = trimSpace v

/-- A header line that can be read: a field, and if it is the content length its value is a positive number. -/
def GoodLine (l : Bytes) : Prop :=
  Line l ∧ ∃ name value, Field l name value ∧
    (name = b!"Content-Length" → ∃ n : Int, parseInt32 value = some n ∧ 0 < n)

/-- The last content length among the header lines `ls` is `n`. -/
def Announces (ls : List Bytes) (n : Nat) : Prop :=
  ∃ pre l post value, ls = pre ++ l :: post ∧ Field l b!"Content-Length" value ∧ parseInt32 value = some (n : Int) ∧
    ∀ l' ∈ post, ∀ v, ¬ Field l' b!"Content-Length" v

/-- `s` begins with a frame that carries the message `d`; `rest` follows. -/
def Frame (s d rest : Bytes) : Prop :=
  ∃ (ls : List Bytes) (blank : Bytes), s = ls.flatten ++ blank ++ d ++ rest ∧ (∀ l ∈ ls, GoodLine l) ∧
    Line blank ∧ trimSpace blank = [] ∧ Announces ls d.length

end Verif.Rpc
