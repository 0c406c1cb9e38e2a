/-
Specification of text positions and newline normalisation; independent of the model of `source.go`.

`runes` of a byte string are given by a decoder `width` (number of bytes of the first rune of a non-empty string),
so that the same definitions serve arbitrary bytes; for well-formed UTF-8 texts see `Encoded`.
-/

namespace Verif.Spec.Text

/-- Text lines: parts between newline bytes (there is always at least one, maybe empty, line). -/
def splitLines : List Nat → List (List Nat)
  | [] => [[]]
  | b :: t =>
    if b = 10 then [] :: splitLines t
    else match splitLines t with
      | [] => [[b]]
      | l :: ls => (b :: l) :: ls

/-- Offset of the first byte of line number `i` (0-based): all previous lines with their newlines. -/
def lineStart (lines : List (List Nat)) (i : Nat) : Nat :=
  ((lines.take i).map fun l => l.length + 1).sum

/-- Part of a text after its last newline. -/
def lastLine (t : List Nat) : List Nat := (t.reverse.takeWhile (· ≠ 10)).reverse

/-- Offset reached from the start of `t` by skipping `n` runes, stopping at the end. -/
def skipRunes (width : List Nat → Nat) : Nat → List Nat → Nat
  | 0, _ => 0
  | _ + 1, [] => 0
  | n + 1, t@(_ :: _) => width t + skipRunes width n (t.drop (width t))

/-- Offsets at which a rune starts, and the end of the text. -/
def Boundary (width : List Nat → Nat) (t : List Nat) (p : Nat) : Prop := ∃ n, p = skipRunes width n t

/-- Replacement of `\r\n` and `\r` with `\n`, left to right. -/
def normalize : List Nat → List Nat
  | [] => []
  | 13 :: 10 :: t => 10 :: normalize t
  | 13 :: t => 10 :: normalize t
  | b :: t => b :: normalize t

/-- UTF-8 encoding of a Unicode scalar value (RFC 3629). -/
def encodeRune (r : Nat) : List Nat :=
  if r < 0x80 then [r]
  else if r < 0x800 then [0xC0 + r / 64, 0x80 + r % 64]
  else if r < 0x10000 then [0xE0 + r / 4096, 0x80 + r / 64 % 64, 0x80 + r % 64]
  else [0xF0 + r / 262144, 0x80 + r / 4096 % 64, 0x80 + r / 64 % 64, 0x80 + r % 64]

/-- Unicode scalar values. -/
def IsScalar (r : Nat) : Prop := r < 0xD800 ∨ (0xE000 ≤ r ∧ r < 0x110000)

/-- UTF-8 text of a list of runes. -/
def encode (rs : List Nat) : List Nat := rs.flatMap encodeRune

end Verif.Spec.Text
