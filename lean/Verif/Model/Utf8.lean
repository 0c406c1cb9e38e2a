/-
Model of the parts of the Go standard library package `unicode/utf8` used by the code:
`DecodeRune` and `RuneCount` (exact, including the treatment of invalid and truncated encodings).

Bytes are natural numbers; values of 256 and above do not occur in Go and are treated as invalid bytes.
-/
import Mathlib.Tactic.Ring

namespace Verif.Model

namespace Utf8

/-- `utf8.RuneError`. -/
def runeError : Nat := 0xFFFD

/-- Tables `first` and `acceptRanges` of `unicode/utf8`: encoded length (0 - invalid first byte) and the range of
the second byte. -/
def first (b : Nat) : Nat × Nat × Nat :=
  if b < 0xC2 then (0, 0, 0)
  else if b ≤ 0xDF then (2, 0x80, 0xBF)
  else if b = 0xE0 then (3, 0xA0, 0xBF)
  else if b ≤ 0xEC then (3, 0x80, 0xBF)
  else if b = 0xED then (3, 0x80, 0x9F)
  else if b ≤ 0xEF then (3, 0x80, 0xBF)
  else if b = 0xF0 then (4, 0x90, 0xBF)
  else if b ≤ 0xF3 then (4, 0x80, 0xBF)
  else if b = 0xF4 then (4, 0x80, 0x8F)
  else (0, 0, 0)

/-- Continuation byte. -/
def cont (b : Nat) : Bool := 0x80 ≤ b && b ≤ 0xBF

/-- `utf8.DecodeRune`: rune and width in bytes. -/
def decodeRune : List Nat → Nat × Nat
  | [] => (runeError, 0)
  | b0 :: t =>
    if b0 < 0x80 then (b0, 1)
    else match first b0, t with
      | (2, lo, hi), b1 :: _ =>
        if lo ≤ b1 ∧ b1 ≤ hi then ((b0 - 0xC0) * 64 + (b1 - 0x80), 2) else (runeError, 1)
      | (3, lo, hi), b1 :: b2 :: _ =>
        if lo ≤ b1 ∧ b1 ≤ hi ∧ cont b2 then
          (((b0 - 0xE0) * 64 + (b1 - 0x80)) * 64 + (b2 - 0x80), 3)
        else (runeError, 1)
      | (4, lo, hi), b1 :: b2 :: b3 :: _ =>
        if lo ≤ b1 ∧ b1 ≤ hi ∧ cont b2 ∧ cont b3 then
          ((((b0 - 0xF0) * 64 + (b1 - 0x80)) * 64 + (b2 - 0x80)) * 64 + (b3 - 0x80), 4)
        else (runeError, 1)
      | _, _ => (runeError, 1)

/-- Width of the first rune of a list starting with `b`, at least 1. -/
theorem decodeRune_width_pos (b : Nat) (t : List Nat) : 1 ≤ (decodeRune (b :: t)).2 := by
  simp only [decodeRune]
  split
  · exact Nat.le_refl 1
  · split
    · split <;> simp only [] <;> omega
    · split <;> simp only [] <;> omega
    · split <;> simp only [] <;> omega
    · exact Nat.le_refl 1

/-- `utf8.RuneCount`: number of runes, an erroneous or truncated encoding is a single rune of width 1. -/
def runeCount : List Nat → Nat
  | [] => 0
  | b :: t => runeCount ((b :: t).drop (decodeRune (b :: t)).2) + 1
termination_by l => l.length
decreasing_by
  have := decodeRune_width_pos b t
  simp only [List.length_drop, List.length_cons]
  omega

end Utf8

end Verif.Model
