/-
What string literals of grammar descriptions mean.
-/
import Verif.Model.Escape

namespace Verif.Spec.Escape

/-- The text of a double-quoted literal without quotes: no quotes and backslashes except for pairs starting with a backslash
(regular expression of the lexer: `/repo/langdef/parser.go` line 168). -/
inductive Body : List Nat → Prop
  | nil : Body []
  | plain {b : Nat} {t : List Nat} : b ≠ 34 → b ≠ 92 → Body t → Body (b :: t)
  | pair {b : Nat} {t : List Nat} : Body t → Body (92 :: b :: t)

/-- Hexadecimal digits and their values: "0123456789", "abcdef", "ABCDEF". -/
def digits : List (Nat × Nat) :=
  (List.range 10).map (fun k => (48 + k, k)) ++ (List.range 6).map (fun k => (97 + k, 10 + k)) ++
    (List.range 6).map (fun k => (65 + k, 10 + k))

/-- A sequence of digits and its value. -/
inductive Hex : List Nat → Nat → Prop
  | nil : Hex [] 0
  | snoc {ds : List Nat} {n c d : Nat} : Hex ds n → (c, d) ∈ digits → Hex (ds ++ [c]) (n * 16 + d)

/-- UTF-8 bytes of a character. -/
def utf8 (c : Char) : List Nat := (String.utf8EncodeChar c).map (·.toNat)

/-- What a literal text denotes; `x` tells what `\x##` denotes. -/
inductive Denotes (x : Nat → List Nat → Prop) : List Nat → List Nat → Prop
  | nil : Denotes x [] []
  | plain {b : Nat} {t r : List Nat} : b ≠ 34 → b ≠ 92 → Denotes x t r → Denotes x (b :: t) (b :: r)
  | backslash {t r : List Nat} : Denotes x t r → Denotes x (92 :: 92 :: t) (92 :: r)
  | quote {t r : List Nat} : Denotes x t r → Denotes x (92 :: 34 :: t) (34 :: r)
  | n {t r : List Nat} : Denotes x t r → Denotes x (92 :: 110 :: t) (10 :: r)
  | r {t r : List Nat} : Denotes x t r → Denotes x (92 :: 114 :: t) (13 :: r)
  | t {t r : List Nat} : Denotes x t r → Denotes x (92 :: 116 :: t) (9 :: r)
  | x {ds t b r : List Nat} {n : Nat} : Hex ds n → ds.length = 2 → x n b → Denotes x t r →
    Denotes x (92 :: 120 :: ds ++ t) (b ++ r)
  | u {ds t r : List Nat} {c : Char} : Hex ds c.toNat → ds.length = 4 → Denotes x t r →
    Denotes x (92 :: 117 :: ds ++ t) (utf8 c ++ r)
  | U {ds t r : List Nat} {c : Char} : Hex ds c.toNat → ds.length = 8 → Denotes x t r →
    Denotes x (92 :: 85 :: ds ++ t) (utf8 c ++ r)

/-- Documentation (`/repo/langdef/docs.go` line 52): `\x##` is any byte. -/
def asByte (n : Nat) (b : List Nat) : Prop := b = [n]

/-- `\x##` is a rune. -/
def asRune (n : Nat) (b : List Nat) : Prop := ∃ c : Char, c.toNat = n ∧ b = utf8 c

/-- `\x##` is not used for bytes 128-255. -/
def asLowByte (n : Nat) (b : List Nat) : Prop := n < 128 ∧ b = [n]

end Verif.Spec.Escape
