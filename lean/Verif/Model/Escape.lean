/-
Model of string literals in grammar descriptions: `processStringToken` of `/repo/langdef/parser.go`.
-/
import Verif.Model.Tree
import Verif.Model.Go
import Verif.Model.Parser

namespace Verif.Model

open Verif.Model.Tree (bindRun)

/-- Errors of `processStringToken`: `invalidEscapeError`, `invalidRuneError`. -/
inductive EscErr
  | escape
  | rune
deriving DecidableEq

/-- Value of a hexadecimal digit (used by `strconv.ParseUint`). -/
def hexDigit (c : Nat) : Option Nat :=
  if 48 ≤ c ∧ c ≤ 57 then some (c - 48)
  else if 97 ≤ c ∧ c ≤ 102 then some (c - 97 + 10)
  else if 65 ≤ c ∧ c ≤ 70 then some (c - 65 + 10)
  else none

/-- The loop of `strconv.ParseUint(s, 16, 32)`; `none` is an error (a wrong digit or a value out of range). -/
def parseHexLoop : List Nat → Nat → Option Nat
  | [], n => some n
  | c :: cs, n =>
    match hexDigit c with
    | none => none
    | some d => if n * 16 + d ≥ 2 ^ 32 then none else parseHexLoop cs (n * 16 + d)

/-- `strconv.ParseUint(s, 16, 32)`: an empty string is an error. -/
def parseHex (s : List Nat) : Option Nat := if s = [] then none else parseHexLoop s 0

/-- `utf8.ValidRune(rune(n))` for a 32-bit unsigned `n`: large numbers become negative. -/
def validRune (n : Nat) : Bool := n < 0xD800 || (0xDFFF < n && n ≤ 0x10FFFF)

/-- `utf8.AppendRune` for a non-negative rune. -/
def appendRune (p : List Nat) (r : Nat) : List Nat :=
  if r ≤ 0x7F then p ++ [r]
  else if r ≤ 0x7FF then p ++ [192 + r / 64, 128 + r % 64]
  else
    let r := if r > 0x10FFFF ∨ 0xD800 ≤ r ∧ r ≤ 0xDFFF then 0xFFFD else r
    if r ≤ 0xFFFF then p ++ [224 + r / 4096, 128 + r / 64 % 64, 128 + r % 64]
    else p ++ [240 + r / 262144, 128 + r / 4096 % 64, 128 + r / 64 % 64, 128 + r % 64]

/-- `/repo/langdef/parser.go` lines 139-148, `escapeCharMap`: the substitute and the number of digits. -/
def escapeEntry (letter : Nat) : Option (Nat × Nat) :=
  if letter = 92 then some (92, 0)
  else if letter = 34 then some (34, 0)
  else if letter = 110 then some (10, 0)
  else if letter = 114 then some (13, 0)
  else if letter = 116 then some (9, 0)
  else if letter = 120 then some (0, 2)
  else if letter = 117 then some (0, 4)
  else if letter = 85 then some (0, 8)
  else none

/-- `/repo/langdef/parser.go` lines 357-372, `peekRune`; `none` is a panic. -/
def peekRune (content : List Nat) (hexLen : Nat) : Option (Except EscErr Nat) :=
  if content.length < hexLen + 3 then some (.error .escape)
  else (Go.slice content 2 (hexLen + 2)).map fun digits =>
    match parseHex digits with
    | none => .error .escape
    | some n => if validRune n then .ok n else .error .rune

/-- `/repo/langdef/parser.go` lines 375-405, the loop of `processStringToken`. -/
def escapeLoop : Nat → List Nat → List Nat → Run (Except EscErr (List Nat))
  | 0, _, _ => .timeout
  | fuel + 1, content, result =>
    match content.findIdx? (· = 92) with
    | none => .done (.ok (result ++ content))
    | some slashPos =>
      let result := result ++ content.take slashPos
      let content := content.drop slashPos
      orPanic (Go.index content 1) fun letter =>
        match escapeEntry letter with
        | none => .done (.error .escape)
        | some (substitute, hexLen) =>
          if hexLen = 0 then escapeLoop fuel (content.drop 2) (result ++ [substitute])
          else orPanic (peekRune content hexLen) fun r =>
            match r with
            | .error e => .done (.error e)
            | .ok r => escapeLoop fuel (content.drop (hexLen + 2)) (appendRune result r)

/-- `/repo/langdef/parser.go` lines 351-408, `processStringToken`: the new content of a token. -/
def processString (fuel : Nat) (content : List Nat) : Run (Except EscErr (List Nat)) :=
  orPanic (Go.index content 0) fun first =>
    if first ≠ 34 ∨ 92 ∉ content then .done (.ok content)
    else escapeLoop fuel content []

end Verif.Model
