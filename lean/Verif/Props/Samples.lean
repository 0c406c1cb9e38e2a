/-
Compiled sample grammars and token streams for examples and counterexamples.
-/
import Verif.Model.Compile

namespace Verif.Props

open Verif.Model

/-- A token stream without hooks: listed tokens, then end of input. -/
def streamEnv (g : Grammar) : PEnv (List Token) where
  g := g
  upper := id
  pull := fun s _ => match s with
    | [] => .done ([], .ok (some eoiToken))
    | t :: ts => .done (ts, .ok (some t))
  unread := fun s t => some (t :: s)
  fullSource := true

/-- Tokens of sample grammars: letters (type 0), digits (type 1), spaces (type 2, side) and literals 'x', 'y', '1', '2',
'3' (3-7). -/
def sampleTokens : List GToken :=
  [⟨[110], some [], 0, {}⟩, ⟨[100], some [], 0, {}⟩, ⟨[115], some [], 0, { side := true, noLiterals := true }⟩,
    ⟨[120], none, 0, { literal := true }⟩, ⟨[121], none, 0, { literal := true }⟩, ⟨[49], none, 0, { literal := true }⟩,
    ⟨[50], none, 0, { literal := true }⟩, ⟨[51], none, 0, { literal := true }⟩]

/-- Type of a token consisting of one character. -/
def charType (c : Nat) : Nat := if 97 ≤ c ∧ c ≤ 122 then 0 else if c = 32 then 2 else 1

/-- Sample `FindString`. -/
def sampleFind (j : Nat) (l : List Nat) : List Nat :=
  match l with
  | [c] => if charType c = j then l else []
  | _ => []

/-- Compiles node definitions. -/
def sampleCompile (defs : List Chunk) : Run (Except CompileErr Grammar) :=
  compile id sampleFind sampleTokens (defs.map some) (List.range defs.length) (List.range defs.length)
    (List.range defs.length) 100

/-- One-character tokens of a text. -/
def charTokens (s : String) : List Token :=
  s.toList.map fun c => { type := charType c.toNat, typeName := "", content := [c.toNat], pos := ⟨none, 0⟩ }

/-- Outcome of a parse. -/
inductive Outcome
  | accepted
  | failed (e : PErr)
  | badGrammar
  | panic
  | timeout
deriving DecidableEq

/-- Compiles, then parses a sequence of one-character tokens. -/
def sampleParse (defs : List Chunk) (s : String) (fuel : Nat) : Outcome :=
  match sampleCompile defs with
  | .done (.ok g) =>
    match parse (streamEnv g) fuel (charTokens s) ⟨none, 0⟩ with
    | .done (.ok _) => .accepted
    | .done (.error e) => .failed e
    | .panic => .panic
    | .timeout => .timeout
  | _ => .badGrammar

/-- `'x'`. -/
def cX : Chunk := .token 3
/-- `'y'`. -/
def cY : Chunk := .token 4
/-- `a, b, …`. -/
def cSeq (l : List Chunk) : Chunk := .group l false false
/-- `[a, b, …]`. -/
def cOpt (l : List Chunk) : Chunk := .group l true false
/-- `{a, b, …}`. -/
def cRep (l : List Chunk) : Chunk := .group l true true

end Verif.Props
