/-
The generated grammar of the calculator, `examples/calc/internal/grammar.go`, and its description `examples/calc/internal/grammar.llx`.

Regular expressions are texts here; node names are indexes: calcGrammar 0, expr 1, assign 2, func 3, pro 4, pow 5, value 6, call 7.
-/
import Verif.Model.Compile

namespace Verif.Model.Calc

/-- `/repo/examples/calc/internal/grammar.go` lines 8-23, `Tokens`. -/
def tokens : List GToken :=
  [
    ⟨[115, 112, 97, 99, 101], some [92, 115, 43], 0, { side := true }⟩,
    ⟨[110, 117, 109, 98, 101, 114], some [45, 63, 92, 100, 43, 40, 63, 58, 92, 46, 92, 100, 43, 41, 63, 40, 63, 58, 91, 69, 101, 93, 45, 63, 92, 100, 43, 41, 63], 0, {}⟩,
    ⟨[110, 97, 109, 101], some [91, 65, 45, 90, 97, 45, 122, 93, 91, 65, 45, 90, 97, 45, 122, 48, 45, 57, 95, 93, 42], 0, {}⟩,
    ⟨[111, 112], some [91, 40, 41, 44, 61, 42, 92, 47, 94, 43, 45, 93], 0, {}⟩,
    ⟨[109, 105, 110, 117, 115], some [45], 1, {}⟩,
    ⟨[40], none, 0, { literal := true }⟩,
    ⟨[44], none, 0, { literal := true }⟩,
    ⟨[41], none, 0, { literal := true }⟩,
    ⟨[61], none, 0, { literal := true }⟩,
    ⟨[45], none, 0, { literal := true }⟩,
    ⟨[43], none, 0, { literal := true }⟩,
    ⟨[42], none, 0, { literal := true }⟩,
    ⟨[47], none, 0, { literal := true }⟩,
    ⟨[94], none, 0, { literal := true }⟩]

/-- `/repo/examples/calc/internal/grammar.go` lines 7-151, `calcGrammar`. -/
def grammar : Grammar where
  tokens := tokens
  firsts := [0, 1, 5, 8, 16, 19, 22, 25]
  tables :=
    { states := [
      ⟨31#64, 0, 1, 0, 3⟩, ⟨31#64, 0, 0, 6, 10⟩, ⟨15#64, 0, 0, 10, 13⟩, ⟨25#64, 0, 0, 13, 16⟩, ⟨15#64, 0, 0, 16, 19⟩,
      ⟨5#64, 0, 0, 19, 20⟩, ⟨9#64, 0, 0, 20, 21⟩, ⟨31#64, 0, 0, 21, 25⟩, ⟨5#64, 0, 0, 25, 26⟩, ⟨9#64, 0, 0, 26, 27⟩,
      ⟨13#64, 0, 0, 27, 29⟩, ⟨9#64, 0, 0, 29, 30⟩, ⟨9#64, 0, 0, 30, 31⟩, ⟨31#64, 0, 0, 31, 35⟩, ⟨9#64, 0, 0, 35, 37⟩,
      ⟨5#64, 0, 0, 37, 38⟩, ⟨15#64, 0, 0, 38, 41⟩, ⟨9#64, 0, 0, 41, 44⟩, ⟨15#64, 0, 0, 44, 47⟩, ⟨15#64, 0, 0, 47, 50⟩,
      ⟨9#64, 0, 0, 50, 52⟩, ⟨15#64, 0, 0, 52, 55⟩, ⟨15#64, 1, 2, 55, 57⟩, ⟨31#64, 0, 0, 59, 63⟩, ⟨9#64, 0, 0, 63, 64⟩,
      ⟨5#64, 0, 0, 64, 65⟩, ⟨9#64, 0, 0, 65, 66⟩, ⟨31#64, 0, 0, 66, 71⟩, ⟨9#64, 0, 0, 71, 72⟩, ⟨9#64, 0, 0, 72, 74⟩,
      ⟨31#64, 0, 0, 74, 78⟩]
      multi := [⟨2, 3, 6⟩, ⟨2, 57, 59⟩]
      rules := [
        ⟨1, -1, 1⟩, ⟨5, -1, 1⟩, ⟨9, -1, 1⟩, ⟨2, -1, 1⟩, ⟨2, -1, 2⟩, ⟨2, -1, 3⟩, ⟨1, 3, 4⟩, ⟨2, 3, 4⟩, ⟨5, 3, 4⟩, ⟨9, 2, -1⟩,
        ⟨1, 3, 4⟩, ⟨2, 3, 4⟩, ⟨5, 3, 4⟩, ⟨-1, -1, -1⟩, ⟨9, 4, -1⟩, ⟨10, 4, -1⟩, ⟨1, 3, 4⟩, ⟨2, 3, 4⟩, ⟨5, 3, 4⟩, ⟨2, 6, -1⟩,
        ⟨8, 7, -1⟩, ⟨1, -1, 1⟩, ⟨2, -1, 1⟩, ⟨5, -1, 1⟩, ⟨9, -1, 1⟩, ⟨2, 9, -1⟩, ⟨5, 10, -1⟩, ⟨2, 14, -1⟩, ⟨7, 12, -1⟩,
        ⟨7, 12, -1⟩, ⟨8, 13, -1⟩, ⟨1, -1, 1⟩, ⟨2, -1, 1⟩, ⟨5, -1, 1⟩, ⟨9, -1, 1⟩, ⟨-1, 11, -1⟩, ⟨6, 15, -1⟩, ⟨2, 14, -1⟩,
        ⟨1, 17, 5⟩, ⟨2, 17, 5⟩, ⟨5, 17, 5⟩, ⟨-1, -1, -1⟩, ⟨11, 18, -1⟩, ⟨12, 18, -1⟩, ⟨1, 17, 5⟩, ⟨2, 17, 5⟩, ⟨5, 17, 5⟩,
        ⟨1, 20, 6⟩, ⟨2, 20, 6⟩, ⟨5, 20, 6⟩, ⟨-1, -1, -1⟩, ⟨13, 21, -1⟩, ⟨1, -1, 5⟩, ⟨2, -1, 5⟩, ⟨5, -1, 5⟩, ⟨1, -1, -1⟩,
        ⟨5, 23, -1⟩, ⟨2, -1, -1⟩, ⟨2, -1, 7⟩, ⟨1, 24, 1⟩, ⟨2, 24, 1⟩, ⟨5, 24, 1⟩, ⟨9, 24, 1⟩, ⟨7, -1, -1⟩, ⟨2, 26, -1⟩,
        ⟨5, 27, -1⟩, ⟨1, 29, 1⟩, ⟨2, 29, 1⟩, ⟨5, 29, 1⟩, ⟨7, -1, -1⟩, ⟨9, 29, 1⟩, ⟨7, -1, -1⟩, ⟨-1, 28, -1⟩, ⟨6, 30, -1⟩,
        ⟨1, 29, 1⟩, ⟨2, 29, 1⟩, ⟨5, 29, 1⟩, ⟨9, 29, 1⟩] }

/-- Literal `"("` in `/repo/examples/calc/internal/grammar.llx` lines 10-17. -/
def lParen : Chunk := .token 5
/-- Literal `","` in `/repo/examples/calc/internal/grammar.llx` lines 10-17. -/
def comma : Chunk := .token 6
/-- Literal `")"` in `/repo/examples/calc/internal/grammar.llx` lines 10-17. -/
def rParen : Chunk := .token 7
/-- Literal `"="` in `/repo/examples/calc/internal/grammar.llx` lines 10-17. -/
def equals : Chunk := .token 8
/-- Literal `"-"` in `/repo/examples/calc/internal/grammar.llx` lines 10-17. -/
def minus : Chunk := .token 9
/-- Literal `"+"` in `/repo/examples/calc/internal/grammar.llx` lines 10-17. -/
def plus : Chunk := .token 10
/-- Literal `"*"` in `/repo/examples/calc/internal/grammar.llx` lines 10-17. -/
def times : Chunk := .token 11
/-- Literal `"/"` in `/repo/examples/calc/internal/grammar.llx` lines 10-17. -/
def divide : Chunk := .token 12
/-- Literal `"^"` in `/repo/examples/calc/internal/grammar.llx` lines 10-17. -/
def caret : Chunk := .token 13
/-- `$number` in `/repo/examples/calc/internal/grammar.llx` line 16. -/
def numberTok : Chunk := .token 1
/-- `$name` in `/repo/examples/calc/internal/grammar.llx` lines 11-17. -/
def nameTok : Chunk := .token 2

/-- `/repo/examples/calc/internal/grammar.llx` lines 10-17: definitions of nodes. -/
def bodies : List Chunk :=
  [.group [.variant [.node 1, .node 2, .node 3]] false false,
    .group [.group [minus] true false, .node 4, .group [.variant [plus, minus], .node 4] true true] false false,
    .group [nameTok, equals, .node 1] false false,
    .group [nameTok, lParen, .group [nameTok, .group [comma, nameTok] true true] true false, rParen, equals, .node 1] false false,
    .group [.node 5, .group [.variant [times, divide], .node 5] true true] false false,
    .group [.node 6, .group [caret, .node 5] true false] false false,
    .group [.variant [numberTok, nameTok, .node 7, .group [lParen, .node 1, rParen] false false]] false false,
    .group [nameTok, lParen, .group [.node 1, .group [comma, .node 1] true true] true false, rParen] false false]

/-- `FindString` of token types for texts of literals: `$op` matches any of them, `$minus` matches only `-`. -/
def find (j : Nat) (l : List Nat) : List Nat :=
  match l with
  | [c] => if j = 3 ∧ c ∈ [40, 41, 44, 61, 42, 47, 94, 43, 45] ∨ j = 4 ∧ c = 45 then [c] else []
  | _ => []

end Verif.Model.Calc
