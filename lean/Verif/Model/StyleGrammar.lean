/-
The generated grammar of the style checker, `examples/style-check/internal/grammar.go`, its description `examples/style-check/internal/grammar.llx`,
and the whole check of a source, `examples/style-check/internal/lib.go`.

Regular expressions are texts here; node names are indexes: cDataGrammar 0, var-def 1, type-def 2, type 3, name 4, size-def 5, simple-type 6, struct-type 7.
-/
import Verif.Model.Compile
import Verif.Model.NewParser
import Verif.Model.StyleCheck

namespace Verif.Model.Style

open Tree (bindRun)

/-- `/repo/examples/style-check/internal/grammar.go` lines 8-23, `Tokens`. -/
def tokens : List GToken :=
  [
    ⟨[105, 110, 100, 101, 110, 116], some [92, 110, 91, 32, 92, 116, 93, 42], 0, { side := true }⟩,
    ⟨[115, 112, 97, 99, 101], some [91, 32, 92, 116, 93, 43], 0, { side := true }⟩,
    ⟨[99, 111, 109, 109, 101, 110, 116], some [92, 47, 92, 42, 46, 42, 63, 92, 42, 92, 47], 0, { side := true }⟩,
    ⟨[110, 117, 109, 98, 101, 114], some [92, 100, 43], 0, {}⟩,
    ⟨[110, 97, 109, 101], some [91, 65, 45, 90, 97, 45, 122, 95, 93, 91, 65, 45, 90, 97, 45, 122, 95, 48, 45, 57, 93, 42], 0, {}⟩,
    ⟨[111, 112], some [91, 123, 125, 92, 91, 92, 93, 44, 59, 93], 0, {}⟩,
    ⟨[44], none, 0, { literal := true }⟩,
    ⟨[59], none, 0, { literal := true }⟩,
    ⟨[116, 121, 112, 101, 100, 101, 102], none, 0, { literal := true }⟩,
    ⟨[115, 116, 114, 117, 99, 116], none, 0, { literal := true }⟩,
    ⟨[123], none, 0, { literal := true }⟩,
    ⟨[125], none, 0, { literal := true }⟩,
    ⟨[91], none, 0, { literal := true }⟩,
    ⟨[93], none, 0, { literal := true }⟩]

/-- `/repo/examples/style-check/internal/grammar.go` lines 24-33, `Nodes`: names. -/
def nodeNames : List String := ["cDataGrammar", "var-def", "type-def", "type", "name", "size-def", "simple-type", "struct-type"]

/-- `/repo/examples/style-check/internal/grammar.go` lines 7-99, `cDataGrammar`. -/
def grammar : Grammar where
  tokens := tokens
  firsts := [0, 2, 8, 12, 13, 14, 17, 18]
  tables :=
    { states := [
      ⟨23#64, 0, 0, 0, 3⟩, ⟨23#64, 0, 0, 3, 7⟩, ⟨23#64, 0, 0, 7, 9⟩, ⟨23#64, 0, 0, 9, 10⟩, ⟨39#64, 0, 0, 10, 13⟩,
      ⟨39#64, 0, 0, 13, 15⟩, ⟨23#64, 0, 0, 15, 16⟩, ⟨39#64, 0, 0, 16, 18⟩, ⟨23#64, 0, 0, 18, 19⟩, ⟨23#64, 0, 0, 19, 21⟩,
      ⟨23#64, 0, 0, 21, 22⟩, ⟨39#64, 0, 0, 22, 24⟩, ⟨23#64, 0, 0, 24, 26⟩, ⟨23#64, 0, 0, 26, 27⟩, ⟨39#64, 0, 0, 27, 28⟩,
      ⟨15#64, 0, 0, 28, 29⟩, ⟨39#64, 0, 0, 29, 30⟩, ⟨23#64, 0, 0, 30, 31⟩, ⟨23#64, 0, 0, 31, 32⟩, ⟨39#64, 0, 0, 32, 33⟩,
      ⟨23#64, 0, 0, 33, 35⟩, ⟨55#64, 0, 0, 35, 38⟩]
      multi := []
      rules := [
        ⟨4, 1, 1⟩, ⟨8, 1, 2⟩, ⟨9, 1, 1⟩, ⟨-1, -1, -1⟩, ⟨4, 1, 1⟩, ⟨8, 1, 2⟩, ⟨9, 1, 1⟩, ⟨4, 3, 3⟩, ⟨9, 3, 3⟩, ⟨4, 4, 4⟩,
        ⟨6, 6, -1⟩, ⟨7, -1, -1⟩, ⟨12, 4, 5⟩, ⟨6, 6, -1⟩, ⟨7, -1, -1⟩, ⟨4, 7, 4⟩, ⟨-1, 5, -1⟩, ⟨12, 7, 5⟩, ⟨8, 9, -1⟩, ⟨4, 10, 3⟩,
        ⟨9, 10, 3⟩, ⟨4, 11, 4⟩, ⟨7, -1, -1⟩, ⟨12, 11, 5⟩, ⟨4, -1, 6⟩, ⟨9, -1, 7⟩, ⟨4, -1, -1⟩, ⟨12, 15, -1⟩, ⟨3, 16, -1⟩, ⟨13, -1, -1⟩,
        ⟨4, -1, -1⟩, ⟨9, 19, -1⟩, ⟨10, 20, -1⟩, ⟨4, 21, 1⟩, ⟨9, 21, 1⟩, ⟨4, 21, 1⟩, ⟨9, 21, 1⟩, ⟨11, -1, -1⟩] }
/-- Literal `","` in `/repo/examples/style-check/internal/grammar.llx`, lines 10-17. -/
def comma : Chunk := .token 6
/-- Literal `";"` in `/repo/examples/style-check/internal/grammar.llx`, lines 10-17. -/
def semicolon : Chunk := .token 7
/-- Literal `"typedef"` in `/repo/examples/style-check/internal/grammar.llx`, lines 10-17. -/
def typedefLit : Chunk := .token 8
/-- Literal `"struct"` in `/repo/examples/style-check/internal/grammar.llx`, lines 10-17. -/
def structLit : Chunk := .token 9
/-- Literal `"{"` in `/repo/examples/style-check/internal/grammar.llx`, lines 10-17. -/
def lBrace : Chunk := .token 10
/-- Literal `"}"` in `/repo/examples/style-check/internal/grammar.llx`, lines 10-17. -/
def rBrace : Chunk := .token 11
/-- Literal `"["` in `/repo/examples/style-check/internal/grammar.llx`, lines 10-17. -/
def lBracket : Chunk := .token 12
/-- Literal `"]"` in `/repo/examples/style-check/internal/grammar.llx`, lines 10-17. -/
def rBracket : Chunk := .token 13
/-- `$number` in `/repo/examples/style-check/internal/grammar.llx` line 17. -/
def numberTok : Chunk := .token 3
/-- `$name` in `/repo/examples/style-check/internal/grammar.llx` lines 14-15. -/
def nameTok : Chunk := .token 4

/-- `{size-def}` in `/repo/examples/style-check/internal/grammar.llx` lines 11-12. -/
def sizes : Chunk := .group [.node 5] true true

/-- `/repo/examples/style-check/internal/grammar.llx` lines 10-17: definitions of nodes. -/
def bodies : List Chunk :=
  [.group [.variant [.node 1, .node 2], .group [.variant [.node 1, .node 2]] true true] false false,
    .group [.node 3, .node 4, sizes, .group [comma, .node 4, sizes] true true, semicolon] false false,
    .group [typedefLit, .node 3, .node 4, sizes, semicolon] false false,
    .group [.variant [.node 6, .node 7]] false false,
    .group [nameTok] false false,
    .group [lBracket, numberTok, rBracket] false false,
    .group [nameTok] false false,
    .group [structLit, lBrace, .node 1, .group [.node 1] true true, rBrace] false false]

/-- `FindString` of token types for texts of literals: `$op` matches signs, `$name` matches words. -/
def find (j : Nat) (l : List Nat) : List Nat :=
  if j = 5 ∧ l ∈ [[44], [59], [123], [125], [91], [93]] ∨ j = 4 ∧ l ∈ [[116, 121, 112, 101, 100, 101, 102], [115, 116, 114, 117, 99, 116]] then l else []

/-- Names of nodes. -/
def names (i : Nat) : String := nodeNames.getD i ""

/-- `/repo/examples/style-check/internal/lib.go` lines 146-149: hooks for tokens. -/
def tokenHooks : THooks Unit := { tokens := [([], handleToken)] }

/-- The layer of token hooks, see `layer_made`. -/
def layer : TokenLayer Unit := [none, none, some handleToken, none]

/-- The parser with `WithSides` and `tree.NodeHook`, `/repo/examples/style-check/internal/lib.go` lines 140-150. `upper` is `strings.ToUpper`. -/
def styleEnv (upper : List Nat → List Nat) (lexers : List Lexer) (fuel : Nat) : PEnv (LState Unit) :=
  pipelineEnv (withTree { g := grammar, upper := upper, pull := fun _ _ => .panic, unread := fun _ _ => none, passSides := true : PEnv Unit })
    { g := grammar, lexers := lexers } [layer] fuel

/-- `/repo/examples/style-check/internal/lib.go` lines 140-156, `parseSource`: elements and the root. A result that is not an element
panics. -/
def parseSource (upper : List Nat → List Nat) (lexers : List Lexer) (fuel : Nat) (q : SrcQueue) (pos : SrcPos) : PRes (Tree.Heap × Nat) :=
  bindRes (parse (styleEnv upper lexers fuel) fuel ⟨[[]], ⟨q, ()⟩⟩ pos) fun pc =>
    match pc.lastResult with
    | some st => .done (.ok (Tree.treeHeap names pc.log, st))
    | none => .panic

/-- `/repo/examples/style-check/internal/lib.go` lines 104-111, `Check`. `keys` gives keys of maps in the order of iteration. -/
def check (keys : Reports → List Int × (Int → List Int)) (upper : List Nat → List Nat) (lexers : List Lexer) (fuel : Nat) (q : SrcQueue)
    (pos : SrcPos) : PRes (List ReportLine) :=
  bindRes (parseSource upper lexers fuel q pos) fun t =>
    bindRun (inspectCode t.1 fuel t.2) fun rs => .done (.ok (rs.flatten (keys rs).1 (keys rs).2))

end Verif.Model.Style
