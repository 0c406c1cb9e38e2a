/-
The generated grammar of the configuration editor, `examples/conf-edit/internal/grammar.go`, its description `examples/conf-edit/internal/grammar.llx`,
parsing of a file, `examples/conf-edit/internal/lib.go`, and the whole program, `examples/conf-edit/conf-edit.go`.

Regular expressions are texts here; node names are indexes: confGrammar 0, def-section 1, section 2, entry 3, sep 4, header 5.

Simplifications: the file is its content or nothing; errors of the file system are not modelled. Names of sources mean nothing.
-/
import Verif.Model.Compile
import Verif.Model.ConfEdit
import Verif.Model.NewParser
import Verif.Model.Pipeline
import Verif.Model.Source

namespace Verif.Model.ConfEdit

open Tree (bindRun)

/-- `/repo/examples/conf-edit/internal/grammar.go` lines 8-19, `Tokens`. -/
def tokens : List GToken :=
  [
    ⟨[115, 112, 97, 99, 101], some [91, 32, 92, 116, 93, 43], 0, { side := true, noLiterals := true }⟩,
    ⟨[99, 111, 109, 109, 101, 110, 116], some [35, 46, 42, 63, 40, 63, 58, 92, 110, 124, 36, 41], 0, { side := true, noLiterals := true }⟩,
    ⟨[110, 108], some [92, 110], 0, { noLiterals := true }⟩,
    ⟨[115, 101, 99, 45, 110, 97, 109, 101], some [91, 97, 45, 122, 65, 45, 90, 95, 93, 91, 97, 45, 122, 65, 45, 90, 95, 48, 45, 57, 93, 42, 40, 63, 58,
      91, 46, 45, 93, 91, 97, 45, 122, 65, 45, 90, 95, 93, 91, 97, 45, 122, 65, 45, 90, 95, 48, 45, 57, 93, 42, 41, 42], 2, { noLiterals := true }⟩,
    ⟨[110, 97, 109, 101], some [91, 97, 45, 122, 65, 45, 90, 95, 93, 91, 97, 45, 122, 65, 45, 90, 95, 48, 45, 57, 93, 42, 40, 63, 58,
      45, 91, 97, 45, 122, 65, 45, 90, 95, 93, 91, 97, 45, 122, 65, 45, 90, 95, 48, 45, 57, 93, 42, 41, 42], 0, { noLiterals := true }⟩,
    ⟨[111, 112], some [91, 92, 91, 92, 93, 61, 93], 0, {}⟩,
    ⟨[118, 97, 108, 117, 101], some [92, 83, 91, 94, 92, 110, 35, 93, 42], 1, { noLiterals := true }⟩,
    ⟨[61], none, 0, { literal := true }⟩,
    ⟨[91], none, 0, { literal := true }⟩,
    ⟨[93], none, 0, { literal := true }⟩]

/-- `/repo/examples/conf-edit/internal/grammar.go` lines 20-27, `Nodes`: names. -/
def nodeNames : List String := ["confGrammar", "def-section", "section", "entry", "sep", "header"]

/-- `/repo/examples/conf-edit/internal/grammar.go` lines 7-75, `confGrammar`. -/
def grammar : Grammar where
  tokens := tokens
  firsts := [0, 2, 4, 6, 10, 11]
  tables :=
    { states := [
      ⟨55#64, 0, 0, 0, 4⟩, ⟨35#64, 0, 0, 4, 6⟩, ⟨23#64, 0, 0, 6, 8⟩, ⟨23#64, 0, 0, 8, 11⟩, ⟨35#64, 0, 0, 11, 12⟩,
      ⟨23#64, 0, 0, 12, 15⟩, ⟨19#64, 0, 0, 15, 16⟩, ⟨35#64, 0, 0, 16, 17⟩, ⟨71#64, 0, 0, 17, 20⟩, ⟨7#64, 0, 0, 20, 22⟩,
      ⟨7#64, 0, 0, 22, 23⟩, ⟨35#64, 0, 0, 23, 24⟩, ⟨11#64, 0, 0, 24, 25⟩, ⟨35#64, 0, 0, 25, 26⟩, ⟨7#64, 0, 0, 26, 27⟩]
      multi := []
      rules := [
        ⟨-1, -1, -1⟩, ⟨2, 1, 1⟩, ⟨4, 1, 1⟩, ⟨8, 1, 2⟩, ⟨-1, -1, -1⟩, ⟨8, 1, 2⟩, ⟨2, 3, 4⟩, ⟨4, 3, 3⟩, ⟨-1, -1, -1⟩, ⟨2, 3, 4⟩,
        ⟨4, 3, 3⟩, ⟨8, 5, 5⟩, ⟨-1, -1, -1⟩, ⟨2, 5, 4⟩, ⟨4, 5, 3⟩, ⟨4, 7, -1⟩, ⟨7, 8, -1⟩, ⟨-1, -1, -1⟩, ⟨2, -1, -1⟩, ⟨6, 9, -1⟩,
        ⟨-1, -1, -1⟩, ⟨2, -1, -1⟩, ⟨2, -1, -1⟩, ⟨8, 12, -1⟩, ⟨3, 13, -1⟩, ⟨9, 14, -1⟩, ⟨2, -1, -1⟩] }

/-- `{entry | sep}` in `/repo/examples/conf-edit/internal/grammar.llx` lines 15-16. -/
def lines : Chunk := .group [.variant [.node 3, .node 4]] true true

/-- `/repo/examples/conf-edit/internal/grammar.llx` lines 14-19: definitions of nodes. -/
def bodies : List Chunk :=
  [.group [.group [.node 1] true false, .group [.node 2] true true] false false,
    .group [.variant [.node 3, .node 4], lines] false false,
    .group [.node 5, lines] false false,
    .group [.token 4, .token 7, .group [.token 6] true false, .group [.token 2] true false] false false,
    .group [.token 2] false false,
    .group [.token 8, .token 3, .token 9, .token 2] false false]

/-- `FindString` of token types for texts of literals: `$op` matches signs. -/
def find (j : Nat) (l : List Nat) : List Nat := if j = 5 ∧ l ∈ [[61], [91], [93]] then l else []

/-- Names of nodes. -/
def names (i : Nat) : String := nodeNames.getD i ""

/-- The parser with `WithSides` and `tree.NodeHook`, `/repo/examples/conf-edit/internal/lib.go` lines 298-308. `upper` is `strings.ToUpper`. -/
def confEnv (upper : List Nat → List Nat) (lexers : List Lexer) (fuel : Nat) : PEnv (LState Unit) :=
  pipelineEnv (withTree { g := grammar, upper := upper, pull := fun _ _ => .panic, unread := fun _ _ => none, passSides := true : PEnv Unit })
    { g := grammar, lexers := lexers } [] fuel

/-- `/repo/examples/conf-edit/internal/lib.go` lines 292-295: the source with a line feed at the end. -/
def prepare (src : List Nat) : Option (List Nat) :=
  (normalizeNls src).bind fun src =>
    if src.length > 0 then (Go.index src ((src.length : Int) - 1)).map fun b => if b ≠ 10 then src ++ [10] else src else some src

/-- `/repo/examples/conf-edit/internal/lib.go` lines 297-313: elements and the root. A result that is not an element panics. -/
def readTree (upper : List Nat → List Nat) (lexers : List Lexer) (fuel : Nat) (name : String) (src : List Nat) : PRes (Mem × Nat) :=
  orPanic (prepare src) fun src =>
  orPanic SrcQueue.new fun q =>
  orPanic (q.append (some ⟨0, name, src⟩)) fun q =>
  bindRes (parse (confEnv upper lexers fuel) fuel ⟨[], ⟨q, ()⟩⟩ q.sourcePos) fun pc =>
    match pc.lastResult with
    | some root => .done (.ok (⟨Tree.treeHeap names pc.log, pc.log.length⟩, root))
    | none => .panic

/-! Commands -/

/-- `/repo/examples/conf-edit/conf-edit.go` lines 20-25: keys of flags. -/
inductive Flag
  | r | a | c | s

/-- Commands of all kinds, `/repo/examples/conf-edit/conf-edit.go` lines 12-17. -/
structure Given where
  rs : List (List Nat)
  as : List (List Nat)
  cs : List (List Nat)
  ss : List (List Nat)

/-- `/repo/examples/conf-edit/conf-edit.go` lines 103-106, `isValidNameValue`; `valid` is `IsValidName`, `/repo/examples/conf-edit/internal/lib.go`
lines 394-396. -/
def isValidNameValue (valid : List Nat → Bool) (s : List Nat) : Bool :=
  match s.idxOf? 61 with
  | none => valid s
  | some k => valid (s.take k)

/-- `/repo/examples/conf-edit/conf-edit.go` lines 88-95, `Set`: nothing is an error. -/
def Given.set (valid : List Nat → Bool) (k : Given) : Flag → List Nat → Option Given
  | .r, s => if valid s then some { k with rs := k.rs ++ [s] } else none
  | .a, s => if valid s then some { k with as := k.as ++ [s] } else none
  | .c, s => if valid s then some { k with cs := k.cs ++ [s] } else none
  | .s, s => if isValidNameValue valid s then some { k with ss := k.ss ++ [s] } else none

/-- Flags of the command line one after another, `/repo/examples/conf-edit/conf-edit.go` lines 28-32: the first error is the end. -/
def setFlags (valid : List Nat → Bool) : List (Flag × List Nat) → Given → Option Given
  | [], k => some k
  | (f, s) :: l, k => (k.set valid f s).bind (setFlags valid l)

/-- How the program ends. -/
inductive Outcome
  /-- a flag is wrong -/
  | rejected
  /-- the file is longer than 1 MB -/
  | tooLong
  /-- the file is not parsed -/
  | failed (e : PErr)
  /-- the text is written to the file if the configuration is updated -/
  | edited (c : Conf) (text : List Nat)

/-- `/repo/examples/conf-edit/conf-edit.go` lines 32-52 for one file, with `ParseFile`, `/repo/examples/conf-edit/internal/lib.go` lines 333-362.
There may be no file, then its content is empty. -/
def editFile (valid : List Nat → Bool) (trim : List Nat → List Nat) (upper : List Nat → List Nat) (lexers : List Lexer) (fuel : Nat)
    (name : String) (flags : List (Flag × List Nat)) (file : Option (List Nat)) : Run Outcome :=
  match setFlags valid flags ⟨[], [], [], []⟩ with
  | none => .done .rejected
  | some k =>
    let content := file.getD []
    if content.length > 1048576 then .done .tooLong
    else bindRun (readTree upper lexers fuel name content) fun r =>
      match r with
      | .error e => .done (.failed e)
      | .ok (m, root) => bindRun (savedText trim fuel m root k.rs k.as k.cs k.ss) fun x => .done (.edited x.1 x.2)

end Verif.Model.ConfEdit
