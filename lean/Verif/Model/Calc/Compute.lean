/-
The calculator, from a text to a result: the function `Compute` of `examples/calc/internal/lib.go` and the loop of `examples/calc/calc.go`.

Simplifications:
* The context of a parse is never cancelled. Texts of messages are dropped, replies keep what they are about.
* Lines are given as a list; the end of the list is a read error. Prompts are not shown.
* `FindSubmatchIndex` of lexers, `strings.ToUpper` and `strconv.ParseFloat` are parameters, like in the other models.
-/
import Verif.Model.Calc.Grammar
import Verif.Model.Calc.Lib
import Verif.Model.NewParser
import Verif.Model.Objects
import Verif.Model.Pipeline
import Verif.Model.Source

namespace Verif.Model.Calc

open Verif.Model.Tree (bindRun)

variable {α : Type}

/-- The parser of `/repo/examples/calc/internal/lib.go` line 523 with `hooks` (lines 490-514). -/
def programEnv (A : Arith α) (parseFloat : List Nat → Except Nat α) (upper : List Nat → List Nat) (lexers : List Lexer) (fuel : Nat) :
    PEnv (LState Unit) :=
  pipelineEnv (withObjects (hooks A parseFloat) { g := grammar, upper := upper, pull := fun _ _ => .panic, unread := fun _ _ => none : PEnv Unit })
    { g := grammar, lexers := lexers } [] fuel

/-- What `Compute` returns: an error of the parser, an error about the rest of the input (the rest is kept), or what the expression gives. -/
inductive Reply (α : Type)
  | failed (e : PErr)
  | extra (rest : List Nat)
  | result (r : Except CalcErr α)

/-- `/repo/examples/calc/internal/lib.go` lines 534-544: what is done with the result of the parse. -/
def answer (A : Arith α) (parseFloat : List Nat → Except Nat α) (depth : Nat) (c : RunContext α) (r : Except PErr (PC (LState Unit))) :
    Run (RunContext α × Reply α) :=
  match r with
  | .error e => .done (c, .failed e)
  | .ok pc =>
    let q := pc.src.ps.src
    if ¬ q.isEmpty then
      orPanic q.sourcePos.src fun s =>
      orPanic (Go.slice s.content q.sourcePos.pos s.content.length) fun rest => .done (c, .extra rest)
    else
      match pc.lastResult.bind (objectsAfter (hooks A parseFloat) pc.log).vals with
      | some (some e) => bindRun (compute A depth c e) fun r => .done (r.1, .result r.2)
      | _ => .panic

/-- `/repo/examples/calc/internal/lib.go` lines 529-545, `Compute`; `c` is `rootContext`. -/
def computeText (A : Arith α) (parseFloat : List Nat → Except Nat α) (upper : List Nat → List Nat) (lexers : List Lexer) (fuel depth : Nat)
    (c : RunContext α) (text : List Nat) : Run (RunContext α × Reply α) :=
  orPanic (normalizeNls text) fun input =>
  orPanic SrcQueue.new fun q =>
  orPanic (q.append (some ⟨0, "input", input⟩)) fun q =>
  bindRun (parse (programEnv A parseFloat upper lexers fuel) fuel ⟨[], ⟨q, ()⟩⟩ q.sourcePos) fun r => answer A parseFloat depth c r

/-- Variables of the loop: `prevInput` and `appendInput` (`/repo/examples/calc/calc.go` lines 58-59; `none` if it is false), `rootContext`. -/
structure Session (α : Type) where
  pending : Option (List Nat) := none
  context : RunContext α := [{}]

/-- What is written after a line: the help, a number, an error, or nothing. -/
inductive Shown (α : Type)
  | help
  | number (v : α)
  | error (r : Reply α)
  | nothing

/-- `help` -/
def helpText : List Nat := [104, 101, 108, 112]

/-- `/repo/examples/calc/calc.go` lines 73-96: handling of a line that is not empty. -/
def handleLine (A : Arith α) (parseFloat : List Nat → Except Nat α) (upper : List Nat → List Nat) (lexers : List Lexer) (fuel depth : Nat)
    (s : Session α) (input : List Nat) : Run (Session α × Shown α) :=
  if input.tails.any (helpText.isPrefixOf ·) then .done ({ s with pending := none }, .help)
  else
    let input := match s.pending with
      | some prev => prev ++ 10 :: input
      | none => input
    bindRun (computeText A parseFloat upper lexers fuel depth s.context input) fun r =>
      match r with
      | (c, .result (.ok v)) => .done ({ pending := none, context := c }, .number v)
      | (c, .failed .unexpectedEof) => .done ({ pending := some input, context := c }, .nothing)
      | (c, e) => .done ({ pending := none, context := c }, .error e)

/-- `/repo/examples/calc/calc.go` lines 61-97: the loop. -/
def repl (A : Arith α) (parseFloat : List Nat → Except Nat α) (upper : List Nat → List Nat) (lexers : List Lexer) (fuel depth : Nat) :
    Session α → List (List Nat) → Run (List (Shown α))
  | _, [] => .done []
  | s, line :: lines =>
    if line = [] then .done []
    else bindRun (handleLine A parseFloat upper lexers fuel depth s line) fun r =>
      bindRun (repl A parseFloat upper lexers fuel depth r.1 lines) fun rs => .done (r.2 :: rs)

end Verif.Model.Calc
