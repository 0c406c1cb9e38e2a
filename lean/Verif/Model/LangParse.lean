/-
Model of `langdef.Parse` (`langdef/parser.go` 54-72): the description is read, then the grammar is built.

Simplifications: see `Model/LangDef.lean` (tokens instead of a text) and `Model/Compile.lean`; `FindString` of a compiled
regular expression is a parameter `find` (by the text of the expression).
-/
import Verif.Model.Compile
import Verif.Model.LangDef

namespace Verif.Model.LangDef

/-- Errors of `langdef.Parse`. -/
inductive ParseErr
  | read (e : LErr)
  | compile (e : CompileErr)

/-- The grammar with names of nodes (`grammar.Node.Name`) and layers (`grammar.Grammar.Layers`). -/
structure Parsed where
  grammar : Grammar
  names : List (List Nat)
  layers : List LayerDef

/-- `/repo/langdef/parser.go` lines 1074, 1091: what the expression of token `i` finds in a text. -/
def findRe (find : List Nat → List Nat → List Nat) (ts : List GToken) (i : Nat) (text : List Nat) : List Nat :=
  match (ts[i]?).bind GToken.re with
  | some re => find re text
  | none => []

/-- `/repo/langdef/parser.go` lines 54-72, `Parse`: `inp` are tokens of the description. Names and layers are not changed after the
description has been read (`/repo/langdef/result.go` lines 42-54). -/
def langParse (upper : List Nat → List Nat) (find : List Nat → List Nat → List Nat) (okRe : List Nat → Bool)
    (order1 order2 order3 : List Nat) (fuel : Nat) (inp : List (Except LErr LTok)) : Run (Except ParseErr Parsed) :=
  Tree.bindRun (read okRe fuel inp) fun r =>
    match r with
    | .error e => .done (.error (.read e))
    | .ok c =>
      Tree.bindRun (compile upper (findRe find c.tokens) c.tokens (c.nodes.map NodeEntry.chunk) order1 order2 order3 fuel) fun r =>
        match r with
        | .error e => .done (.error (.compile e))
        | .ok g => .done (.ok { grammar := g, names := c.nodes.map NodeEntry.name, layers := c.layers })

end Verif.Model.LangDef
