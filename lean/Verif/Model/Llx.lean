/-
Model of `llx.go`: errors.
`fmt.Sprintf` is modelled by string concatenation for the only format used by the code being modelled (`%s`, `%d`),
other formatted texts are passed ready.
-/

namespace Verif.Model

/-- `/repo/llx.go` lines 31-37, error classes. -/
def langDefErrors : Nat := 1
/-- `/repo/llx.go` line 33. -/
def lexicalErrors : Nat := 101
/-- `/repo/llx.go` line 34. -/
def syntaxErrors : Nat := 201
/-- `/repo/llx.go` line 35. -/
def parserErrors : Nat := 301
/-- `/repo/llx.go` line 36. -/
def layerErrors : Nat := 401

/-- `/repo/llx.go` lines 40-55, type `Error`. -/
structure LlxError where
  code : Nat
  message : String
  sourceName : String
  line : Int
  col : Int
deriving Repr, DecidableEq

/-- `/repo/llx.go` lines 68-73, `NewError`. -/
def newError (code : Nat) (msg name : String) (line col : Int) : LlxError :=
  let msg := if name ≠ "" ∧ line ≠ 0 ∧ col ≠ 0 then
      msg ++ (" in " ++ name ++ " at line " ++ toString line ++ " col " ++ toString col)
    else msg
  { code := code, message := msg, sourceName := name, line := line, col := col }

/-- `/repo/llx.go` lines 82-87, `FormatError`, `msg` is the formatted text. -/
def formatError (code : Nat) (msg : String) : LlxError := newError code msg "" 0 0

/-- `/repo/llx.go` lines 92-98, `FormatErrorPos`, `msg` is the formatted text; `pos` gives name, line and column. -/
def formatErrorPos (pos : String × Int × Int) (code : Nat) (msg : String) : LlxError :=
  newError code msg pos.1 pos.2.1 pos.2.2

end Verif.Model
