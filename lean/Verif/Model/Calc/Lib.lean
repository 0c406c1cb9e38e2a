/-
The calculator, `examples/calc/internal/lib.go`.

Simplifications:
* `float64` is an arbitrary type with arithmetic operations (`Arith`); `strconv.ParseFloat` is a parameter.
* Maps of run contexts are functions. Texts are lists of character codes.
* A panic inside a method of a hook instance is the error `hookPanic`. Parts of expressions which may be nil in the code only while the
  node is being read are required when the node is ended (the code would panic later, in `Compute`).
* `nameIndex` of a function definition holds the same names as `argNames`, so only the latter is kept. `defaultOp` of a chain is never
  read after its creation; `lastOp` is not read after the node is ended.
* Message texts are dropped, errors keep their arguments.
-/
import Verif.Spec.Fold

namespace Verif.Model.Calc

open Verif.Spec (HookClass)
open Verif.Model.Tree (bindRun)

/-- Used operations of `float64`; `pow` is `math.Pow`. -/
structure Arith (α : Type) where
  zero : α
  one : α
  add : α → α → α
  sub : α → α → α
  mul : α → α → α
  div : α → α → α
  pow : α → α → α

mutual

/-- Values of the interface `expr` (`/repo/examples/calc/internal/lib.go` lines 101-104): `number` (106-108), `chain` (127-131), `power`
(201-203), `varName` (256-258), `assignment` (272-275), `funcDef` (315-320), `funcCall` (374-377). -/
inductive Expr (α : Type)
  | number (value : α)
  | chain (value : α) (opVals : List (OpVal α))
  | power (base exp : Expr α)
  | varName (name : List Nat)
  | assignment (name : List Nat) (value : Expr α)
  | funcDef (name : List Nat) (argNames : List (List Nat)) (body : Expr α)
  | funcCall (name : List Nat) (args : List (Expr α))

/-- `/repo/examples/calc/internal/lib.go` lines 122-125, type `opVal`. -/
inductive OpVal (α : Type)
  | mk (op : Nat) (value : Expr α)

end

variable {α : Type}

/-- `/repo/examples/calc/internal/lib.go` lines 42-46, type `function`. -/
structure Function (α : Type) where
  name : List Nat
  argNames : List (List Nat)
  body : Expr α

/-- `/repo/examples/calc/internal/lib.go` lines 65-69, type `runContext` without `parent`. -/
structure RunFrame (α : Type) where
  vars : List Nat → Option α := fun _ => none
  functions : List Nat → Option (Function α) := fun _ => none

/-- `/repo/examples/calc/internal/lib.go` lines 65-69, type `runContext`: frames from the inner one to the root one. -/
abbrev RunContext (α : Type) := List (RunFrame α)

/-- Errors of computations (`/repo/examples/calc/internal/lib.go` lines 22-32). -/
inductive CalcErr
  | unknownVar (name : List Nat)
  | unknownFunc (name : List Nat)
  | wrongArgNumber (name : List Nat) (expected got : Nat)
deriving DecidableEq

/-- `/repo/examples/calc/internal/lib.go` lines 75-86, `variable`. -/
def variableOf : RunContext α → List Nat → Except CalcErr α
  | [], name => .error (.unknownVar name)
  | f :: fs, name =>
    match f.vars name with
    | some v => .ok v
    | none => variableOf fs name

/-- `/repo/examples/calc/internal/lib.go` lines 88-99, `function`. -/
def functionOf : RunContext α → List Nat → Except CalcErr (Function α)
  | [], name => .error (.unknownFunc name)
  | f :: fs, name =>
    match f.functions name with
    | some v => .ok v
    | none => functionOf fs name

/-- `m[k] = v`. -/
def setKey {β : Type} (m : List Nat → Option β) (k : List Nat) (v : β) : List Nat → Option β := fun n => if n = k then some v else m n

/-- `/repo/examples/calc/internal/lib.go` lines 159-171, `update`. -/
def update (A : Arith α) (res val : α) (op : Nat) : α :=
  if op = 43 then A.add res val
  else if op = 45 then A.sub res val
  else if op = 42 then A.mul res val
  else if op = 47 then A.div res val
  else res

/-- Lines 114, 141, 209, 264, 281, 326, 383 of `/repo/examples/calc/internal/lib.go`, `IsNumber`. -/
def Expr.isNumber : Expr α → Bool
  | .number _ => true
  | .chain _ opVals => opVals.isEmpty
  | .power base exp => base.isNumber && exp.isNumber
  | _ => false

/-- Results of `Compute`: the changed context and a value or an error. -/
abbrev Outcome (α : Type) := Run (RunContext α × Except CalcErr α)

/-- A computation goes on if there is no error. -/
def thenCompute {β γ : Type} (x : Run (RunContext α × Except CalcErr β)) (f : RunContext α → β → Run (RunContext α × Except CalcErr γ)) :
    Run (RunContext α × Except CalcErr γ) :=
  bindRun x fun r =>
    match r with
    | (c, .ok v) => f c v
    | (c, .error e) => .done (c, .error e)

mutual

/-- `Compute` of expressions, `/repo/examples/calc/internal/lib.go` lines 118-120 (`number`), 145-157 (`chain`), 213-223 (`power`), 268-270
(`varName`), 285-291 (`assignment`), 330-333 (`funcDef`), 387-405 (`funcCall`); `call` is what `function.call` does. An assignment in an
empty context is a panic (a nil context). -/
def computeWith (A : Arith α) (call : RunContext α → Function α → List α → Outcome α) : RunContext α → Expr α → Outcome α
  | c, .number v => .done (c, .ok v)
  | c, .chain v opVals => computeOps A call c v opVals
  | c, .power base exp =>
    thenCompute (computeWith A call c base) fun c x => thenCompute (computeWith A call c exp) fun c y => .done (c, .ok (A.pow x y))
  | c, .varName name => .done (c, variableOf c name)
  | c, .assignment name value =>
    thenCompute (computeWith A call c value) fun c v =>
      match c with
      | [] => .panic
      | f :: fs => .done ({ f with vars := setKey f.vars name v } :: fs, .ok v)
  | c, .funcDef name argNames body =>
    match c with
    | [] => .panic
    | f :: fs => .done ({ f with functions := setKey f.functions name ⟨name, argNames, body⟩ } :: fs, .ok A.zero)
  | c, .funcCall name args =>
    match functionOf c name with
    | .error e => .done (c, .error e)
    | .ok f => thenCompute (computeArgs A call c args) fun c vs => call c f vs

/-- `/repo/examples/calc/internal/lib.go` lines 145-157, the loop. -/
def computeOps (A : Arith α) (call : RunContext α → Function α → List α → Outcome α) : RunContext α → α → List (OpVal α) → Outcome α
  | c, res, [] => .done (c, .ok res)
  | c, res, .mk op e :: ops => thenCompute (computeWith A call c e) fun c v => computeOps A call c (update A res v op) ops

/-- `/repo/examples/calc/internal/lib.go` lines 387-405, the loop over arguments. -/
def computeArgs (A : Arith α) (call : RunContext α → Function α → List α → Outcome α) : RunContext α → List (Expr α) →
    Run (RunContext α × Except CalcErr (List α))
  | c, [] => .done (c, .ok [])
  | c, e :: es => thenCompute (computeWith A call c e) fun c v => thenCompute (computeArgs A call c es) fun c vs => .done (c, .ok (v :: vs))

end

/-- `/repo/examples/calc/internal/lib.go` lines 58-61: variables of a new context. -/
def argVars (names : List (List Nat)) (args : List α) : List Nat → Option α :=
  (names.zip args).foldl (fun m p => setKey m p.1 p.2) fun _ => none

/-- `/repo/examples/calc/internal/lib.go` lines 52-63, `call`; `run` computes the body. -/
def callFunction (run : RunContext α → Expr α → Outcome α) (c : RunContext α) (f : Function α) (args : List α) : Outcome α :=
  if args.length ≠ f.argNames.length then .done (c, .error (.wrongArgNumber f.name f.argNames.length args.length))
  else bindRun (run ({ vars := argVars f.argNames args } :: c) f.body) fun r => .done (r.1.tail, r.2)

/-- `Compute` of expressions, see `computeWith`; fuel bounds the depth of function calls. -/
def compute (A : Arith α) : Nat → RunContext α → Expr α → Outcome α
  | 0 => computeWith A fun _ _ _ => .timeout
  | fuel + 1 => computeWith A (callFunction (compute A fuel))

/-- Error code of a panic in a hook. -/
def hookPanic : Nat := 1000

/-- `/repo/examples/calc/internal/lib.go` line 18, `ArgDefinedError`. -/
def argDefinedError : Nat := 404

/-- Hook instances: `rootNode` (`/repo/examples/calc/internal/lib.go` lines 429-431), `chain` (127-131), `power` (201-203), `value`
(454-456), `assignment` (272-275), `funcDef` (315-320), `funcCall` (374-377). -/
inductive Inst (α : Type)
  | root (body : Option (Expr α))
  | chain (lastOp : Nat) (value : α) (opVals : List (OpVal α))
  | power (base : Option (Expr α)) (exp : Expr α)
  | value (body : Option (Expr α))
  | assignment (name : List Nat) (value : Option (Expr α))
  | funcDef (name : List Nat) (argNames : List (List Nat)) (body : Option (Expr α))
  | funcCall (name : List Nat) (args : List (Expr α))

/-- `/repo/examples/calc/internal/lib.go` lines 490-514, `hooks`, with constructors in lines 133-139, 205-207, 277-279, 322-324, 379-381,
433-435, 458-460. There are no other nodes. -/
def newInst (A : Arith α) : Nat → Except Nat (Inst α)
  | 0 => .ok (.root none)
  | 1 => .ok (.chain 43 A.zero [])
  | 2 => .ok (.assignment [] none)
  | 3 => .ok (.funcDef [] [] none)
  | 4 => .ok (.chain 42 A.one [])
  | 5 => .ok (.power none (.number A.one))
  | 6 => .ok (.value none)
  | 7 => .ok (.funcCall [] [])
  | _ => .error hookPanic

/-- `func` -/
def funcText : List Nat := [102, 117, 110, 99]

/-- `HandleToken`: `/repo/examples/calc/internal/lib.go` lines 446-448 (`rootNode`), 188-191 (`chain`), 239-241 (`power`), 471-484 (`value`),
304-309 (`assignment`), 346-368 (`funcDef`), 418-423 (`funcCall`). -/
def handleToken (parseFloat : List Nat → Except Nat α) : Inst α → Token → Except Nat (Inst α)
  | .root body, _ => .ok (.root body)
  | .chain _ value opVals, t =>
    match t.content with
    | [] => .error hookPanic
    | c :: _ => .ok (.chain c value opVals)
  | .power base exp, _ => .ok (.power base exp)
  | .value body, t =>
    if t.typeName = "name" then .ok (.value (some (.varName t.content)))
    else if t.typeName = "number" then
      match parseFloat t.content with
      | .ok v => .ok (.value (some (.number v)))
      | .error e => .error e
    else .ok (.value body)
  | .assignment name value, t => .ok (.assignment (if t.typeName = "name" then t.content else name) value)
  | .funcDef name argNames body, t =>
    if t.typeName ≠ "name" then .ok (.funcDef name argNames body)
    else if t.content = funcText then .ok (.funcDef name argNames body)
    else if name = [] then .ok (.funcDef t.content argNames body)
    else if t.content ∈ argNames then .error argDefinedError
    else .ok (.funcDef name (argNames ++ [t.content]) body)
  | .funcCall name args, t => .ok (.funcCall (if t.typeName = "name" then t.content else name) args)

/-- `HandleNode`: `/repo/examples/calc/internal/lib.go` lines 441-444 (`rootNode`), 177-186 (`chain`), 229-237 (`power`), 466-469 (`value`),
297-302 (`assignment`), 339-344 (`funcDef`), 411-416 (`funcCall`). A nil result is a panic in type assertion. `Compute` of a number never
fails and does not use the context. -/
def handleNode (A : Arith α) : Inst α → Nat → Option (Expr α) → Except Nat (Inst α)
  | .assignment name value, node, r =>
    if node = 1 then
      match r with
      | none => .error hookPanic
      | some e => .ok (.assignment name (some e))
    else .ok (.assignment name value)
  | .funcDef name argNames body, node, r =>
    if node = 1 then
      match r with
      | none => .error hookPanic
      | some e => .ok (.funcDef name argNames (some e))
    else .ok (.funcDef name argNames body)
  | .funcCall name args, node, r =>
    if node = 1 then
      match r with
      | none => .error hookPanic
      | some e => .ok (.funcCall name (args ++ [e]))
    else .ok (.funcCall name args)
  | _, _, none => .error hookPanic
  | .root _, _, some e => .ok (.root (some e))
  | .chain lastOp value opVals, _, some e =>
    if e.isNumber then
      match compute A 0 [] e with
      | .done (_, .ok v) => .ok (.chain lastOp (update A value v lastOp) opVals)
      | _ => .error hookPanic
    else .ok (.chain lastOp value (opVals ++ [.mk lastOp e]))
  | .power base exp, _, some e =>
    match base with
    | none => .ok (.power (some e) exp)
    | some b => .ok (.power (some b) e)
  | .value _, _, some e => .ok (.value (some e))

/-- `EndNode`: `/repo/examples/calc/internal/lib.go` lines 450-452 (`rootNode`), 193-199 (`chain`), 243-254 (`power`), 486-488 (`value`),
311-313 (`assignment`), 370-372 (`funcDef`), 425-427 (`funcCall`). -/
def endNode (A : Arith α) : Inst α → Except Nat (Option (Expr α))
  | .root body => .ok body
  | .chain _ value opVals => .ok (some (if opVals.isEmpty then .number value else .chain value opVals))
  | .power none _ => .error hookPanic
  | .power (some base) exp =>
    if (Expr.power base exp).isNumber then
      match compute A 0 [] (.power base exp) with
      | .done (_, .ok v) => .ok (some (.number v))
      | _ => .error hookPanic
    else .ok (some (.power base exp))
  | .value body => .ok body
  | .assignment _ none => .error hookPanic
  | .assignment name (some value) => .ok (some (.assignment name value))
  | .funcDef _ _ none => .error hookPanic
  | .funcDef name argNames (some body) => .ok (some (.funcDef name argNames body))
  | .funcCall name args => .ok (some (.funcCall name args))

/-- `/repo/examples/calc/internal/lib.go` lines 490-514: hooks of the calculator; `NewNode` does nothing. -/
def hooks (A : Arith α) (parseFloat : List Nat → Except Nat α) : HookClass (Inst α) (Option (Expr α)) where
  make node _ := newInst A node
  newNode s _ _ := .ok s
  token := handleToken parseFloat
  handleNode := handleNode A
  endNode := endNode A

/-- `/repo/examples/calc/internal/lib.go` lines 540-541: results of successfully parsed inputs are computed one after another in the same
root context. -/
def computeAll (A : Arith α) (fuel : Nat) : RunContext α → List (Expr α) → Run (List (Except CalcErr α))
  | _, [] => .done []
  | c, e :: es => bindRun (compute A fuel c e) fun r => bindRun (computeAll A fuel r.1 es) fun rs => .done (r.2 :: rs)

end Verif.Model.Calc
