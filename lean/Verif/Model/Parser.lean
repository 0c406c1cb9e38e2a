/-
Model of `parser/parser.go` and `parser/misc.go`: the parsing process.

Simplifications:
* The token pipeline (`pullToken` for layer 0 with sources and token hooks) is a parameter `pull` acting on a state `σ`;
  its model is in `Verif/Model/Pipeline.lean`.
* Node hooks are parameters: every call of a node hook or of its instance is an event, the answer is an arbitrary
  function of all previous events. Values of type `any` and errors of hooks are numbers (handles). An instance is
  identified by the number of events before the call that made it.
* `queue.Queue` values are lists (C01). The context is never cancelled. Node names are node indexes.
* `steps` and `delivered` are not in the code: they record rules applied to the node stack together with the current
  token, and tokens received from the pipeline.
-/
import Verif.Model.Tables
import Verif.Model.Tree

namespace Verif.Model

/-- `/repo/parser/parser.go` line 473, `repeatState`. -/
def repeatState : Int := -128

/-- The used part of `grammar.Grammar` (`/repo/grammar/grammar.go` lines 172-195): tokens, first states of nodes and
tables. -/
structure Grammar where
  tokens : List GToken
  firsts : List Nat
  tables : Tables
deriving DecidableEq

/-- Errors returned by the parser. -/
inductive PErr
  /-- error of the lexer -/
  | lexer (e : LlxError)
  /-- error returned by a hook -/
  | hook (e : Nat)
  /-- `EmitWrongTokenError` -/
  | wrongToken (t : Token)
  /-- `UnexpectedEofError` -/
  | unexpectedEof
  /-- `UnexpectedTokenError` -/
  | unexpectedToken (t : Token)
  /-- `RemainingSourceError` -/
  | remainingSource (t : Token)
deriving DecidableEq

/-- Result of a Go function returning a value and an error. -/
abbrev PRes (α : Type) := Run (Except PErr α)

/-- `if e != nil { return e }`. -/
def bindRes {α β : Type} (x : PRes α) (f : α → PRes β) : PRes β :=
  match x with
  | .done (.ok a) => f a
  | .done (.error e) => .done (.error e)
  | .panic => .panic
  | .timeout => .timeout

/-- A Go expression that may panic. -/
def orPanic {α β : Type} (x : Option α) (f : α → Run β) : Run β :=
  match x with
  | none => .panic
  | some a => f a

/-- Calls of node hooks (`/repo/parser/hooks.go` lines 20-42) of a layer. -/
inductive Event
  /-- `NodeHook` itself is called -/
  | make (layer node : Nat) (tok : Option Token)
  /-- `NewNode` -/
  | newNode (layer inst node : Nat) (tok : Option Token)
  /-- `HandleToken` -/
  | token (layer inst : Nat) (tok : Token)
  /-- `EndNode` -/
  | endNode (layer inst : Nat)
  /-- `HandleNode` -/
  | handleNode (layer inst node : Nat) (res : Option Nat)
deriving DecidableEq

/-- Parser, hooks and options. -/
structure PEnv (σ : Type) where
  g : Grammar
  /-- `strings.ToUpper` -/
  upper : List Nat → List Nat
  /-- `pullToken(ctx, types, 0)` -/
  pull : σ → TokenTypeSet → Run (σ × Except PErr (Option Token))
  /-- lines 525-531: the token is put back to sources -/
  unread : σ → Token → Option σ
  passSides : Bool := false
  fullSource : Bool := false
  watchNodes : Bool := false
  /-- `len(pc.nodeHooks)` -/
  layers : Nat := 0
  /-- there is a hook for the node (or for any node) in the layer -/
  hooked : Nat → Nat → Bool := fun _ _ => false
  /-- `NodeHook` call: is the instance present -/
  onMake : List Event → Event → Except Nat Bool := fun _ _ => .ok false
  /-- calls of methods of an instance -/
  onCall : List Event → Event → Except Nat (Option Nat) := fun _ _ => .ok none
  /-- new capacity of a slice when `append` needs one more element than the capacity -/
  grow : Nat → Nat := fun n => 2 * n

/-- `/repo/parser/misc.go` lines 5-11, type `nodeRec`, fields used by lookahead branches. -/
structure Frame where
  types : TokenTypeSet
  index : Nat
  state : Int
deriving DecidableEq

/-- `/repo/parser/misc.go` lines 5-11, type `nodeRec`. -/
structure NodeRec extends Frame where
  hooks : List (Option Nat) := []
  sides : List Token := []
deriving DecidableEq

/-- `/repo/parser/parser.go` lines 222-237, type `ParseContext`, the changing part; the first element of `stack` is the
top one. -/
structure PC (σ : Type) where
  src : σ
  tokens : List (Option Token) := []
  applied : List Rule := []
  stack : List NodeRec := []
  lastResult : Option Nat := none
  log : List Event := []
  steps : List (Option Token × Rule) := []
  delivered : List (Option Token) := []
deriving DecidableEq

variable {σ : Type}

open Tree (bindRun)

/-- `/repo/parser/parser.go` lines 91-92: `Parser.literals`; the last literal with given text wins. -/
def Grammar.literal (g : Grammar) (text : List Nat) : Option Nat :=
  ((List.range g.tokens.length).filter fun i =>
    (g.tokens[i]?).any fun t => t.flags.literal && t.name == text).getLast?

/-- `/repo/parser/parser.go` lines 185-187, `IsSideType`. -/
def Grammar.isSideType (g : Grammar) (tt : Int) : Bool :=
  if 0 ≤ tt then (g.tokens[tt.toNat]?).any (·.flags.side) else false

/-- `/repo/parser/parser.go` lines 195-197, `IsValidType`; the lowest token type is `EoiTokenType`. -/
def Grammar.isValidType (g : Grammar) (tt : Int) : Bool :=
  eoiTokenType ≤ tt ∧ tt < g.tokens.length ∧ tt ≠ anyToken

/-- `/repo/parser/parser.go` lines 832-840, `isSideToken`. -/
def Grammar.isSideToken (g : Grammar) (t : Option Token) : Bool := t.any fun t => g.isSideType t.type

/-- `/repo/parser/parser.go` lines 614-649, `possibleRuleKeys`. -/
def possibleRuleKeys (g : Grammar) (upper : List Nat → List Nat) (t : Option Token) : Option (List Int) :=
  match t with
  | none => some [anyToken]
  | some t =>
    let tf : Option TokenFlags :=
      if 0 ≤ t.type then (g.tokens[t.type.toNat]?).map (·.flags) else some { noLiterals := true }
    tf.bind fun tf =>
      let lit := if tf.noLiterals then none else g.literal (if tf.caseless then upper t.content else t.content)
      match lit with
      | none => some [t.type, anyToken]
      | some i => (g.tokens[i]?).map fun lt => if lt.flags.reserved then [(i : Int), anyToken] else [(i : Int), t.type, anyToken]

/-- `/repo/parser/parser.go` lines 578-612, `findRules`; the state is given by its index. -/
def findRules (g : Grammar) (upper : List Nat → List Nat) (t : Option Token) (s : Int) : Option (List Rule) :=
  (Go.index g.tables.states s).bind fun st =>
    match t with
    | some tok => if g.isSideType tok.type then some [⟨tok.type, repeatState, sameNode⟩]
      else (possibleRuleKeys g upper t).bind (findRulesBy g.tables st)
    | none => (possibleRuleKeys g upper t).bind (findRulesBy g.tables st)

/-- `/repo/parser/parser.go` lines 554-576, `getExpectedToken`: the token index, `none` is a panic. -/
def getExpectedToken (g : Grammar) (st : GState) : Option Nat :=
  (if st.highRule > st.lowRule then
    (g.tables.rules[st.lowRule]?).bind fun r =>
      if r.token < 0 ∧ st.highRule > st.lowRule + 1 then (g.tables.rules[st.lowRule + 1]?).map (·.token)
      else some r.token
  else some 0).bind fun index =>
    (if st.highMulti > st.lowMulti then
      (g.tables.multi[st.lowMulti]?).map fun m => if m.token < index then m.token else index
    else some index).bind fun index =>
      (Go.index g.tokens index).map fun _ => index.toNat

/-- Sends notifications one after another until an error. -/
def send (env : PEnv σ) : List Event → List Event → Except PErr (List Event)
  | [], log => .ok log
  | e :: es, log =>
    match env.onCall log e with
    | .error x => .error (.hook x)
    | .ok _ => send env es (log ++ [e])

/-- Instances of a node that are not nil, with layer numbers. -/
def liveHooks (hooks : List (Option Nat)) : List (Nat × Nat) := hooks.zipIdx.filterMap fun h => h.1.map fun i => (h.2, i)

/-- Loops over hooks calling `HandleToken` (lines 412-421, 848-857, 873-882). -/
def tokenEvents (hooks : List (Option Nat)) (t : Token) : List Event := (liveHooks hooks).map fun h => .token h.1 h.2 t

/-- `/repo/parser/parser.go` lines 842-862, `handleNodeSides`: notifications for collected side tokens. -/
def sideEvents (node : NodeRec) : List Event := node.sides.flatMap (tokenEvents node.hooks)

/-- `/repo/parser/parser.go` lines 375-383 and 651-663, loop over layers with `getNodeHook`. -/
def makeHooks (env : PEnv σ) (index : Nat) (tok : Option Token) : List Nat → List Event →
    Except PErr (List (Option Nat) × List Event)
  | [], log => .ok ([], log)
  | l :: ls, log =>
    if env.hooked l index then
      match env.onMake log (.make l index tok) with
      | .error x => .error (.hook x)
      | .ok b =>
        match makeHooks env index tok ls (log ++ [.make l index tok]) with
        | .error x => .error x
        | .ok r => .ok ((if b then some log.length else none) :: r.1, r.2)
    else
      match makeHooks env index tok ls log with
      | .error x => .error x
      | .ok r => .ok (none :: r.1, r.2)

/-- `/repo/parser/parser.go` lines 373-394, the part of `pushNode` that makes hook instances and pushes the node; `stack`
and `log` are current ones. -/
def addNode (env : PEnv σ) (pc : PC σ) (index : Nat) (tok : Option Token) (stack : List NodeRec) (log : List Event) :
    PRes (PC σ) :=
  match makeHooks env index tok (List.range env.layers) log with
  | .error x => .done (.error x)
  | .ok (hooks, log) =>
    orPanic (env.g.firsts[index]?) fun first =>
      orPanic (env.g.tables.states[first]?) fun st =>
        .done (.ok { pc with
          stack := { types := st.types, index := index, state := first, hooks := hooks } :: stack
          log := log })

/-- `/repo/parser/parser.go` lines 350-395, `pushNode` with hooks. -/
def pushNode (env : PEnv σ) (pc : PC σ) (index : Nat) (tok : Option Token) : PRes (PC σ) :=
  match pc.stack with
  | [] => addNode env pc index tok [] pc.log
  | node :: rest =>
    match send env (sideEvents node) pc.log with
    | .error x => .done (.error x)
    | .ok log =>
      match send env ((liveHooks node.hooks).map fun h => .newNode h.1 h.2 index tok) log with
      | .error x => .done (.error x)
      | .ok log => addNode env pc index tok ({ node with sides := [] } :: rest) log

/-- `/repo/parser/parser.go` lines 427-443, loop calling `EndNode`: results of all layers and the new `lastResult`. -/
def endHooks (env : PEnv σ) : List (Option Nat × Nat) → List Event → Option Nat →
    Except PErr (List (Option Nat) × List Event × Option Nat)
  | [], log, last => .ok ([], log, last)
  | (none, _) :: hs, log, last =>
    match endHooks env hs log last with
    | .error x => .error x
    | .ok r => .ok (none :: r.1, r.2)
  | (some i, l) :: hs, log, last =>
    match env.onCall log (.endNode l i) with
    | .error x => .error (.hook x)
    | .ok res =>
      match endHooks env hs (log ++ [.endNode l i]) (if l = 0 ∧ env.watchNodes then res else last) with
      | .error x => .error x
      | .ok r => .ok (res :: r.1, r.2)

/-- `/repo/parser/parser.go` lines 408-467, the loop of `popNode` with hooks; result: stack, log and `lastResult`. -/
def popLoop (env : PEnv σ) (sides : List Token) : List NodeRec → List Event → Option Nat →
    Except PErr (List NodeRec × List Event × Option Nat)
  | [], log, last => .ok ([], log, last)
  | node :: rest, log, last =>
    if node.state ≠ finalState then .ok ({ node with sides := sides } :: rest, log, last)
    else
      match send env (if rest.isEmpty then sides.flatMap (tokenEvents node.hooks) else []) log with
      | .error x => .error x
      | .ok log =>
        match endHooks env node.hooks.zipIdx log last with
        | .error x => .error x
        | .ok (results, log, last) =>
          match rest with
          | [] => .ok ([], log, last)
          | parent :: rest' =>
            match send env ((liveHooks parent.hooks).map fun h =>
                .handleNode h.1 h.2 node.index ((results[h.1]?).getD none)) log with
            | .error x => .error x
            | .ok log => popLoop env sides (parent :: rest') log last

/-- `/repo/parser/parser.go` lines 397-471, `popNode` with hooks. -/
def popNode (env : PEnv σ) (pc : PC σ) : PRes (PC σ) :=
  match pc.stack with
  | [] => .panic
  | node :: rest =>
    match popLoop env node.sides ({ node with sides := [] } :: rest) pc.log pc.lastResult with
    | .error x => .done (.error x)
    | .ok (stack, log, last) => .done (.ok { pc with stack := stack, log := log, lastResult := last })

/-- `/repo/parser/parser.go` lines 864-887, `handleNodeToken`. -/
def handleNodeToken (env : PEnv σ) (pc : PC σ) (tok : Option Token) : PRes (PC σ) :=
  match tok, pc.stack with
  | none, _ => .done (.ok pc)
  | _, [] => .panic
  | some t, node :: rest =>
    if env.g.isSideType t.type then
      .done (.ok { pc with stack := { node with sides := node.sides ++ [t] } :: rest })
    else
      match send env (sideEvents node ++ tokenEvents node.hooks t) pc.log with
      | .error x => .done (.error x)
      | .ok log => .done (.ok { pc with stack := { node with sides := [] } :: rest, log := log })

/-- `/repo/parser/parser.go` line 893: is the token consumed. -/
def consumes (rule : Rule) (tok : Option Token) : Bool := (rule.node = sameNode ∧ rule.token ≠ anyToken) ∨ tok = none

/-- `/repo/parser/parser.go` lines 894-899: state change of the top node. -/
def moveFrame (g : Grammar) (rule : Rule) (f : Frame) : Option Frame :=
  if rule.state = repeatState then some f
  else if rule.state = finalState then some { f with state := rule.state }
  else (Go.index g.tables.states rule.state).map fun st => { f with state := rule.state, types := st.types }

/-- `/repo/parser/parser.go` lines 889-915, `applyRule` with hooks. -/
def applyRule (env : PEnv σ) (pc : PC σ) (tok : Option Token) (rule : Rule) : PRes (PC σ × Bool) :=
  match pc.stack with
  | [] => .panic
  | node :: rest =>
    orPanic (moveFrame env.g rule node.toFrame) fun f =>
      let pc := { pc with stack := { node with toFrame := f } :: rest, steps := pc.steps ++ [(tok, rule)] }
      bindRes (if rule.node ≠ sameNode then
          (if 0 ≤ rule.node then pushNode env pc rule.node.toNat tok else .panic)
        else if consumes rule tok then handleNodeToken env pc tok
        else .done (.ok pc)) fun pc =>
      bindRes (match pc.stack with
        | [] => .panic
        | top :: _ => if top.state = finalState then popNode env pc else .done (.ok pc)) fun pc =>
      .done (.ok (pc, consumes rule tok))

/-- `/repo/parser/parser.go` lines 397-471, `popNode` without hooks. -/
def popFrames : List Frame → List Frame
  | [] => []
  | f :: rest => if f.state = finalState then popFrames rest else f :: rest

/-- `/repo/parser/parser.go` lines 889-915, `applyRule` without hooks. -/
def applyQuiet (g : Grammar) (tok : Option Token) (rule : Rule) (stack : List Frame) : Option (List Frame × Bool) :=
  match stack with
  | [] => none
  | f :: rest =>
    (moveFrame g rule f).bind fun f =>
      (if rule.node ≠ sameNode then
        (if 0 ≤ rule.node then
          (g.firsts[rule.node.toNat]?).bind fun first =>
            (g.tables.states[first]?).map fun st =>
              ({ types := st.types, index := rule.node.toNat, state := first } : Frame) :: f :: rest
        else none)
      else some (f :: rest)).map fun stack => (popFrames stack, consumes rule tok)

/-- `/repo/parser/misc.go` lines 64-67, type `parsingBranch`. -/
structure Branch where
  stack : List Frame
  rules : List Rule
deriving DecidableEq

/-- Variables of `resolveConflict` (`/repo/parser/parser.go` lines 917-1001). Branches are pointers to elements of
`store`. `cur` is the backing array of `nextBranches` (its length is the capacity) and `len` is the length of
`nextBranches`; `branches` shares this array unless `moved` holds its own. -/
structure RC where
  store : List Branch
  cur : List Nat
  len : Nat
  moved : Option (List Nat) := none
  q : List Nat := []
  lastSuccess : Option Nat := none
  lastError : Option Nat := none
deriving DecidableEq

namespace RC

/-- `nextBranches = append(nextBranches, b)`. -/
def append (grow : Nat → Nat) (rc : RC) (b : Nat) : RC :=
  if rc.len < rc.cur.length then { rc with cur := rc.cur.set rc.len b, len := rc.len + 1 }
  else { rc with
    moved := some (rc.moved.getD rc.cur)
    cur := rc.cur.take rc.len ++ b :: List.replicate (grow rc.cur.length - rc.len - 1) 0
    len := rc.len + 1 }

/-- `/repo/parser/parser.go` lines 926-937, closure `applyRule`. -/
def apply (env : PEnv σ) (tok : Option Token) (rc : RC) (b : Nat) (rule : Rule) : Option RC :=
  (rc.store[b]?).bind fun br =>
    (applyQuiet env.g tok rule br.stack).map fun r =>
      let rc := { rc with store := rc.store.set b ⟨r.1, br.rules ++ [rule]⟩ }
      if r.2 then rc.append env.grow b
      else if r.1.isEmpty then { rc with lastSuccess := some b }
      else { rc with q := rc.q ++ [b] }

/-- Applies rules to branches pairwise (lines 964-966). -/
def applyAll (env : PEnv σ) (tok : Option Token) : List (Nat × Rule) → RC → Option RC
  | [], rc => some rc
  | (b, r) :: l, rc => (rc.apply env tok b r).bind (applyAll env tok l)

/-- `/repo/parser/misc.go` lines 82-94, `Split`: pointers to `count` equal branches, `b` being the first one. -/
def split (rc : RC) (b : Nat) (br : Branch) (count : Nat) : RC × List Nat :=
  ({ rc with store := rc.store ++ List.replicate (count - 1) br },
    b :: (List.range (count - 1)).map fun i => rc.store.length + i)

/-- `/repo/parser/parser.go` lines 948-968, the loop over `q`. -/
def drain (env : PEnv σ) (tok : Option Token) : Nat → RC → Run RC
  | 0, _ => .timeout
  | fuel + 1, rc =>
    match rc.q with
    | [] => .done rc
    | b :: q =>
      let rc := { rc with q := q }
      orPanic (rc.store[b]?) fun br =>
        match br.stack with
        | [] => drain env tok fuel { rc with lastSuccess := some b }
        | top :: _ =>
          orPanic (findRules env.g env.upper tok top.state) fun rules =>
            match rules with
            | [] => drain env tok fuel { rc with lastError := some b }
            | [r] => orPanic (rc.apply env tok b r) (drain env tok fuel)
            | r :: r' :: rs =>
              let (rc, bs) := rc.split b br (r :: r' :: rs).length
              orPanic (rc.applyAll env tok (bs.zip (r :: r' :: rs))) (drain env tok fuel)

/-- `/repo/parser/parser.go` lines 945-969, the loop over `branches`: `count` is the number of branches left, `i` is the
current index. -/
def overBranches (env : PEnv σ) (tok : Option Token) (fuel : Nat) : Nat → Nat → RC → Run RC
  | 0, _, rc => .done rc
  | count + 1, i, rc =>
    orPanic ((rc.moved.getD rc.cur)[i]?) fun b =>
      bindRun (drain env tok fuel { rc with q := rc.q ++ [b] }) fun rc => overBranches env tok fuel count (i + 1) rc

/-- `/repo/parser/parser.go` lines 939-969: one round. -/
def round (env : PEnv σ) (tok : Option Token) (fuel : Nat) (rc : RC) : Run RC :=
  overBranches env tok fuel rc.len 0 { rc with len := 0, moved := none, lastSuccess := none }

/-- `/repo/parser/parser.go` lines 975-980: expected types of all branches. -/
def types (rc : RC) : TokenTypeSet :=
  (rc.cur.take rc.len).foldl (fun (tts : TokenTypeSet) (b : Nat) =>
    match (rc.store[b]?).bind (·.stack.head?) with
    | some top => tts ||| top.types
    | none => tts) 0

/-- `/repo/parser/parser.go` lines 992-1000: the chosen branch. -/
def chosen (rc : RC) : Option (List Rule) :=
  (if rc.len ≠ 0 then rc.cur[0]? else match rc.lastSuccess with
    | some b => some b
    | none => rc.lastError).bind fun b => (rc.store[b]?).map (·.rules)

end RC

/-- `/repo/parser/parser.go` lines 671-682, the loop of `nextToken`. -/
def nextLoop (env : PEnv σ) (types : TokenTypeSet) : Nat → PC σ → Run (PC σ × Except PErr (Option Token))
  | 0, _ => .timeout
  | fuel + 1, pc =>
    bindRun (env.pull pc.src types) fun r =>
      match r with
      | (src, .error e) => .done ({ pc with src := src }, .error e)
      | (src, .ok tok) =>
        let pc := { pc with src := src }
        if tok.any (fun t => t.type = eofTokenType) ∨ (env.g.isSideToken tok ∧ ¬ env.passSides) then
          nextLoop env types fuel pc
        else .done ({ pc with delivered := pc.delivered ++ [tok] }, .ok tok)

/-- `/repo/parser/parser.go` lines 665-683, `nextToken`. -/
def nextToken (env : PEnv σ) (fuel : Nat) (pc : PC σ) (types : TokenTypeSet) :
    Run (PC σ × Except PErr (Option Token)) :=
  match pc.tokens with
  | t :: ts => .done ({ pc with tokens := ts }, .ok t)
  | [] => nextLoop env types fuel pc

/-- `/repo/parser/parser.go` lines 939-1000, the main loop of `resolveConflict`; `tokens` are the tokens before `tok`.
Result: context, tokens and rules. -/
def conflictLoop (env : PEnv σ) : Nat → PC σ → Option Token → List (Option Token) → RC →
    Run (PC σ × List (Option Token) × List Rule)
  | 0, _, _, _, _ => .timeout
  | fuel + 1, pc, tok, tokens, rc =>
    bindRun (rc.round env tok fuel) fun rc =>
      let tokens := tokens ++ [tok]
      let finish (pc : PC σ) := orPanic rc.chosen fun rules => .done (pc, tokens, rules)
      if rc.len ≤ 1 then finish pc
      else if rc.types = 0 then finish pc
      else
        bindRun (nextToken env fuel pc rc.types) fun r =>
          match r with
          | (pc, .error _) => finish pc
          | (pc, .ok tok) => conflictLoop env fuel pc tok tokens rc

/-- `/repo/parser/parser.go` lines 917-1001, `resolveConflict`; `/repo/parser/misc.go` lines 69-80,
`newParsingBranch`. -/
def resolveConflict (env : PEnv σ) (fuel : Nat) (pc : PC σ) (tok : Option Token) :
    Run (PC σ × List (Option Token) × List Rule) :=
  orPanic pc.stack.head? fun top =>
    conflictLoop env fuel pc tok [] { store := [⟨[top.toFrame], []⟩], cur := [0], len := 1 }

/-- `/repo/parser/parser.go` lines 726-751, `nextRule`; no rule is `none`. -/
def nextRule (env : PEnv σ) (fuel : Nat) (pc : PC σ) (tok : Option Token) (s : Int) : Run (PC σ × Option Rule) :=
  match pc.applied with
  | r :: rs => .done ({ pc with applied := rs }, some r)
  | [] =>
    orPanic (findRules env.g env.upper tok s) fun rules =>
      match rules with
      | [] => .done (pc, none)
      | [r] => .done (pc, some r)
      | _ =>
        bindRun (resolveConflict env fuel pc tok) fun r =>
          match r with
          | (pc, tokens, rules) =>
            orPanic rules.head? fun r =>
              .done ({ pc with tokens := tokens.drop 1 ++ pc.tokens, applied := rules.drop 1 }, some r)

/-- `/repo/parser/parser.go` lines 502-508: the error for an unexpected token. -/
def unexpected (env : PEnv σ) (s : Int) (t : Token) : PRes (PC σ × Bool) :=
  orPanic ((Go.index env.g.tables.states s).bind (getExpectedToken env.g)) fun _ =>
    .done (.error (if t.type = eoiTokenType then .unexpectedEof else .unexpectedToken t))

/-- `/repo/parser/parser.go` lines 495-509: no rule for the token. -/
def noRule (env : PEnv σ) (fuel : Nat) (pc : PC σ) (tok : Option Token) (s : Int) : PRes (PC σ × Bool) :=
  match tok with
  | some t => unexpected env s t
  | none =>
    bindRun (nextToken env fuel pc allTokenTypes) fun r =>
      match r with
      | (_, .error e) => .done (.error e)
      | (_, .ok none) => .panic
      | (_, .ok (some t)) => unexpected env s t

/-- `/repo/parser/parser.go` lines 493-519, the inner loop of `parse`. -/
def inner (env : PEnv σ) : Nat → PC σ → Option Token → PRes (PC σ × Bool)
  | 0, _, _ => .timeout
  | fuel + 1, pc, tok =>
    match pc.stack with
    | [] => .done (.ok (pc, false))
    | node :: _ =>
      bindRun (nextRule env fuel pc tok node.state) fun r =>
        match r with
        | (pc, none) => noRule env fuel pc tok node.state
        | (pc, some rule) =>
          bindRes (applyRule env pc tok rule) fun r =>
            if r.2 then .done (.ok r) else inner env fuel r.1 tok

/-- `/repo/parser/parser.go` lines 483-520, the outer loop of `parse`; `tok` and `tokenConsumed` are kept for the code
after the loop. -/
def outer (env : PEnv σ) : Nat → PC σ → Option Token → Bool → PRes (PC σ × Option Token × Bool)
  | 0, _, _, _ => .timeout
  | fuel + 1, pc, tok, consumed =>
    match pc.stack with
    | [] => .done (.ok (pc, tok, consumed))
    | node :: _ =>
      bindRun (nextToken env fuel pc node.types) fun r =>
        match r with
        | (_, .error e) => .done (.error e)
        | (pc, .ok tok) => bindRes (inner env fuel pc tok) fun r => outer env fuel r.1 tok r.2

/-- `/repo/parser/parser.go` lines 534-549: nothing but side tokens must be left. -/
def restLoop (env : PEnv σ) : Nat → PC σ → PRes (PC σ)
  | 0, _ => .timeout
  | fuel + 1, pc =>
    bindRun (nextToken env fuel pc allTokenTypes) fun r =>
      match r with
      | (_, .error e) => .done (.error e)
      | (_, .ok none) => .panic
      | (pc, .ok (some t)) =>
        if t.type = eoiTokenType then .done (.ok pc)
        else if env.g.isSideType t.type then restLoop env fuel pc
        else .done (.error (.remainingSource t))

/-- `/repo/parser/parser.go` lines 522-530: a token that is not consumed is put back to sources. -/
def putBack (env : PEnv σ) (pc : PC σ) (tok : Option Token) (consumed : Bool) : Run (PC σ) :=
  if consumed then .done pc
  else
    match tok with
    | none => .panic
    | some t =>
      if t.type = eoiTokenType then .done pc
      else if t.pos.src.isNone then .done pc
      else orPanic (env.unread pc.src t) fun src => .done { pc with src := src }

/-- `/repo/parser/parser.go` lines 522-552: the part of `parse` after the loop. -/
def finish (env : PEnv σ) (fuel : Nat) (pc : PC σ) (tok : Option Token) (consumed : Bool) : PRes (PC σ) :=
  bindRun (putBack env pc tok consumed) fun pc =>
    if env.fullSource ∧ ¬ tok.any (fun t => t.type = eoiTokenType) then restLoop env fuel pc
    else .done (.ok pc)

/-- `/repo/parser/parser.go` lines 475-552, `parse`, on a context with the root node pushed. -/
def parseLoop (env : PEnv σ) (fuel : Nat) (pc : PC σ) : PRes (PC σ) :=
  bindRes (outer env fuel pc none false) fun r => finish env fuel r.1 r.2.1 r.2.2

/-- `/repo/parser/parser.go` lines 159-171 and 274-276: the root node is pushed, then `parse` is called; the result is
the final context (`lastResult` is what `Parse` returns). `pos` is the position of the source queue. -/
def parse (env : PEnv σ) (fuel : Nat) (src : σ) (pos : SrcPos) : PRes (PC σ) :=
  bindRes (pushNode env { src := src } rootNode (some { type := anyToken, typeName := "", content := [], pos := pos }))
    fun pc => parseLoop env fuel pc

end Verif.Model
