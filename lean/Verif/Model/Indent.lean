/-
Model of the hook layer "indent" (`parser/layers/indent/indent.go`).

Slices are values: sharing of arrays (`pad`, `adjustIndent`) is not modelled; contents are lists of bytes. Errors returned by
hooks are numbers: 0 is an error returned by `PeekToken`, 1 is "invalid indentation", 2 is an error of `MakeToken`.
-/
import Verif.Model.Layers

namespace Verif.Model

/-- `/repo/parser/layers/indent/indent.go` lines 64-72, type `tokenRole`. -/
inductive IndentRole
  | common
  | space
  | side
  | empty
  | eoi
deriving DecidableEq

/-- `/repo/parser/layers/indent/indent.go` lines 74-83, type `state`. -/
inductive IndentPhase
  | validIndent
  | incIndent
  | decIndent
  | invalidIndent
  | indentSide
  | indented
deriving DecidableEq

/-- `/repo/parser/layers/indent/indent.go` lines 107-111, type `layer`, and the parser. -/
structure IndentLayer where
  g : Grammar
  indentType : List Nat := []
  dedentType : List Nat := []
  roles : List IndentRole := []
deriving DecidableEq

/-- `/repo/parser/layers/indent/indent.go` lines 96-105, type `layerState`, the changing part; the last element of `stack`
is the top one. -/
structure IndentState where
  stack : List (List Nat) := []
  valid : List Nat := []
  current : List Nat := []
  spaces : List Token := []
  phase : IndentPhase := .validIndent
deriving DecidableEq

/-- `/repo/parser/parser.go` lines 208-215, `MakeToken`. -/
def Grammar.makeToken (g : Grammar) (name content : List Nat) : Option Token :=
  (g.tokenName name).map fun t => ⟨t, nameOf name, content, ⟨none, 0⟩⟩

/-- `/repo/parser/layers/indent/indent.go` lines 134-149, `role`. -/
def IndentLayer.role (l : IndentLayer) (tok : Token) : IndentRole :=
  if tok.type = eoiTokenType then .eoi
  else if tok.type < 0 ∨ tok.content.length = 0 then .empty
  else if tok.type < l.roles.length then (l.roles[tok.type.toNat]?).getD .common
  else .common

/-- `/repo/parser/layers/indent/indent.go` lines 183-189, `pad`. -/
def indentPad (s : IndentState) (tokens : List Token) : IndentState × List Token :=
  ({ s with spaces := [] }, s.spaces ++ tokens)

/-- `/repo/parser/layers/indent/indent.go` lines 151-160, `indent`; `none` is an error. -/
def indentIndent (l : IndentLayer) (s : IndentState) (tokens : List Token) : IndentState × Option (List Token) :=
  let s := { s with stack := s.stack ++ [s.valid], valid := s.current }
  let (s, padded) := indentPad s tokens
  (s, (l.g.makeToken l.indentType []).map fun t => t :: padded)

/-- `/repo/parser/layers/indent/indent.go` lines 166-177, the loop of `dedent`: the new stack and tokens; `i + 1` is the
argument. -/
def dedentLoop (dedent : Token) (len : Nat) (stack : List (List Nat)) : Nat → List Token → List (List Nat) × List Token
  | 0, result => (stack, result)
  | i + 1, result =>
    let result := result ++ [dedent]
    if (stack[i]?).map List.length = some len then (stack.take i, result)
    else dedentLoop dedent len stack i result

/-- `/repo/parser/layers/indent/indent.go` lines 162-181, `dedent`; `none` is an error. -/
def indentDedent (l : IndentLayer) (s : IndentState) (tokens : List Token) : IndentState × Option (List Token) :=
  match l.g.makeToken l.dedentType [] with
  | some t =>
    let (stack, result) := dedentLoop t s.current.length s.stack s.stack.length []
    let s := { s with stack := stack, valid := s.current }
    let (s, padded) := indentPad s tokens
    (s, some (result ++ padded))
  | none =>
    if s.stack.length = 0 then
      let s := { s with valid := s.current }
      let (s, padded) := indentPad s tokens
      (s, some padded)
    else ((indentPad s tokens).1, none)

/-- `/repo/parser/layers/indent/indent.go` lines 273-280, `stripNl`. -/
def stripNl (content : List Nat) : List Nat × Bool :=
  if 10 ∈ content then ((content.reverse.takeWhile (· ≠ 10)).reverse, true) else (content, false)

/-- `/repo/parser/layers/indent/indent.go` lines 282-314, `adjustIndent`: the new `currentIndent` and the state returned. -/
def adjustIndent (s : IndentState) (content : List Nat) : IndentState :=
  let current := if s.current.length = 0 then content else s.current ++ content
  let phase : IndentPhase :=
    if current.length > s.valid.length then
      if s.valid.isPrefixOf current then .incIndent else .invalidIndent
    else if current.isPrefixOf s.valid then
      if current.length = s.valid.length then .validIndent
      else if (s.stack.map List.length).contains current.length then .decIndent else .invalidIndent
    else .invalidIndent
  { s with current := current, phase := phase }

/-- `/repo/parser/layers/indent/indent.go` lines 191-222, `handleCommon`. -/
def indentCommon (l : IndentLayer) (s : IndentState) (tok : Token) : HookProg IndentState :=
  match s.phase with
  | .indented => .ret s true []
  | .validIndent =>
    let (s, extra) := indentPad s [tok]
    .ret { s with phase := .indented } false extra
  | .incIndent =>
    match indentIndent l s [tok] with
    | (s, some extra) => .ret { s with phase := .indented } false extra
    | (s, none) => .fail s 2
  | .decIndent =>
    match indentDedent l s [tok] with
    | (s, some extra) => .ret { s with phase := .indented } false extra
    | (s, none) => .fail s 2
  | .invalidIndent => .fail (indentPad s [tok]).1 1
  | .indentSide => .fail (indentPad s [tok]).1 1

/-- `/repo/parser/layers/indent/indent.go` lines 247-270, the part of `handleSpace` after `PeekToken`; a nil token makes
`role` panic. -/
def indentSpaceNext (l : IndentLayer) (s : IndentState) (tok : Token) (next : Option Token) : HookProg IndentState :=
  let s := { s with spaces := s.spaces ++ [tok] }
  match next with
  | none => .crash
  | some next =>
    if l.role next ≠ .common then .ret s false []
    else
      match s.phase with
      | .validIndent =>
        let (s, extra) := indentPad s []
        .ret { s with phase := .indented } false extra
      | .invalidIndent => .fail (indentPad s []).1 1
      | .indentSide => .fail (indentPad s []).1 1
      | .incIndent =>
        match indentIndent l s [] with
        | (s, some extra) => .ret { s with phase := .indented } false extra
        | (s, none) => .fail s 2
      | .decIndent =>
        match indentDedent l s [] with
        | (s, some extra) => .ret { s with phase := .indented } false extra
        | (s, none) => .fail s 2
      | .indented => .ret { s with phase := .indented } false []

/-- `/repo/parser/layers/indent/indent.go` lines 225-241, the part of `handleSpace` before `PeekToken`: `none` means that
the token is passed. -/
def indentSpaceState (s : IndentState) (tok : Token) : Option IndentState :=
  let (content, nlFound) := stripNl tok.content
  let s := if nlFound then
      { s with current := [], phase := if s.valid.length = 0 then .validIndent else .decIndent }
    else s
  if s.phase = .indented then none
  else if s.phase ≠ .indentSide then some (adjustIndent s content)
  else some s

/-- `/repo/parser/layers/indent/indent.go` lines 224-271, `handleSpace`. -/
def indentSpace (l : IndentLayer) (s : IndentState) (tok : Token) : HookProg IndentState :=
  match indentSpaceState s tok with
  | none => .ret s true []
  | some s => .peek fun r =>
    match r with
    | .error _ => .fail s 0
    | .ok next => indentSpaceNext l s tok next

/-- `/repo/parser/layers/indent/indent.go` lines 316-328, `handleSide`. -/
def indentSideToken (l : IndentLayer) (s : IndentState) (tok : Token) : HookProg IndentState :=
  if s.phase = .indented then .ret s true []
  else
    let s := { s with phase := .indentSide }
    .peek fun r =>
      match r with
      | .error _ => .fail (indentPad s [tok]).1 0
      | .ok none =>
        let (s, extra) := indentPad s [tok]
        .ret s false extra
      | .ok (some next) =>
        if l.role next ≠ .common then
          let (s, extra) := indentPad s [tok]
          .ret s false extra
        else .fail s 1

/-- `/repo/parser/layers/indent/indent.go` lines 330-346, `handleEoi`, and lines 120-122. -/
def indentEoi (l : IndentLayer) (s : IndentState) (tok : Token) : HookProg IndentState :=
  match l.g.makeToken l.dedentType [] with
  | some t =>
    let (s', padded) := indentPad s []
    .ret s' false (List.replicate s.stack.length t ++ padded ++ [tok])
  | none =>
    if s.stack.length = 0 then
      let (s', padded) := indentPad s []
      .ret s' false (padded ++ [tok])
    else .fail s 2

/-- `/repo/parser/layers/indent/indent.go` lines 113-132, `handle`. -/
def indentHandle (l : IndentLayer) (s : IndentState) (tok : Token) : HookProg IndentState :=
  match l.role tok with
  | .eoi => indentEoi l s tok
  | .common => indentCommon l s tok
  | .space => indentSpace l s tok
  | .side => indentSideToken l s tok
  | .empty => .ret s true []

/-- `/repo/parser/layers/indent/indent.go` lines 348-366, `Init`: hooks; the initial state is `{}`. -/
def IndentLayer.hooks (l : IndentLayer) : THooks IndentState where
  tokens := [([], indentHandle l), (bytesOf "-eoi-", indentHandle l)]

/-- Variables of `Setup`, `/repo/parser/layers/indent/indent.go` lines 371-376. -/
structure IndentVars where
  maxType : Int := 0
  gotSpaces : Bool := false
  /-- the last pair with a key wins -/
  roleMap : List (Int × IndentRole) := []
  indentType : List Nat := []
  dedentType : List Nat := []
deriving DecidableEq

/-- `/repo/parser/layers/indent/indent.go` lines 378-383. -/
def indentSides (g : Grammar) : IndentVars :=
  g.tokens.zipIdx.foldl (fun v t => if t.1.flags.side then
    { v with roleMap := v.roleMap ++ [((t.2 : Int), .side)], maxType := t.2 } else v) {}

/-- `/repo/parser/layers/indent/indent.go` lines 394-404. -/
def indentSpaceArgs (g : Grammar) : List (List Nat) → IndentVars → Except LayerErr IndentVars
  | [], v => .ok v
  | n :: ns, v =>
    match g.tokenName n with
    | none => .error .unknownTokenType
    | some tt => indentSpaceArgs g ns
        { v with maxType := if tt ≥ v.maxType then tt else v.maxType, roleMap := v.roleMap ++ [(tt, .space)] }

/-- `/repo/parser/layers/indent/indent.go` lines 386-428, the body of the loop over commands; unknown commands are
skipped. -/
def indentCommand (g : Grammar) (v : IndentVars) (c : LayerCommand) : Except LayerErr IndentVars :=
  if c.command = bytesOf "space" then
    let v := { v with gotSpaces := true }
    if c.arguments.length = 0 then .error .numberOfArguments else indentSpaceArgs g c.arguments v
  else if c.command = bytesOf "on-indent" ∨ c.command = bytesOf "on-dedent" then
    match c.arguments with
    | [ttn] =>
      match g.tokenName ttn with
      | none => .error .unknownTokenType
      | some tt =>
        if tt < 0 then .error .unknownTokenType
        else if c.command = bytesOf "on-indent" then
          if v.indentType ≠ [] then .error .commandAlreadyUsed else .ok { v with indentType := ttn }
        else
          if v.dedentType ≠ [] then .error .commandAlreadyUsed else .ok { v with dedentType := ttn }
    | _ => .error .numberOfArguments
  else .ok v

/-- `/repo/parser/layers/indent/indent.go` lines 385-429, the loop over commands. -/
def indentCommands (g : Grammar) : IndentVars → List LayerCommand → Except LayerErr IndentVars
  | v, [] => .ok v
  | v, c :: cs =>
    match indentCommand g v c with
    | .error e => .error e
    | .ok v => indentCommands g v cs

/-- `/repo/parser/layers/indent/indent.go` lines 443-446: `none` is a panic. The order of keys does not matter. -/
def indentRoles (v : IndentVars) : Option (List IndentRole) :=
  v.roleMap.foldl (fun l p => l.bind fun l => Go.setIndex l p.1 p.2)
    (some (List.replicate (v.maxType + 1).toNat .common))

/-- `/repo/parser/layers/indent/indent.go` lines 370-449, `Setup`: `none` is a panic. -/
def indentSetup (g : Grammar) (cs : List LayerCommand) : Option (Except LayerErr IndentLayer) :=
  match indentCommands g (indentSides g) cs with
  | .error e => some (.error e)
  | .ok v =>
    if ¬ v.gotSpaces then some (.error .missingCommand)
    else if v.indentType = [] then some (.error .missingCommand)
    else if v.dedentType = [] then some (.error .missingCommand)
    else (indentRoles v).map fun roles => .ok ⟨g, v.indentType, v.dedentType, roles⟩

end Verif.Model
