/-
What the "indent" layer must do.
-/
import Verif.Model.Indent
import Verif.Spec.Layers
import Verif.Spec.Pipeline

namespace Verif.Spec.Indent

open Verif.Model Verif.Spec.Layers
open Verif.Model.Tree (bindRun)

/-- Tokens emitted by the layer: tokens received, on-indent and on-dedent ones. -/
inductive Mark
  | orig (t : Token)
  | opening
  | closing
deriving DecidableEq

/-- The token itself. -/
def Mark.token (opened closed : Token) : Mark → Token
  | .orig t => t
  | .opening => opened
  | .closing => closed

/-- Received tokens among emitted ones. -/
def originals : List Mark → List Token
  | [] => []
  | .orig t :: ms => t :: originals ms
  | _ :: ms => originals ms

/-- The number of open pairs after the marks if there were `d` before; `none` if a closing mark has no pair. -/
def depth : List Mark → Nat → Option Nat
  | [], d => some d
  | .orig _ :: ms, d => depth ms d
  | .opening :: ms, d => depth ms (d + 1)
  | .closing :: ms, d => if d = 0 then none else depth ms (d - 1)

/-- Every closing mark has an opening one before it, and every opening mark is closed. -/
def Balanced (ms : List Mark) : Prop := depth ms 0 = some 0

/-- Correct configuration of the layer. -/
structure IndentOk (g : Grammar) (cs : List LayerCommand) : Prop where
  given : ∃ c ∈ cs, c.command = bytesOf "space"
  space : ∀ c ∈ cs, c.command = bytesOf "space" → c.arguments ≠ [] ∧
    ∀ n ∈ c.arguments, ∃ k : Int, g.tokenName n = some k ∧ 0 ≤ k
  one : ∀ c ∈ cs, c.command = bytesOf "on-indent" ∨ c.command = bytesOf "on-dedent" → c.arguments.length = 1
  onIndent : ∃ n, argumentsOf "on-indent" cs = [n] ∧ ∃ k : Int, g.tokenName n = Option.some k ∧ 0 ≤ k
  onDedent : ∃ n, argumentsOf "on-dedent" cs = [n] ∧ ∃ k : Int, g.tokenName n = Option.some k ∧ 0 ≤ k

open Classical in
/-- Roles of tokens given by the grammar and the configuration. -/
noncomputable def roleOf (g : Grammar) (cs : List LayerCommand) (t : Token) : IndentRole :=
  if t.type = eoiTokenType then .eoi
  else if t.type < 0 ∨ t.content = [] then .empty
  else if ∃ n ∈ argumentsOf "space" cs, g.tokenName n = some t.type then .space
  else if ∃ d, g.tokens[t.type.toNat]? = some d ∧ d.flags.side = true then .side
  else .common

/-- The token emitted for the command. -/
def EmitsToken (g : Grammar) (cs : List LayerCommand) (command : String) (t : Token) : Prop :=
  ∃ n, argumentsOf command cs = [n] ∧ g.tokenName n = some t.type ∧ 0 ≤ t.type ∧ t.content = []

/-- Is it a token without text (but not the end of input). -/
def Textless (t : Token) : Prop := t.type ≠ eoiTokenType ∧ (t.type < 0 ∨ t.content = [])

instance (t : Token) : Decidable (Textless t) := inferInstanceAs (Decidable (_ ∧ _))

/-! Lines -/

/-- Where in a line we are: only spaces before, spaces and side tokens before, something else before. -/
inductive Place
  | start
  | sides
  | body
deriving DecidableEq

/-- State of reading: indentations of enclosing blocks, the innermost first; indentation of the current line; place. -/
structure Lines where
  levels : List (List Nat) := [[]]
  indent : List Nat := []
  place : Place := .start
deriving DecidableEq

/-- Levels after a line with indentation `w`, and marks of the change: an indentation that extends the innermost one opens a
block, an indentation of an enclosing block closes all blocks inside it. -/
def relevel (w : List Nat) : List (List Nat) → Option (List (List Nat) × List Mark)
  | [] => none
  | v :: levels =>
    if w = v then some (v :: levels, [])
    else if v <+: w then some (w :: v :: levels, [.opening])
    else if w ∈ levels then
      some ((v :: levels).dropWhile (· ≠ w), List.replicate ((v :: levels).takeWhile (· ≠ w)).length .closing)
    else none

/-- Reads one token: new state and marks to place before the token (before spaces preceding the token); `none` is an
indentation error. -/
def Lines.read (role : Token → IndentRole) (l : Lines) (t : Token) : Option (Lines × List Mark) :=
  match role t with
  | .space =>
    if 10 ∈ t.content then some ({ l with indent := (t.content.reverse.takeWhile (· ≠ 10)).reverse, place := .start }, [])
    else if l.place = .start then some ({ l with indent := l.indent ++ t.content }, [])
    else some (l, [])
  | .side => some ({ l with place := if l.place = .start then .sides else l.place }, [])
  | .common =>
    match l.place with
    | .start => (relevel l.indent l.levels).map fun r => ({ l with levels := r.1, place := .body }, r.2)
    | .sides => none
    | .body => some (l, [])
  | _ => some (l, [])

/-- What must be emitted for tokens; `pending` are spaces not emitted yet. Marks are placed before spaces preceding the first
token of a line. All blocks are closed at the end of input. Tokens of no text are passed at once. -/
def layout (role : Token → IndentRole) : Lines → List Token → List Token → Option (List Mark)
  | _, _, [] => some []
  | l, pending, t :: ts =>
    if role t = .empty then (layout role l pending ts).map (.orig t :: ·)
    else if role t = .eoi then
      (layout role l [] ts).map (List.replicate (l.levels.length - 1) .closing ++ pending.map .orig ++ [.orig t, .orig t] ++ ·)
    else (l.read role t).bind fun r =>
      if role t = .space ∧ r.1.place ≠ .body then layout role r.1 (pending ++ [t]) ts
      else (layout role r.1 [] ts).map (r.2 ++ pending.map .orig ++ [.orig t] ++ ·)

/-! Executions -/

/-- What the hook does when all calls of `PeekToken` return `r`: the new state and the result; `none` is a panic (or an access
to sources). -/
def answered {η : Type} (r : Except PErr (Option Token)) : HookProg η → Option (η × Except Nat (Bool × List Token))
  | .ret st emit extra => some (st, .ok (emit, extra))
  | .fail st e => some (st, .error e)
  | .crash => none
  | .peek k => answered r (k r)
  | .read _ => none
  | .call _ _ => none

/-- The layer receives tokens one after another, `PeekToken` returns the token received next; result: the state and tokens
emitted. -/
def feed (l : IndentLayer) : IndentState → List Token → Option (Except Nat (IndentState × List Token))
  | s, [] => some (.ok (s, []))
  | s, t :: ts =>
    match answered (.ok ts.head?) (indentHandle l s t) with
    | none => none
    | some (_, .error e) => some (.error e)
    | some (s, .ok r) =>
      match feed l s ts with
      | some (.ok (s, out)) => some (.ok (s, emitted t r ++ out))
      | x => x

/-- A layer handles tokens one after another, the rest of tokens is in the queue of the lower layer; result: the state and
tokens emitted. -/
def feedLayer {η : Type} (env : TEnv η) (fuel : Nat) (hooks : TokenLayer η) :
    PState η → List Token → Run (PState η × Except PErr (List Token))
  | ps, [] => .done (ps, .ok [])
  | ps, t :: ts =>
    bindRun (handleToken env fuel hooks [ts] ps (some t)) fun r =>
      match r with
      | (ps, .error e) => .done (ps, .error e)
      | (ps, .ok (emit, extra)) =>
        bindRun (feedLayer env fuel hooks ps ts) fun q => .done (q.1, q.2.map ((if emit then [t] else []) ++ extra ++ ·))

/-- A layer handles tokens one after another; sources and pending tokens of lower layers are arbitrary. -/
inductive Handles {η : Type} (env : TEnv η) (fuel : Nat) (hooks : TokenLayer η) : η → List Token → List Token → η → Prop
  | nil {st : η} : Handles env fuel hooks st [] [] st
  | cons {st st' st'' : η} {t : Token} {ts out extra : List Token} {emit : Bool} (qs : List (List Token)) (src src' : SrcQueue) :
    handleToken env fuel hooks qs ⟨src, st⟩ (some t) = .done (⟨src', st'⟩, .ok (emit, extra)) →
    Handles env fuel hooks st' ts out st'' →
    Handles env fuel hooks st (t :: ts) ((if emit then [t] else []) ++ extra ++ out) st''

end Verif.Spec.Indent
