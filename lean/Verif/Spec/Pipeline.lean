/-
Specification of the token pipeline: hooks that peek at a copy of what is upcoming, streams passing through layers.
-/
import Verif.Model.Pipeline

namespace Verif.Spec

open Verif.Model
open Verif.Model.Tree (bindRun)

variable {η : Type}

/-- Two computations panic together, run out of steps together, or have related results. -/
def RunRel {α β : Type} (R : α → β → Prop) : Run α → Run β → Prop
  | .panic, .panic => True
  | .timeout, .timeout => True
  | .done a, .done b => R a b
  | _, _ => False

/-- A hook as it should work: `upcoming` are pending tokens, `ahead` is a copy of sources used for peeking, so peeking does
not touch the sources themselves (`src`); changes made by the hook affect both. `fetch` gets a token from sources. -/
def ideal (fetch : SrcQueue → Run (SrcQueue × Except PErr (Option Token))) :
    HookProg η → List Token → SrcQueue → SrcQueue → Run (SrcQueue × η × Except PErr (Bool × List Token))
  | .ret st emit extra, _, _, src => .done (src, st, .ok (emit, extra))
  | .fail st e, _, _, src => .done (src, st, .error (.hook e))
  | .crash, _, _, _ => .panic
  | .peek k, t :: upcoming, ahead, src => ideal fetch (k (.ok (some t))) upcoming ahead src
  | .peek k, [], ahead, src => bindRun (fetch ahead) fun r => ideal fetch (k r.2) [] r.1 src
  | .read k, upcoming, ahead, src => ideal fetch (k ahead.source ahead.pos) upcoming ahead src
  | .call c k, upcoming, ahead, src =>
    orPanic (c.run ahead) fun ahead => orPanic (c.run src) fun src => ideal fetch k upcoming ahead src

/-- The hook does not change sources. -/
inductive NoCall : HookProg η → Prop
  | ret (st : η) (emit : Bool) (extra : List Token) : NoCall (.ret st emit extra)
  | fail (st : η) (e : Nat) : NoCall (.fail st e)
  | crash : NoCall .crash
  | peek {k : Except PErr (Option Token) → HookProg η} : (∀ r, NoCall (k r)) → NoCall (.peek k)
  | read {k : Option Src → Int → HookProg η} : (∀ s p, NoCall (k s p)) → NoCall (.read k)

/-- When there are `pending` tokens, the hook does not change sources after it has peeked further than these tokens, and
makes at most `calls` changes. -/
inductive Polite : Nat → Nat → HookProg η → Prop
  | ret {calls pending : Nat} (st : η) (emit : Bool) (extra : List Token) : Polite calls pending (.ret st emit extra)
  | fail {calls pending : Nat} (st : η) (e : Nat) : Polite calls pending (.fail st e)
  | crash {calls pending : Nat} : Polite calls pending .crash
  | pending {calls pending : Nat} {k : Except PErr (Option Token) → HookProg η} :
    (∀ r, Polite calls pending (k r)) → Polite calls (pending + 1) (.peek k)
  | source {calls : Nat} {k : Except PErr (Option Token) → HookProg η} : (∀ r, NoCall (k r)) → Polite calls 0 (.peek k)
  | read {calls pending : Nat} {k : Option Src → Int → HookProg η} :
    (∀ s p, Polite calls pending (k s p)) → Polite calls pending (.read k)
  | call {calls pending : Nat} (c : QueueCall) {k : HookProg η} :
    Polite calls pending k → Polite (calls + 1) pending (.call c k)

/-- Successive calls of `pullToken` for some layers; in between sources and variables of hooks may be changed. -/
inductive Pulls (env : TEnv η) (fuel : Nat) (layers : List (TokenLayer η)) :
    LState η → List (TokenTypeSet × Option Token) → LState η → Prop
  | nil (ls : LState η) : Pulls env fuel layers ls [] ls
  | change {ls ls' : LState η} {l : List (TokenTypeSet × Option Token)} (ps : PState η) :
    Pulls env fuel layers { ls with ps := ps } l ls' → Pulls env fuel layers ls l ls'
  | pull {ls ls1 ls' : LState η} {l : List (TokenTypeSet × Option Token)} {types : TokenTypeSet} {t : Option Token} :
    pullToken env fuel types layers ls = .done (ls1, .ok t) → Pulls env fuel layers ls1 l ls' →
    Pulls env fuel layers ls ((types, t) :: l) ls'

/-- What a layer did with a token: the token, is it kept, extra tokens. -/
structure Handled where
  token : Option Token
  emit : Bool
  extra : List Token

/-- Tokens emitted by the layer. -/
def Handled.out (h : Handled) : List (Option Token) := (if h.emit then [h.token] else []) ++ h.extra.map some

/-- Tokens that must be emitted when the hook returns `emit` and `extra` for the token: special tokens (end of file, end of
input) are never dropped, extra tokens come before a special token that should be dropped. -/
def emitted (tok : Token) (r : Bool × List Token) : List Token :=
  if r.1 then tok :: r.2 else if tok.type < 0 then r.2 ++ [tok] else r.2

/-- The layer handled the token in some state of sources, variables and pending tokens of the lower layers. -/
def HandledBy (env : TEnv η) (fuel : Nat) (hooks : TokenLayer η) (h : Handled) : Prop :=
  ∃ qs ps ps', handleToken env fuel hooks qs ps h.token = .done (ps', .ok (h.emit, h.extra))

end Verif.Spec
