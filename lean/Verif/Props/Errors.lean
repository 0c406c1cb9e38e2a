/-
C38: errors of token hooks.
-/
import Verif.Proof.Errors
import Verif.Props.Pipeline

namespace Verif.Props

open Verif.Model Verif.Spec Verif.Proof

variable {σ η : Type}

/-- Hook errors that are reported by the result of a parse. -/
def reported {α : Type} : Except PErr α → Nat → Bool
  | .ok _ => fun _ => false
  | .error x => only x

/-- C38, partial: when no key of the grammar has several rules, a parse that succeeds goes exactly as if any error of a
token hook was a panic, so there was none; a parse that fails goes exactly as if any hook error but the returned one was a
panic, so the error of a hook is returned at once. Missing: grammars that need lookahead (false,
`C38_error_lost_in_lookahead`). -/
theorem C38_hook_errors_returned_partial (env : PEnv σ) (tenv : TEnv η) (layers : List (TokenLayer η)) (n fuel : Nat)
    (hm : env.g.tables.multi = []) (ls : LState η) (pos : SrcPos) (r : Except PErr (PC (LState η)))
    (h : parse (pipelineEnv env tenv layers n) fuel ls pos = .done r) :
    parse (pipelineEnv env tenv (layers.map (strictLayer (reported r))) n) fuel ls pos = .done r := by
  refine parse_agree (env := pipelineEnv env tenv layers n) (allowed := reported r) hm ?_ fuel ls pos r h ?_
  · intro s types x hx ha
    exact strict_pull _ tenv n types layers s x hx ha
  · intro e he
    subst he
    simp [reported, only]

/-- C38: an error of a hook is returned by the pull that called it, whatever layers are above. -/
theorem C38_pull_returns_hook_error (tenv : TEnv η) (n : Nat) (types : TokenTypeSet) (layers : List (TokenLayer η))
    (ls : LState η) (r : LState η × Except PErr (Option Token)) (h : pullToken tenv n types layers ls = .done r) :
    pullToken tenv n types (layers.map (strictLayer (reported r.2))) ls = .done r := by
  refine strict_pull _ tenv n types layers ls r h ?_
  intro e he
  rw [he]
  simp [reported, only]

/-- A hook that always fails. -/
def failing : TokenHook Nat := fun st _ => .fail st 7

/-- Sample definitions: `root = a | b; a = letter, letter; b = letter, digit`. -/
def sampleFork : List Chunk :=
  [cSeq [.variant [.node 1, .node 2]], cSeq [.token 0, .token 0], cSeq [.token 0, .token 1]]

/-- Parses a text using the lexer and token hook layers. -/
def pipeParse (defs : List Chunk) (layers : List (TokenLayer Nat)) (s : String) (fuel : Nat) : Outcome :=
  match sampleCompile defs with
  | .done (.ok g) =>
    match parse (pipelineEnv (streamEnv g) { g := g, lexers := [pipeLexer] } layers fuel) fuel
        ⟨layers.map fun _ => [], { src := textQueue s, st := 0 }⟩ ⟨none, 0⟩ with
    | .done (.ok _) => .accepted
    | .done (.error e) => .failed e
    | .panic => .panic
    | .timeout => .timeout
  | _ => .badGrammar

/-- C38 is false during lookahead: the error of the hook for digits is lost together with the digit, so the text is
accepted, although it is not without the hook. -/
theorem C38_error_lost_in_lookahead :
    pipeParse sampleFork [oneHook 1 failing] "a1b" 60 = .accepted ∧
    (match pipeParse sampleFork [] "a1b" 60 with
      | .failed (.remainingSource t) => t.content
      | _ => []) = [98] := by decide +kernel

/-- The hypotheses are met: a grammar without conflicts, the hook error is returned. -/
example : (match sampleCompile [cSeq [.token 0, .token 1]] with
    | .done (.ok g) => g.tables.multi
    | _ => [⟨0, 0, 0⟩]) = [] ∧
    pipeParse [cSeq [.token 0, .token 1]] [oneHook 1 failing] "a1" 60 = .failed (.hook 7) ∧
    pipeParse [cSeq [.token 0, .token 1]] [oneHook 0 doubling] "a1" 60 ≠ .accepted := by decide +kernel

end Verif.Props
