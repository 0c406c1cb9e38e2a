/-
C32: lookahead neither loses, repeats nor reorders tokens.
-/
import Verif.Proof.ParseTokens
import Verif.Props.Samples

namespace Verif.Props

open Verif.Model Verif.Spec Verif.Proof

/-- C32: for any grammar, token pipeline and hooks, the rules applied by a successful parse are applied to the delivered
tokens in order: each token is the subject of consecutive rules, the last of which consumes it, then the next token
follows. Tokens that are left are those delivered last. -/
theorem C32_tokens_in_order {σ : Type} (env : PEnv σ) (fuel : Nat) (src : σ) (pos : SrcPos) (pc : PC σ)
    (h : parse env fuel src pos = .done (.ok pc)) : ∃ rest, replay pc.steps pc.delivered = some rest := by
  obtain ⟨pc1, tok, b, -, h1, h2⟩ := parse_inv (tokens_inv env) h (by
    intro pc0 h0
    obtain ⟨n, stack, log, rfl⟩ := pushNode_spec h0
    rfl)
  obtain ⟨src', ts, dl, read, rfl, -⟩ := finish_spec h2
  cases b with
  | true => exact ⟨_, replay_append _ _ _ dl h1⟩
  | false => exact ⟨_, replay_append _ _ _ dl h1⟩

/-- C32: consumed tokens are the first delivered tokens, in order, each once. -/
theorem C32_consumed_prefix {σ : Type} (env : PEnv σ) (fuel : Nat) (src : σ) (pos : SrcPos) (pc : PC σ)
    (h : parse env fuel src pos = .done (.ok pc)) : consumedBy pc.steps <+: pc.delivered := by
  obtain ⟨rest, h1⟩ := C32_tokens_in_order env fuel src pos pc h
  exact ⟨rest, (replay_consumed _ _ _ h1).symm⟩

/-- `root = a | b; a = $n, $n, 'x'; b = $n, $n, 'y'`: three tokens of lookahead. -/
def sampleLookahead : List Chunk :=
  [cSeq [.variant [.node 1, .node 2]], cSeq [.token 0, .token 0, cX], cSeq [.token 0, .token 0, cY]]

example : (match sampleCompile sampleLookahead with
    | .done (.ok g) => match parse (streamEnv g) 100 (charTokens "abyc") ⟨none, 0⟩ with
      | .done (.error e) => decide (e = .remainingSource ⟨0, "", [99], ⟨none, 0⟩⟩)
      | _ => false
    | _ => false) = true := by decide +kernel

example : (match sampleCompile sampleLookahead with
    | .done (.ok g) => match parse (streamEnv g) 100 (charTokens "aby") ⟨none, 0⟩ with
      | .done (.ok pc) => decide (consumedBy pc.steps = (charTokens "aby").map some ∧
          pc.delivered = (charTokens "aby").map some ++ [some eoiToken] ∧ pc.steps.length = 4)
      | _ => false
    | _ => false) = true := by decide +kernel

end Verif.Props
