/-
Specification: parses one after another with the same queue of sources.
-/
import Verif.Model.Pipeline
import Verif.Spec.Cuts
import Verif.Spec.Replay

namespace Verif.Spec

open Verif.Model

variable {σ η : Type}

/-- Successful parses one after another, each of them begins where the previous one has left the queue; lists of consumed tokens. The end of
input is never consumed. -/
inductive Series (env : PEnv σ) (tenv : TEnv η) (n fuel : Nat) : SrcQueue → List (List Token) → SrcQueue → Prop
  | nil {q : SrcQueue} : Series env tenv n fuel q [] q
  | cons {q q' : SrcQueue} {s : η} {pc : PC (LState η)} {css : List (List Token)} :
      parse (pipelineEnv env tenv [] n) fuel ⟨[], { src := q, st := s }⟩ q.sourcePos = .done (.ok pc) →
      (∀ t ∈ (consumedBy pc.steps).reduceOption, t.type ≠ eoiTokenType) →
      Series env tenv n fuel pc.src.ps.src css q' → Series env tenv n fuel q ((consumedBy pc.steps).reduceOption :: css) q'

/-- The queue is at the place of the text; an empty queue is after its end. -/
def AtPlace (q : SrcQueue) (src : Src) (p : Nat) : Prop :=
  q.source = some src ∧ q.pos = (p : Nat) ∧ p ≤ src.content.length ∨ q.source = none ∧ p = src.content.length

end Verif.Spec
