/-
Views of the sequence of node hook calls.
-/
import Verif.Model.Parser

namespace Verif.Spec

open Verif.Model

variable {σ : Type}

/-- The call at position `i` made an instance of layer `l`. -/
def Made (env : PEnv σ) (log : List Event) (l i : Nat) : Prop :=
  ∃ index start, log[i]? = some (.make l index start) ∧ env.onMake (log.take i) (.make l index start) = .ok true

/-- Tokens handed to instances of layer `l`, in order. -/
def layerTokens (l : Nat) (log : List Event) : List Token :=
  log.filterMap fun e => match e with
    | .token l' _ t => if l' = l then some t else none
    | _ => none

/-- The number of `EndNode` calls of an instance. -/
def ended (l i : Nat) (log : List Event) : Nat := log.countP fun e => match e with
    | .endNode l' i' => decide (l' = l ∧ i' = i)
    | _ => false

/-- Layer `l` has an instance for every node. -/
def FullLayer (env : PEnv σ) (l : Nat) : Prop :=
  l < env.layers ∧ ∀ index, env.hooked l index = true ∧ ∀ log start, env.onMake log (.make l index start) ≠ .ok false

end Verif.Spec
