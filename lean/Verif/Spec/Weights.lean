/-
Conditions for a parse to stop: every chain of rules that use no ordinary token is finite, and the source of tokens ends.
-/
import Mathlib.Logic.Relation
import Verif.Spec.Rules
import Verif.Spec.ParseTree
import Verif.Model.Parser

namespace Verif.Spec

open Verif.Model

/-- The rule may be used without using up an ordinary token: it begins a node or it is for any token or for the end of
input. -/
def Idle (r : Rule) : Prop := r.node ≠ -1 ∨ r.token = -1 ∨ r.token = -3

/-- Weights of states and the set of states from which the node may end without an ordinary token. Every idle rule
decreases the weight of the state, a nested node that may be empty is counted together with what follows it. -/
structure Descends (g : Grammar) (m : Nat → Int → List Rule) (w : Int → Nat) (skip : Int → Bool) : Prop where
  ended : skip (-1) = true
  stay : ∀ (s : Nat) k, ∀ r ∈ m s k, r.node = -1 → k = -1 ∨ k = -3 →
    w (after r s) < w s ∧ (skip (after r s) = true → skip s = true)
  push : ∀ (s : Nat) k, ∀ r ∈ m s k, ∀ i f : Nat, r.node = (i : Int) → g.firsts[i]? = some f →
    w f + (if skip f then w (after r s) else 0) < w s ∧ (skip f = true → skip (after r s) = true → skip s = true)

/-- A node in this state may end without an ordinary token. -/
inductive CanSkip (g : Grammar) (m : Nat → Int → List Rule) : Int → Prop
  | ended : CanSkip g m (-1)
  | stay {s : Nat} {k : Int} {r : Rule} : r ∈ m s k → r.node = -1 → k = -1 ∨ k = -3 → CanSkip g m (after r s) → CanSkip g m s
  | push {s : Nat} {k : Int} {r : Rule} {i f : Nat} : r ∈ m s k → r.node = (i : Int) → g.firsts[i]? = some f →
      CanSkip g m f → CanSkip g m (after r s) → CanSkip g m s

/-- State `y` may be current after state `x` and there is no ordinary token between: by a rule for any token or for the end of
input, at the beginning of a nested node, after a nested node without ordinary tokens. -/
inductive IdleStep (g : Grammar) (m : Nat → Int → List Rule) : Int → Int → Prop
  | stay {s : Nat} {k : Int} {r : Rule} : s < g.tables.states.length → r ∈ m s k → r.node = -1 → k = -1 ∨ k = -3 →
      IdleStep g m s (after r s)
  | enter {s : Nat} {k : Int} {r : Rule} {i f : Nat} : s < g.tables.states.length → r ∈ m s k → r.node = (i : Int) →
      g.firsts[i]? = some f → IdleStep g m s f
  | leave {s : Nat} {k : Int} {r : Rule} {i f : Nat} : s < g.tables.states.length → r ∈ m s k → r.node = (i : Int) →
      g.firsts[i]? = some f → CanSkip g m f → IdleStep g m s (after r s)

/-- No state may be reached from itself without an ordinary token. -/
def NoIdleLoops (g : Grammar) (m : Nat → Int → List Rule) : Prop := ∀ s, ¬ Relation.TransGen (IdleStep g m) s s

/-- What is left in the source after a call that gave `res`, if there were at most `n` tokens before the end of input. -/
def FedAfter {σ : Type} (I : σ → Nat → Prop) (n : Nat) (res : Except PErr (Option Token)) (src' : σ) : Prop :=
  match res with
  | .ok (some t) => if t.type = -3 then I src' 0 else ∃ n' < n, I src' n'
  | _ => ∃ n' ≤ n, I src' n'

/-- Fetching of tokens stops: `I src n` means that there are at most `n` tokens before the end of input; every call returns
if it is given enough fuel, a token or an end of source is counted. -/
def Supply {σ : Type} (pull : Nat → σ → TokenTypeSet → Run (σ × Except PErr (Option Token))) (I : σ → Nat → Prop) : Prop :=
  ∀ src n types, I src n → ∃ r N, (∀ fuel, N ≤ fuel → pull fuel src types = r) ∧ r ≠ .timeout ∧
    ∀ src' res, r = .done (src', res) → FedAfter I n res src'

end Verif.Spec
