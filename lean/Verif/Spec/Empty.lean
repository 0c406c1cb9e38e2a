/-
Definitions that may be passed without ordinary tokens.
-/
import Verif.Spec.Ebnf

namespace Verif.Spec.Ebnf

open Verif.Model

mutual

/-- The expression may be passed without ordinary tokens if nodes of the set `E` may. -/
def mayBeEmpty (E : Nat → Bool) : Chunk → Bool
  | .token _ => false
  | .eoi => false
  | .node i => E i
  | .variant cs => mayBeEmptyAny E cs
  | .group cs opt rep => rep || opt || mayBeEmptySeq E cs

/-- Some variant may be passed. -/
def mayBeEmptyAny (E : Nat → Bool) : List Chunk → Bool
  | [] => false
  | c :: cs => mayBeEmpty E c || mayBeEmptyAny E cs

/-- Every item may be passed. -/
def mayBeEmptySeq (E : Nat → Bool) : List Chunk → Bool
  | [] => true
  | c :: cs => mayBeEmpty E c && mayBeEmptySeq E cs

end

mutual

/-- Nodes that may be met before the first ordinary token. -/
def leftNodes (E : Nat → Bool) : Chunk → Finset Nat
  | .token _ => ∅
  | .eoi => ∅
  | .node i => {i}
  | .variant cs => leftNodesAny E cs
  | .group cs _ _ => leftNodesSeq E cs

/-- The same for variants. -/
def leftNodesAny (E : Nat → Bool) : List Chunk → Finset Nat
  | [] => ∅
  | c :: cs => leftNodes E c ∪ leftNodesAny E cs

/-- The same for a sequence. -/
def leftNodesSeq (E : Nat → Bool) : List Chunk → Finset Nat
  | [] => ∅
  | c :: cs => leftNodes E c ∪ (if mayBeEmpty E c then leftNodesSeq E cs else ∅)

end

mutual

/-- Nothing that may be passed without ordinary tokens is repeated. -/
def LoopsMove (E : Nat → Bool) : Chunk → Prop
  | .token _ => True
  | .eoi => True
  | .node _ => True
  | .variant cs => LoopsMoveAll E cs
  | .group cs _ rep => (rep = true → mayBeEmptySeq E cs = false) ∧ LoopsMoveAll E cs

/-- The same for all members. -/
def LoopsMoveAll (E : Nat → Bool) : List Chunk → Prop
  | [] => True
  | c :: cs => LoopsMove E c ∧ LoopsMoveAll E cs

end

/-- Definitions of nodes for which a parser cannot work forever without ordinary tokens: nodes that may be passed without them
(or have an explicit end of input) are in the set `E`, no repeated group may be passed without ordinary tokens, and no node
may be met inside itself before the first ordinary token. -/
structure Moves (E : Nat → Bool) (bodies : List Chunk) : Prop where
  empty : ∀ (i : Nat) c, bodies[i]? = some c → mayBeEmpty E c = true ∨ ¬ NoEoi c → E i = true
  loops : ∀ c ∈ bodies, LoopsMove E c
  left : ∃ rank : Nat → Nat, ∀ (i : Nat) c, bodies[i]? = some c → ∀ j ∈ leftNodes E c, rank j < rank i

end Verif.Spec.Ebnf
