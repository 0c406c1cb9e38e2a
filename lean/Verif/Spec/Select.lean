/-
Specification of selection of tree elements. Independent of the model.
-/
import Verif.Spec.Trees

namespace Verif.Spec.Select

open Verif.Spec.Trees

/-- The steps one after another: every step replaces an element with a list of elements. -/
def steps : List (Nat → List Nat) → Nat → List Nat
  | [], n => [n]
  | g :: gs, n => (g n).flatMap (steps gs)

/-- Elements not seen before, the first occurrences only. -/
def firstsFrom (seen : List Nat) : List Nat → List Nat
  | [] => []
  | x :: l => if x ∈ seen then firstsFrom seen l else x :: firstsFrom (x :: seen) l

/-- The first occurrences only. -/
def firsts (l : List Nat) : List Nat := firstsFrom [] l

mutual
/-- Elements that fit and are not below an element that fits, document order. -/
def topmost (fit : Nat → Bool) : Tree → List Nat
  | .node id kids => if fit id then [id] else topmostOf fit kids
/-- The same for siblings. -/
def topmostOf (fit : Nat → Bool) : List Tree → List Nat
  | [] => []
  | t :: ts => topmost fit t ++ topmostOf fit ts
end

end Verif.Spec.Select
