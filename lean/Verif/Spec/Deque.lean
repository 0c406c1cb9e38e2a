/-
Specification of a double-ended queue as a plain list; independent of the model.
-/

namespace Verif.Spec.Deque

variable {α : Type}

/-- Operations of the queue API. -/
inductive Op (α : Type)
  | append (x : α)
  | prepend (x : α)
  | first
  | last
  | peek (i : Int)
  | items
  | len
  | isEmpty
  | fill (l : List α)
  | clear

/-- What the caller of an operation observes. -/
inductive Obs (α : Type)
  | unit
  | elem (x : Option α)
  | list (l : List α)
  | nat (n : Int)
  | bool (b : Bool)
deriving DecidableEq

/-- List element by index, negative index counts from the end. -/
def peekAt (l : List α) (i : Int) : Option α :=
  if 0 ≤ i then l[i.toNat]?
  else if 0 ≤ i + l.length then l[(i + l.length).toNat]?
  else none

/-- One operation on a plain list. -/
def step (l : List α) : Op α → List α × Obs α
  | .append x => (l ++ [x], .unit)
  | .prepend x => (x :: l, .unit)
  | .first => (l.tail, .elem l.head?)
  | .last => (l.dropLast, .elem l.getLast?)
  | .peek i => (l, .elem (peekAt l i))
  | .items => (l, .list l)
  | .len => (l, .nat l.length)
  | .isEmpty => (l, .bool l.isEmpty)
  | .fill l' => (l', .unit)
  | .clear => ([], .unit)

/-- All observations of a history. -/
def run (l : List α) : List (Op α) → List (Obs α)
  | [] => []
  | op :: ops => (step l op).2 :: run (step l op).1 ops

/-- Every list arising in the history is shorter than `bound`. -/
def Bounded (bound : Nat) (l : List α) : List (Op α) → Prop
  | [] => l.length < bound
  | op :: ops => l.length < bound ∧ Bounded bound (step l op).1 ops

end Verif.Spec.Deque
