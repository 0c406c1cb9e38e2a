/-
Specification of integer sets as predicates, with several named sets (registers) so that histories may mix them.
Independent of the model.
-/

namespace Verif.Spec.IntSets

/-- Operations; sets are addressed by their number in the list of all sets created so far. -/
inductive Op
  | new (items : List Int)             -- `NewSet(items...)` / `FromSlice(items)`: creates a set
  | add (i : Nat) (items : List Int)   -- `s.Add(items...)`
  | remove (i : Nat) (items : List Int) -- `s.Remove(items...)`
  | copy (i : Nat)                     -- `s.Copy()`: creates a set
  | union (i j : Nat)                  -- `Union(s, t)`: creates a set
  | intersect (i j : Nat)              -- `Intersect(s, t)`: creates a set
  | subtract (i j : Nat)               -- `Subtract(s, t)`: creates a set
  | unionIn (i j : Nat)                -- `s.Union(t)`: changes s
  | intersectIn (i j : Nat)            -- `s.Intersect(t)`: changes s
  | subtractIn (i j : Nat)             -- `s.Subtract(t)`: changes s
  | contains (i : Nat) (x : Int)
  | isEmpty (i : Nat)
  | isEqual (i j : Nat)
  | toSlice (i : Nat)

/-- What the caller observes. -/
inductive Obs
  | unit
  | bool (b : Bool)
  | list (l : List Int)

/-- State: the list of sets, each is the predicate "is an element". -/
abbrev State := List (Int → Prop)

/-- The set with given number (no set: the empty one). -/
def State.get (st : State) (i : Nat) : Int → Prop := st.getD i fun _ => False

/-- Effect of an operation. -/
def next (st : State) : Op → State
  | .new items => st ++ [fun x => x ∈ items]
  | .add i items => st.set i fun x => st.get i x ∨ x ∈ items
  | .remove i items => st.set i fun x => st.get i x ∧ x ∉ items
  | .copy i => st ++ [st.get i]
  | .union i j => st ++ [fun x => st.get i x ∨ st.get j x]
  | .intersect i j => st ++ [fun x => st.get i x ∧ st.get j x]
  | .subtract i j => st ++ [fun x => st.get i x ∧ ¬ st.get j x]
  | .unionIn i j => st.set i fun x => st.get i x ∨ st.get j x
  | .intersectIn i j => st.set i fun x => st.get i x ∧ st.get j x
  | .subtractIn i j => st.set i fun x => st.get i x ∧ ¬ st.get j x
  | .contains _ _ | .isEmpty _ | .isEqual _ _ | .toSlice _ => st

/-- Which observation is right. -/
def ObsOk (st : State) : Op → Obs → Prop
  | .contains i x, .bool b => b = true ↔ st.get i x
  | .isEmpty i, .bool b => b = true ↔ ∀ x, ¬ st.get i x
  | .isEqual i j, .bool b => b = true ↔ ∀ x, st.get i x ↔ st.get j x
  | .toSlice i, .list l => l.Pairwise (· < ·) ∧ ∀ x, x ∈ l ↔ st.get i x
  | .contains _ _, _ | .isEmpty _, _ | .isEqual _ _, _ | .toSlice _, _ => False
  | _, .unit => True
  | _, _ => False

/-- The sets used by an operation. -/
def args : Op → List Nat
  | .new _ => []
  | .add i _ | .remove i _ | .copy i | .contains i _ | .isEmpty i | .toSlice i => [i]
  | .union i j | .intersect i j | .subtract i j | .unionIn i j | .intersectIn i j | .subtractIn i j
  | .isEqual i j => [i, j]

/-- The history uses only existing sets. -/
def Valid (st : State) : List Op → Prop
  | [] => True
  | op :: ops => (∀ i ∈ args op, i < st.length) ∧ Valid (next st op) ops

/-- All observations of the history are right. -/
def AllOk (st : State) : List Op → List Obs → Prop
  | [], [] => True
  | op :: ops, o :: os => ObsOk st op o ∧ AllOk (next st op) ops os
  | _, _ => False

end Verif.Spec.IntSets
