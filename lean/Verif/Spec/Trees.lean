/-
Specification of syntax trees: every element has a list of children. Independent of the model.
-/
import Mathlib.Logic.Relation

namespace Verif.Spec.Trees

/-- A forest: children of every element, left to right. -/
abbrev Forest := Nat → List Nat

/-- The forest where all elements are separate. -/
def Forest.empty : Forest := fun _ => []

/-- `x` belongs to the subtree of `a` (`a` itself included). -/
def Within (F : Forest) (a x : Nat) : Prop := Relation.ReflTransGen (fun p c => c ∈ F p) a x

/-- The element is taken out of its children list (with its own children). -/
def detach (F : Forest) (el : Nat) : Forest := fun n => (F n).filter (· ≠ el)

/-- `el` right after `x`. -/
def after (x el : Nat) : List Nat → List Nat
  | [] => []
  | y :: l => if y = x then y :: el :: l else y :: after x el l

/-- `el` right before `x`. -/
def before (x el : Nat) : List Nat → List Nat
  | [] => []
  | y :: l => if y = x then el :: y :: l else y :: before x el l

/-- `el` moved to the end of the children of `p`. -/
def appendChild (F : Forest) (p el : Nat) : Forest :=
  fun n => if n = p then detach F el n ++ [el] else detach F el n

/-- `el` moved to the place right after `x`. -/
def appendSibling (F : Forest) (x el : Nat) : Forest := fun n => after x el (detach F el n)

/-- `el` moved to the place right before `x`. -/
def prependSibling (F : Forest) (x el : Nat) : Forest := fun n => before x el (detach F el n)

/-- `el` moved to the place of `old`. -/
def replace (F : Forest) (old el : Nat) : Forest :=
  if old = el then F else fun n => (detach F el n).map fun x => if x = old then el else x

/-- Edits. -/
inductive Edit
  | detach (el : Nat)
  | appendChild (p el : Nat)
  | appendSibling (x el : Nat)
  | prependSibling (x el : Nat)

/-- Effect of an edit. -/
def Edit.apply (F : Forest) : Edit → Forest
  | .detach el => Trees.detach F el
  | .appendChild p el => Trees.appendChild F p el
  | .appendSibling x el => Trees.appendSibling F x el
  | .prependSibling x el => Trees.prependSibling F x el

/-- Edits that make sense: the target is not inside of the moved element, a parent is a node, a sibling has a parent. -/
def Edit.Allowed (isNode : Nat → Bool) (F : Forest) : Edit → Prop
  | .detach _ => True
  | .appendChild p el => isNode p = true ∧ ¬ Within F el p
  | .appendSibling x el => (∃ p, x ∈ F p) ∧ ¬ Within F el x
  | .prependSibling x el => (∃ p, x ∈ F p) ∧ ¬ Within F el x

/-- A history of edits, each one allowed at its moment, with the resulting forest. -/
inductive History (isNode : Nat → Bool) : Forest → List Edit → Forest → Prop
  | nil (F : Forest) : History isNode F [] F
  | cons {F F' : Forest} {e : Edit} {es : List Edit} : e.Allowed isNode F → History isNode (e.apply F) es F' →
      History isNode F (e :: es) F'

/-! Trees as data -/

/-- A subtree. -/
inductive Tree
  | node (id : Nat) (kids : List Tree)

/-- Root element. -/
def Tree.id : Tree → Nat
  | .node id _ => id

/-- Child subtrees. -/
def Tree.kids : Tree → List Tree
  | .node _ kids => kids

mutual
/-- The tree shows exactly the part of the forest below its root. -/
def Tree.Of (F : Forest) : Tree → Prop
  | .node id kids => F id = kids.map Tree.id ∧ allOf F kids
/-- The same for every tree in the list. -/
def allOf (F : Forest) : List Tree → Prop
  | [] => True
  | t :: ts => t.Of F ∧ allOf F ts
end

mutual
/-- Elements of the subtree in document order (parent first). -/
def Tree.elements : Tree → List Nat
  | .node id kids => id :: elementsOf kids
/-- Elements of subtrees in document order. -/
def elementsOf : List Tree → List Nat
  | [] => []
  | t :: ts => t.elements ++ elementsOf ts
end

mutual
/-- Token elements of the subtree in document order. -/
def Tree.tokens (isNode : Nat → Bool) : Tree → List Nat
  | .node id kids => if isNode id then tokensOf isNode kids else [id]
/-- Token elements of subtrees in document order. -/
def tokensOf (isNode : Nat → Bool) : List Tree → List Nat
  | [] => []
  | t :: ts => t.tokens isNode ++ tokensOf isNode ts
end

/-! Traversal: a visitor with state `σ` is called for elements with their levels, answers with three flags. -/

/-- What to skip. -/
structure Flags where
  stop : Bool
  skipChildren : Bool
  skipSiblings : Bool

/-- How a part of traversal ends: go on, skip the rest of siblings, or stop completely. -/
inductive Outcome
  | goOn
  | skipRest
  | stop
deriving DecidableEq

mutual
/-- Parent first, then its children, depth first, left to right. Result: state, visited elements with levels, outcome. -/
def visit {σ : Type} (v : σ → Nat × Nat → σ × Flags) (level : Nat) (s : σ) :
    Tree → σ × List (Nat × Nat) × Outcome
  | .node id kids =>
    let (s, f) := v s (id, level)
    if f.stop then (s, [(id, level)], .stop)
    else
      let (s, out, o) := if f.skipChildren then (s, [], .goOn) else visitAll v (level + 1) s kids
      (s, (id, level) :: out, if o = .stop then .stop else if f.skipSiblings then .skipRest else .goOn)
/-- Siblings left to right. -/
def visitAll {σ : Type} (v : σ → Nat × Nat → σ × Flags) (level : Nat) (s : σ) :
    List Tree → σ × List (Nat × Nat) × Outcome
  | [] => (s, [], .goOn)
  | t :: ts =>
    let (s, out, o) := visit v level s t
    match o with
    | .stop => (s, out, .stop)
    | .skipRest => (s, out, .goOn)
    | .goOn =>
      let (s, out', o) := visitAll v level s ts
      (s, out ++ out', o)
end

mutual
/-- The tree with all lists of children reversed; right to left traversal is left to right traversal of it. -/
def Tree.mirror : Tree → Tree
  | .node id kids => .node id (mirrorAll kids)
/-- Mirrored trees in reversed order. -/
def mirrorAll : List Tree → List Tree
  | [] => []
  | t :: ts => mirrorAll ts ++ [t.mirror]
end

end Verif.Spec.Trees
