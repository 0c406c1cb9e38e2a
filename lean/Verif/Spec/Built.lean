/-
A tree of elements has the shape of a parse tree.
-/
import Verif.Spec.ParseTree
import Verif.Spec.Trees

namespace Verif.Spec

open Verif.Model

mutual

/-- Element by element: kind, type name and token of every element are given by `look`. -/
def Built (look : Nat → Bool × String × Option Token) (names : Nat → String) : Trees.Tree → Item → Prop
  | .node id kids, .tok t => look id = (false, t.typeName, some t) ∧ kids = []
  | .node id kids, .node index start items => look id = (true, names index, start) ∧ builtAll look names kids items

/-- The same for lists. -/
def builtAll (look : Nat → Bool × String × Option Token) (names : Nat → String) : List Trees.Tree → List Item → Prop
  | [], [] => True
  | t :: ts, i :: is => Built look names t i ∧ builtAll look names ts is
  | _, _ => False

end

end Verif.Spec
