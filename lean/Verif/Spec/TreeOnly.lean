/-
Parse trees without side tokens.
-/
import Verif.Spec.ParseTree

namespace Verif.Spec

open Verif.Model

/-- Items without side tokens. -/
def dropSides (g : Grammar) : List Item → List Item
  | [] => []
  | .tok t :: items => if g.isSideType t.type = true then dropSides g items else .tok t :: dropSides g items
  | .node i start its :: items => .node i start (dropSides g its) :: dropSides g items

/-- The initial token of every nested node is its first token. -/
def started : List Item → List Item
  | [] => []
  | .tok t :: items => .tok t :: started items
  | .node i _ its :: items => .node i (leavesOf its).head? (started its) :: started items

end Verif.Spec
