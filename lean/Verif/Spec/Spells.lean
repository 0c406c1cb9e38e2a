/-
Parse trees described by node definitions.
-/
import Verif.Spec.Keys
import Verif.Spec.ParseTree
import Verif.Spec.Ebnf

namespace Verif.Spec

open Verif.Model

/-- Symbol `x` describes token `t`. -/
def Stands (g : Grammar) (upper : List Nat → List Nat) : Sym → Token → Prop
  | .tok k, t => MatchesAs g upper t k
  | .eoi, t => t.type = eoiTokenType
  | .node _, _ => False

/-- The content of a node is described by the word of symbols: a token is what its symbol says, the content of a nested
node is described by a word of the definition `L i` of that node; side tokens may be anywhere. -/
inductive Spells (rel : Sym → Token → Prop) (side : Token → Prop) (L : Nat → List Sym → Prop) : List Sym → List Item → Prop
  | nil : Spells rel side L [] []
  | side {t w items} : side t → Spells rel side L w items → Spells rel side L w (.tok t :: items)
  | tok {x t w items} : rel x t → Spells rel side L w items → Spells rel side L (x :: w) (.tok t :: items)
  | node {i start u its w items} : L i u → Spells rel side L u its → Spells rel side L w items →
      Spells rel side L (.node i :: w) (.node i start its :: items)

/-- The content of the root node is described by a grammar with node definitions `L`. -/
def Described (g : Grammar) (upper : List Nat → List Nat) (L : Nat → List Sym → Prop) (items : List Item) : Prop :=
  ∃ w, L rootNode w ∧ Spells (Stands g upper) (fun t => g.isSideType t.type = true) L w items

end Verif.Spec
