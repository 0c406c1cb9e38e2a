/-
Token sequences described by node definitions. A definition is an expression; node `i` is defined by `body i`.
-/
import Verif.Spec.Ebnf

namespace Verif.Spec

open Verif.Model Verif.Spec.Ebnf

/-- Token keys that can start node `i`: some word of its definition starts with the token (or the end of input), or
with a nested node that can start so. -/
inductive Starts (body : Nat → Chunk) : Nat → Int → Prop
  | tok {i : Nat} {t : Nat} {w : List Sym} : (.tok t :: w) ∈ lang (body i) → Starts body i (t : Int)
  | eoi {i w} : (.eoi :: w) ∈ lang (body i) → Starts body i eoiTokenType
  | node {i j w k} : (.node j :: w) ∈ lang (body i) → Starts body j k → Starts body i k

/-- `Yields body w v`: replacing the nodes of `w` according to their definitions may give the tokens `v`. -/
inductive Yields (body : Nat → Chunk) : List Sym → List Int → Prop
  | nil : Yields body [] []
  | tok {t : Nat} {w : List Sym} {v : List Int} : Yields body w v → Yields body (.tok t :: w) ((t : Int) :: v)
  | eoi {w v} : Yields body w v → Yields body (.eoi :: w) (eoiTokenType :: v)
  | node {i u w v v'} : u ∈ lang (body i) → Yields body u v → Yields body w v' →
      Yields body (.node i :: w) (v ++ v')

end Verif.Spec
