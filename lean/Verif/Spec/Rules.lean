/-
Meaning of the tables of a grammar.
-/
import Verif.Model.Tables

namespace Verif.Spec

open Verif.Model

/-- Rules of the first key that has some. -/
def firstRules (m : Int → List Rule) (keys : List Int) : List Rule := (keys.map m).find? (· ≠ []) |>.getD []

/-- Tables hold rules `m s k` for state `s` and key `k`. -/
structure Means (t : Tables) (m : Nat → Int → List Rule) : Prop where
  find : ∀ (s : Nat) (gs : GState), t.states[s]? = some gs → ∀ keys, findRulesBy t gs keys = some (firstRules (m s) keys)
  token : ∀ (s : Nat) (k : Int), ∀ r ∈ m s k, r.token = k

end Verif.Spec
