/-
What a token may be matched as.
-/
import Verif.Model.Parser

namespace Verif.Spec

open Verif.Model

/-- Token `t` is the literal with index `i`: its type may be a literal and the text (upper-cased for a caseless type) is
that of the literal. -/
def IsLiteral (g : Grammar) (upper : List Nat → List Nat) (t : Token) (i : Nat) : Prop :=
  0 ≤ t.type ∧ ∃ tt lt, g.tokens[t.type.toNat]? = some tt ∧ tt.flags.noLiterals = false ∧
    g.tokens[i]? = some lt ∧ lt.flags.literal = true ∧
    lt.name = if tt.flags.caseless then upper t.content else t.content

/-- Literal `i` is a reserved word. -/
def IsReserved (g : Grammar) (i : Nat) : Prop := ∃ lt, g.tokens[i]? = some lt ∧ lt.flags.reserved = true

/-- Different literals have different texts. -/
def DistinctLiterals (g : Grammar) : Prop := ∀ (i j : Nat) (a b : GToken), g.tokens[i]? = some a → g.tokens[j]? = some b →
  a.flags.literal = true → b.flags.literal = true → a.name = b.name → i = j

/-- Token `t` may be matched as token type or literal `k`: it is the literal, or it is of the type and not a reserved
word. -/
def MatchesAs (g : Grammar) (upper : List Nat → List Nat) (t : Token) (k : Nat) : Prop :=
  IsLiteral g upper t k ∨ (t.type = k ∧ ∀ i, IsLiteral g upper t i → ¬ IsReserved g i)

end Verif.Spec
