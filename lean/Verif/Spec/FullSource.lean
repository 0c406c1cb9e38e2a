/-
What may be left by a parse with the option `WithFullSource`, and what is assumed about lexers.
-/
import Verif.Spec.Lex
import Verif.Spec.Replay

namespace Verif.Spec

open Verif.Model Verif.Spec.Lex

/-- Only side tokens before the end of input. -/
def OnlySides (g : Grammar) (l : List (Option Token)) : Prop :=
  ∃ sides eoi rest, l = sides ++ some eoi :: rest ∧ eoi.type = eoiTokenType ∧
    ∀ t ∈ sides, ∃ u, t = some u ∧ g.isSideType u.type = true

/-- Everything is consumed: of delivered tokens, only side ones are left before the end of input, or the end of input
itself is consumed. -/
def NothingLeft (g : Grammar) (steps : List (Option Token × Rule)) (delivered : List (Option Token)) : Prop :=
  ∃ rest, replay steps delivered = some rest ∧
    (OnlySides g rest ∨ ∃ t : Token, some t ∈ consumedBy steps ∧ t.type = eoiTokenType)

/-- Every non-empty match is captured as a whole by exactly one group, as by the expressions built by `parser.New`
(`^(?s:(re1)|(re2)|...)`, `/repo/parser/parser.go` lines 83-100; capturing groups inside are forbidden by the docs). -/
def CapturesAll (re : Regexp) : Prop :=
  ∀ (c : List Nat) (e : Nat) (gs : List (Int × Int)), re c = some ((0, (e : Int)) :: gs) → 0 < e →
    ∃ k : Nat, gs[k]? = some (0, (e : Int)) ∧ ∀ j : Nat, j ≠ k → ∀ g, gs[j]? = some g → ¬ Captured g

end Verif.Spec
