/-
Tokens consumed by applied rules.
-/
import Verif.Model.Parser

namespace Verif.Spec

open Verif.Model

/-- Walks through the rules applied by the parser (each with the token it was applied to): the token must be the first one
of those not consumed yet; it is consumed by a rule that neither enters a node nor is a fallback one (nothing to consume
if there is no token). Result: tokens left. -/
def replay : List (Option Token × Rule) → List (Option Token) → Option (List (Option Token))
  | [], ds => some ds
  | _ :: _, [] => none
  | (t, r) :: steps, d :: ds =>
    if t = d then
      (if t = none ∨ (r.node = -1 ∧ r.token ≠ -1) then replay steps ds else replay steps (d :: ds))
    else none

/-- Tokens consumed by applied rules. -/
def consumedBy (steps : List (Option Token × Rule)) : List (Option Token) :=
  (steps.filter fun s => s.1 = none ∨ (s.2.node = -1 ∧ s.2.token ≠ -1)).map (·.1)

theorem replay_consumed (steps : List (Option Token × Rule)) (ds rest : List (Option Token))
    (h : replay steps ds = some rest) : ds = consumedBy steps ++ rest := by
  induction steps generalizing ds with
  | nil => simpa [replay, consumedBy] using h
  | cons s steps ih =>
    obtain ⟨t, r⟩ := s
    cases ds with
    | nil => simp [replay] at h
    | cons d ds =>
      rw [replay] at h
      by_cases htd : t = d
      · rw [if_pos htd] at h
        subst htd
        split at h
        · rename_i hc
          rw [consumedBy, List.filter_cons_of_pos (by simpa using hc), List.map_cons, List.cons_append, ← consumedBy, ← ih ds h]
        · rename_i hc
          rw [consumedBy, List.filter_cons_of_neg (by simpa using hc), ← consumedBy]; exact ih _ h
      · rw [if_neg htd] at h; cases h

end Verif.Spec
