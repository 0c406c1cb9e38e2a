/-
The parsing loop consumes tokens in the order of arrival.
-/
import Verif.Proof.Parse
import Verif.Spec.Replay

namespace Verif.Proof

open Verif.Model Verif.Spec

variable {σ : Type}

theorem replay_append (steps : List (Option Token × Rule)) (ds rest more : List (Option Token))
    (h : replay steps ds = some rest) : replay steps (ds ++ more) = some (rest ++ more) := by
  induction steps generalizing ds with
  | nil => simpa [replay] using h
  | cons s steps ih =>
    obtain ⟨t, r⟩ := s
    cases ds with
    | nil => simp [replay] at h
    | cons d ds =>
      rw [replay] at h
      rw [List.cons_append, replay]
      split at h
      · rename_i h1
        rw [if_pos h1]
        split at h
        · rename_i h2
          rw [if_pos h2]; exact ih ds h
        · rename_i h2
          rw [if_neg h2]; exact ih _ h
      · cases h

theorem consumes_iff (r : Rule) (t : Option Token) :
    consumes r t = true ↔ (t = none ∨ (r.node = -1 ∧ r.token ≠ -1)) := by
  unfold consumes
  exact decide_eq_true_iff.trans Or.comm

theorem replay_snoc (steps : List (Option Token × Rule)) (ds rest : List (Option Token)) (t : Option Token) (r : Rule)
    (h : replay steps ds = some (t :: rest)) :
    replay (steps ++ [(t, r)]) ds = some (if t = none ∨ (r.node = -1 ∧ r.token ≠ -1) then rest else t :: rest) := by
  induction steps generalizing ds with
  | nil =>
    simp only [replay, Option.some.injEq] at h
    subst h
    simp only [List.nil_append, replay, if_true]
    split <;> simp
  | cons s steps ih =>
    obtain ⟨t', r'⟩ := s
    cases ds with
    | nil => simp [replay] at h
    | cons d ds =>
      rw [replay] at h
      rw [List.cons_append, replay]
      split at h
      · rename_i h1
        rw [if_pos h1]
        split at h
        · rename_i h2
          rw [if_pos h2]; exact ih ds h
        · rename_i h2
          rw [if_neg h2]; exact ih _ h
      · cases h

theorem tokens_inv (env : PEnv σ) : LoopInv env (fun pc tok => replay pc.steps pc.delivered = some (tok :: pc.tokens))
    (fun pc => replay pc.steps pc.delivered = some pc.tokens) where
  token := by
    intro fuel pc pc' tok node rest hJ _ h
    obtain ⟨src, ts, dl, rfl, h1⟩ := nextToken_spec h
    simp only [received, List.cons_append, List.nil_append] at h1
    simp only [h1]
    exact replay_append _ _ _ _ hJ
  step := by
    intro fuel pc pc1 pc2 tok node rest r b hI _ h1 h2
    obtain ⟨src, ap, dl, rfl⟩ := nextRule_spec h1
    obtain ⟨rfl, stack, log, last, rfl⟩ := applyRule_spec h2
    have h3 := replay_snoc _ _ _ tok r (replay_append _ _ _ dl hI)
    by_cases hc : tok = none ∨ (r.node = -1 ∧ r.token ≠ -1)
    · simp only [Phase, (consumes_iff r tok).mpr hc, if_true]
      rw [h3, if_pos hc]; rfl
    · have : consumes r tok = false := by rw [← Bool.not_eq_true, consumes_iff]; exact hc
      simp only [Phase, this, Bool.false_eq_true, if_false]
      rw [h3, if_neg hc]; rfl

end Verif.Proof
