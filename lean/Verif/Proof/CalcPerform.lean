/-
Commands of the calculator change its memory as the specification says.
-/
import Verif.Proof.CalcRead

namespace Verif.Proof.Calc

open Verif.Model Verif.Model.Calc Verif.Spec Verif.Spec.Calc

variable {α : Type}

/-- The root context holds the same variables and functions. -/
def Holds (A : Arith α) (m : Memory α) (c : RunContext α) : Prop :=
  ∃ funcs, c = [⟨m.vars, funcs⟩] ∧ FuncsAgree A m.funcs funcs

/-- The result of a computation is the same as the expected one. -/
def SameOutcome (A : Arith α) (o : Outcome α) (x : Option (Memory α × Except CalcErr α)) : Prop :=
  match o, x with
  | .timeout, none => True
  | .done (c, r), some (m, r') => Holds A m c ∧ r = r'
  | _, _ => False

theorem perform_value {A : Arith α} (hA : Lawful A) {m : Memory α} {c : RunContext α} (hc : Holds A m c) (fuel : Nat) {e : Expr α}
    {ex : Ex α} (h : Repr A e ex) : compute A fuel c e = lift c (value A m.funcs fuel [m.vars] ex) := by
  obtain ⟨funcs, rfl, hf⟩ := hc
  exact compute_value hA hf m.vars fuel [] h

theorem perform_cmd {A : Arith α} (hA : Lawful A) {m : Memory α} {c : RunContext α} (hc : Holds A m c) (fuel : Nat) {e : Expr α}
    {cmd : Cmd α} (h : ReprCmd A e cmd) : SameOutcome A (compute A fuel c e) (perform A fuel m cmd) := by
  cases h with
  | value h =>
    rw [perform_value hA hc fuel h, perform]
    cases value A m.funcs fuel [m.vars] _ with
    | none => trivial
    | some r => exact ⟨hc, rfl⟩
  | @assign x e ex h =>
    have hv := perform_value hA hc fuel h
    have h1 : compute A fuel c (.assignment x e) = thenCompute (compute A fuel c e) fun c v =>
        match c with
        | [] => .panic
        | f :: fs => .done ({ f with vars := setKey f.vars x v } :: fs, .ok v) := by
      cases fuel <;> rw [compute, computeWith] <;> rfl
    rw [h1, hv, perform]
    cases value A m.funcs fuel [m.vars] ex with
    | none => trivial
    | some r =>
      cases r with
      | error e => exact ⟨hc, rfl⟩
      | ok v =>
        obtain ⟨funcs, rfl, hf⟩ := hc
        exact ⟨⟨funcs, rfl, hf⟩, rfl⟩
  | @define f ns e ex h =>
    obtain ⟨funcs, rfl, hf⟩ := hc
    have h1 : compute A fuel [⟨m.vars, funcs⟩] (.funcDef f ns e) = .done ([⟨m.vars, setKey funcs f ⟨f, ns, e⟩⟩], .ok A.zero) := by
      cases fuel <;> rw [compute, computeWith]
    rw [h1, perform]
    refine ⟨⟨_, rfl, ?_⟩, rfl⟩
    intro n
    have := hf n
    by_cases hn : n = f
    · subst hn
      simp [setKey, h]
    · simp only [setKey, hn, if_false]
      exact this

end Verif.Proof.Calc
