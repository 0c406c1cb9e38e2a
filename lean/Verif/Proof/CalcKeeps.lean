/-
Computations of the calculator do not panic.
-/
import Verif.Model.Calc.Lib

namespace Verif.Proof.Calc

open Verif Verif.Model Verif.Model.Calc
open Verif.Model.Tree (bindRun)

variable {α : Type}

/-- There is no panic, the number of frames is `n`. -/
def KeepsFrames {β : Type} (n : Nat) : Run (RunContext α × β) → Prop
  | .panic => False
  | .timeout => True
  | .done r => r.1.length = n

theorem keeps_then {β γ : Type} {n : Nat} {x : Run (RunContext α × Except CalcErr β)}
    {f : RunContext α → β → Run (RunContext α × Except CalcErr γ)} (hx : KeepsFrames n x)
    (hf : ∀ c v, c.length = n → KeepsFrames n (f c v)) : KeepsFrames n (thenCompute x f) := by
  match x, hx with
  | .timeout, _ => trivial
  | .done (c, .ok v), hx => exact hf c v hx
  | .done (c, .error e), hx => exact hx

section

variable {A : Arith α} {call : RunContext α → Function α → List α → Outcome α}

mutual

theorem keeps_expr (hcall : ∀ c f vs, c ≠ [] → KeepsFrames c.length (call c f vs)) :
    (e : Expr α) → (c : RunContext α) → c ≠ [] → KeepsFrames c.length (computeWith A call c e)
  | .number v, c, _ => by rw [computeWith]; exact rfl
  | .chain v ops, c, hc => by rw [computeWith]; exact keeps_ops hcall ops c v hc
  | .power b x, c, hc => by
    rw [computeWith]
    refine keeps_then (keeps_expr hcall b c hc) fun c1 v h1 => ?_
    have hc1 : c1 ≠ [] := by rintro rfl; exact hc (List.length_eq_zero_iff.mp h1.symm)
    exact keeps_then (h1 ▸ keeps_expr hcall x c1 hc1) fun c2 w h2 => h2
  | .varName _, c, _ => by rw [computeWith]; exact rfl
  | .assignment n e, c, hc => by
    rw [computeWith]
    refine keeps_then (keeps_expr hcall e c hc) fun c1 v h1 => ?_
    cases c1 with
    | nil => exact absurd (List.length_eq_zero_iff.mp h1.symm) hc
    | cons f fs => exact h1
  | .funcDef n as b, [], hc => absurd rfl hc
  | .funcDef n as b, f :: fs, _ => by
    rw [computeWith]
    exact rfl
  | .funcCall n args, c, hc => by
    rw [computeWith]
    cases functionOf c n with
    | error e => exact rfl
    | ok f =>
      refine keeps_then (keeps_args hcall args c hc) fun c1 vs h1 => ?_
      have hc1 : c1 ≠ [] := by rintro rfl; exact hc (List.length_eq_zero_iff.mp h1.symm)
      exact h1 ▸ hcall c1 f vs hc1

theorem keeps_ops (hcall : ∀ c f vs, c ≠ [] → KeepsFrames c.length (call c f vs)) :
    (ops : List (OpVal α)) → (c : RunContext α) → (v : α) → c ≠ [] → KeepsFrames c.length (computeOps A call c v ops)
  | [], c, v, _ => by rw [computeOps]; exact rfl
  | .mk o e :: ops, c, v, hc => by
    rw [computeOps]
    refine keeps_then (keeps_expr hcall e c hc) fun c1 w h1 => ?_
    have hc1 : c1 ≠ [] := by rintro rfl; exact hc (List.length_eq_zero_iff.mp h1.symm)
    exact h1 ▸ keeps_ops hcall ops c1 _ hc1

theorem keeps_args (hcall : ∀ c f vs, c ≠ [] → KeepsFrames c.length (call c f vs)) :
    (es : List (Expr α)) → (c : RunContext α) → c ≠ [] → KeepsFrames c.length (computeArgs A call c es)
  | [], c, _ => by rw [computeArgs]; exact rfl
  | e :: es, c, hc => by
    rw [computeArgs]
    refine keeps_then (keeps_expr hcall e c hc) fun c1 w h1 => ?_
    have hc1 : c1 ≠ [] := by rintro rfl; exact hc (List.length_eq_zero_iff.mp h1.symm)
    exact keeps_then (h1 ▸ keeps_args hcall es c1 hc1) fun c2 vs h2 => h2

end

end

/-- Computations do not panic, the stack of contexts is as high as it was. -/
theorem compute_keeps (A : Arith α) (depth : Nat) {c : RunContext α} (hc : c ≠ []) (e : Expr α) : KeepsFrames c.length (compute A depth c e) := by
  induction depth generalizing c e with
  | zero => rw [compute]; exact keeps_expr (call := fun _ _ _ => .timeout) (fun _ _ _ _ => trivial) e c hc
  | succ n ih =>
    rw [compute]
    refine keeps_expr (fun c f vs hc => ?_) e c hc
    rw [callFunction]
    split
    · exact rfl
    · have := ih (c := { vars := argVars f.argNames vs } :: c) (by simp) f.body
      revert this
      cases compute A n ({ vars := argVars f.argNames vs } :: c) f.body with
      | panic => exact fun h => h
      | timeout => exact fun h => h
      | done r =>
        intro h
        have h : r.1.length = c.length + 1 := h
        show r.1.tail.length = c.length
        simp [h]

end Verif.Proof.Calc
