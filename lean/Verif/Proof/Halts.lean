/-
Functions with fuel that stop: the result is the same for all large amounts of fuel.
-/
import Verif.Proof.Parse

namespace Verif.Proof

open Verif.Model
open Verif.Model.Tree (bindRun)

/-- With enough fuel (for fetching of tokens and for loops) the result does not depend on it, and it is a panic or a result with property `P`. -/
def Halts {α : Type} (f : Nat → Nat → Run α) (P : α → Prop) : Prop :=
  ∃ r, (∃ N, ∀ k n, N ≤ k → N ≤ n → f k n = r) ∧ r ≠ .timeout ∧ ∀ a, r = .done a → P a

theorem Halts.mono {α : Type} {f : Nat → Nat → Run α} {P Q : α → Prop} (h : Halts f P) (hq : ∀ a, P a → Q a) : Halts f Q := by
  obtain ⟨r, h1, h2, h3⟩ := h
  exact ⟨r, h1, h2, fun a ha => hq a (h3 a ha)⟩

theorem Halts.const {α : Type} {r : Run α} {P : α → Prop} (h : r ≠ .timeout) (hp : ∀ a, r = .done a → P a) :
    Halts (fun _ _ => r) P := ⟨r, ⟨0, fun _ _ _ _ => rfl⟩, h, hp⟩

theorem Halts.done {α : Type} {a : α} {P : α → Prop} (h : P a) : Halts (fun _ _ => .done a) P :=
  .const (by simp) (fun b hb => by cases hb; exact h)

theorem Halts.panic {α : Type} {P : α → Prop} : Halts (fun _ _ => (.panic : Run α)) P :=
  .const (by simp) (fun b hb => by cases hb)

theorem Halts.bind {α β : Type} {f : Nat → Nat → Run α} {g : Nat → Nat → α → Run β} {P : α → Prop} {Q : β → Prop} (h : Halts f P)
    (hg : ∀ a, P a → Halts (fun k n => g k n a) Q) : Halts (fun k n => bindRun (f k n) (g k n)) Q := by
  obtain ⟨r, ⟨N, h1⟩, h2, h3⟩ := h
  cases r with
  | panic => exact ⟨.panic, ⟨N, fun k n hk hn => by dsimp only; rw [h1 k n hk hn]; rfl⟩, by simp, fun b hb => by cases hb⟩
  | timeout => exact absurd rfl h2
  | done a =>
    obtain ⟨r', ⟨N', h1'⟩, h2', h3'⟩ := hg a (h3 a rfl)
    exact ⟨r', ⟨max N N', fun k n hk hn => by dsimp only; rw [h1 k n (by omega) (by omega)]; exact h1' k n (by omega) (by omega)⟩, h2', h3'⟩

theorem Halts.res {α β : Type} {f : Nat → Nat → PRes α} {g : Nat → Nat → α → PRes β} {P : α → Prop} {Q : β → Prop}
    (h : Halts f (fun r => ∀ a, r = .ok a → P a)) (hg : ∀ a, P a → Halts (fun k n => g k n a) (fun r => ∀ b, r = .ok b → Q b)) :
    Halts (fun k n => bindRes (f k n) (g k n)) (fun r => ∀ b, r = .ok b → Q b) := by
  obtain ⟨r, ⟨N, h1⟩, h2, h3⟩ := h
  rcases r with _ | _ | (e | a)
  · exact ⟨.panic, ⟨N, fun k n hk hn => by dsimp only; rw [h1 k n hk hn]; rfl⟩, by simp, fun b hb => by cases hb⟩
  · exact absurd rfl h2
  · exact ⟨.done (.error e), ⟨N, fun k n hk hn => by dsimp only; rw [h1 k n hk hn]; rfl⟩, by simp, fun b hb => by cases hb; simp⟩
  · obtain ⟨r', ⟨N', h1'⟩, h2', h3'⟩ := hg a (h3 _ rfl a rfl)
    exact ⟨r', ⟨max N N', fun k n hk hn => by dsimp only; rw [h1 k n (by omega) (by omega)]; exact h1' k n (by omega) (by omega)⟩, h2', h3'⟩

theorem Halts.orPanic {α β : Type} {x : Option α} {g : Nat → Nat → α → Run β} {Q : β → Prop}
    (hg : ∀ a, x = some a → Halts (fun k n => g k n a) Q) : Halts (fun k n => orPanic x (g k n)) Q := by
  cases x with
  | none => exact .panic
  | some a => exact hg a rfl

/-- A step of a loop. -/
theorem Halts.step {α : Type} {f g : Nat → Nat → Run α} {P : α → Prop} (hf : ∀ k n, f k (n + 1) = g k n) (h : Halts g P) : Halts f P := by
  obtain ⟨r, ⟨N, h1⟩, h2, h3⟩ := h
  refine ⟨r, ⟨N + 1, fun k n hk hn => ?_⟩, h2, h3⟩
  obtain ⟨n, rfl⟩ : ∃ n', n = n' + 1 := ⟨n - 1, by omega⟩
  rw [hf]
  exact h1 k n (by omega) (by omega)

theorem Halts.congr {α : Type} {f g : Nat → Nat → Run α} {P : α → Prop} (hf : ∀ k n, f k n = g k n) (h : Halts g P) : Halts f P := by
  rw [show f = g from funext fun k => funext (hf k)]; exact h

theorem Halts.not_timeout {α : Type} {f : Nat → Nat → Run α} {P : α → Prop} (h : Halts f P) : ∃ N, ∀ k n, N ≤ k → N ≤ n → f k n ≠ .timeout := by
  obtain ⟨r, ⟨N, h1⟩, h2, -⟩ := h
  exact ⟨N, fun k n hk hn => by rw [h1 k n hk hn]; exact h2⟩

end Verif.Proof
