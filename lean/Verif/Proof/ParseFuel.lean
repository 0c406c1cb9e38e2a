/-
The outcome of a parse does not depend on the number of steps allowed, if the number is sufficient.
-/
import Verif.Proof.Errors

namespace Verif.Proof

open Verif.Model Verif.Spec
open Verif.Model.Tree (bindRun)

/-- The second computation gives the same outcome as the first one, which may have run out of steps. -/
def Stays {α : Type} (x y : Run α) : Prop := x = .timeout ∨ x = y

theorem Stays.refl {α : Type} (x : Run α) : Stays x x := .inr rfl

theorem Stays.timeout {α : Type} (y : Run α) : Stays .timeout y := .inl rfl

theorem Stays.trans {α : Type} {x y z : Run α} (h : Stays x y) (h' : Stays y z) : Stays x z := by
  rcases h with h | rfl
  · exact .inl h
  · exact h'

theorem stays_bind {α β : Type} {x y : Run α} {f g : α → Run β} (h : Stays x y) (hf : ∀ a, Stays (f a) (g a)) :
    Stays (bindRun x f) (bindRun y g) := by
  rcases h with rfl | rfl
  · exact .inl rfl
  · cases x with
    | done a => exact hf a
    | panic => exact .refl _
    | timeout => exact .refl _

theorem stays_res {α β : Type} {x y : PRes α} {f g : α → PRes β} (h : Stays x y) (hf : ∀ a, Stays (f a) (g a)) :
    Stays (bindRes x f) (bindRes y g) := by
  rcases h with rfl | rfl
  · exact .inl rfl
  · rcases x with _ | _ | (_ | a)
    · exact .refl _
    · exact .refl _
    · exact .refl _
    · exact hf a

theorem stays_orPanic {α β : Type} {x : Option α} {f g : α → Run β} (hf : ∀ a, Stays (f a) (g a)) : Stays (orPanic x f) (orPanic x g) := by
  cases x with
  | none => exact .refl _
  | some a => exact hf a

section

variable {σ : Type} {env : PEnv σ} {pull : σ → TokenTypeSet → Run (σ × Except PErr (Option Token))}

theorem drain_stays (tok : Option Token) (f f' : Nat) (hle : f ≤ f') (rc : RC) :
    Stays (rc.drain env tok f) (rc.drain { env with pull := pull } tok f') := by
  induction f generalizing f' rc with
  | zero => exact .timeout _
  | succ f ih =>
    obtain ⟨f', rfl⟩ : ∃ x, f' = x + 1 := ⟨f' - 1, by omega⟩
    have ih' := ih f' (by omega)
    rw [RC.drain, RC.drain]
    split
    · exact .refl _
    · refine stays_orPanic fun br => ?_
      split
      · exact ih' _
      · refine stays_orPanic fun rules => ?_
        have ha : ∀ (rc : RC) b r, rc.apply { env with pull := pull } tok b r = rc.apply env tok b r := fun _ _ _ => rfl
        have hall : ∀ (l : List (Nat × Rule)) (rc : RC), rc.applyAll { env with pull := pull } tok l = rc.applyAll env tok l := by
          intro l
          induction l with
          | nil => intro rc; rfl
          | cons x l ih =>
            intro rc
            rw [RC.applyAll, RC.applyAll, ha]
            congr 1
            funext rc
            exact ih rc
        split
        · exact ih' _
        · rw [ha]; exact stays_orPanic fun rc => ih' _
        · simp only [hall]; exact stays_orPanic fun rc => ih' _

theorem overBranches_stays (tok : Option Token) {f f' : Nat} (hle : f ≤ f') (count i : Nat) (rc : RC) :
    Stays (rc.overBranches env tok f count i) (rc.overBranches { env with pull := pull } tok f' count i) := by
  induction count generalizing i rc with
  | zero => exact .refl _
  | succ count ih =>
    rw [RC.overBranches, RC.overBranches]
    exact stays_orPanic fun b => stays_bind (drain_stays tok f f' hle _) fun rc => ih _ _

theorem nextLoop_stays (hp : ∀ q types, Stays (env.pull q types) (pull q types)) (types : TokenTypeSet) (f f' : Nat) (hle : f ≤ f')
    (pc : PC σ) : Stays (nextLoop env types f pc) (nextLoop { env with pull := pull } types f' pc) := by
  induction f generalizing f' pc with
  | zero => exact .timeout _
  | succ f ih =>
    obtain ⟨f', rfl⟩ : ∃ x, f' = x + 1 := ⟨f' - 1, by omega⟩
    rw [nextLoop, nextLoop]
    refine stays_bind (hp _ _) fun ⟨src, x⟩ => ?_
    cases x with
    | error e => exact .refl _
    | ok tok =>
      dsimp only
      split
      · exact ih f' (by omega) _
      · exact .refl _

theorem nextToken_stays (hp : ∀ q types, Stays (env.pull q types) (pull q types)) (types : TokenTypeSet) {f f' : Nat} (hle : f ≤ f')
    (pc : PC σ) : Stays (nextToken env f pc types) (nextToken { env with pull := pull } f' pc types) := by
  unfold nextToken
  cases pc.tokens with
  | nil => exact nextLoop_stays hp types f f' hle pc
  | cons t ts => exact .refl _

theorem conflictLoop_stays (hp : ∀ q types, Stays (env.pull q types) (pull q types)) (f f' : Nat) (hle : f ≤ f') (pc : PC σ)
    (tok : Option Token) (tokens : List (Option Token)) (rc : RC) :
    Stays (conflictLoop env f pc tok tokens rc) (conflictLoop { env with pull := pull } f' pc tok tokens rc) := by
  induction f generalizing f' pc tok tokens rc with
  | zero => exact .timeout _
  | succ f ih =>
    obtain ⟨f', rfl⟩ : ∃ x, f' = x + 1 := ⟨f' - 1, by omega⟩
    rw [conflictLoop, conflictLoop]
    refine stays_bind (overBranches_stays tok (by omega) _ _ _) fun rc => ?_
    dsimp only
    split
    · exact .refl _
    · split
      · exact .refl _
      · refine stays_bind (nextToken_stays hp _ (by omega) _) fun ⟨pc, x⟩ => ?_
        cases x with
        | error e => exact .refl _
        | ok tok => exact ih f' (by omega) _ _ _ _

theorem nextRule_stays (hp : ∀ q types, Stays (env.pull q types) (pull q types)) {f f' : Nat} (hle : f ≤ f') (pc : PC σ)
    (tok : Option Token) (s : Int) : Stays (nextRule env f pc tok s) (nextRule { env with pull := pull } f' pc tok s) := by
  unfold nextRule
  cases pc.applied with
  | cons r rs => exact .refl _
  | nil =>
    refine stays_orPanic fun rules => ?_
    match rules with
    | [] => exact .refl _
    | [r] => exact .refl _
    | r :: r' :: rs =>
      refine stays_bind ?_ fun ⟨pc, tokens, rules⟩ => .refl _
      exact stays_orPanic fun top => conflictLoop_stays hp f f' hle _ _ _ _

theorem noRule_stays (hp : ∀ q types, Stays (env.pull q types) (pull q types)) {f f' : Nat} (hle : f ≤ f') (pc : PC σ)
    (tok : Option Token) (s : Int) : Stays (noRule env f pc tok s) (noRule { env with pull := pull } f' pc tok s) := by
  unfold noRule
  cases tok with
  | some t => exact .refl _
  | none =>
    refine stays_bind (nextToken_stays hp _ hle _) fun ⟨pc, x⟩ => ?_
    rcases x with _ | (_ | t) <;> exact .refl _

theorem inner_stays (hp : ∀ q types, Stays (env.pull q types) (pull q types)) (f f' : Nat) (hle : f ≤ f') (pc : PC σ)
    (tok : Option Token) : Stays (inner env f pc tok) (inner { env with pull := pull } f' pc tok) := by
  induction f generalizing f' pc with
  | zero => exact .timeout _
  | succ f ih =>
    obtain ⟨f', rfl⟩ : ∃ x, f' = x + 1 := ⟨f' - 1, by omega⟩
    rw [inner, inner]
    split
    · exact .refl _
    · refine stays_bind (nextRule_stays hp (by omega) _ _ _) fun ⟨pc, x⟩ => ?_
      cases x with
      | none => exact noRule_stays hp (by omega) _ _ _
      | some r =>
        dsimp only
        refine stays_res (.inr (applyRule_pull _ _ _ _ _).symm) fun r => ?_
        split
        · exact .refl _
        · exact ih f' (by omega) _

theorem outer_stays (hp : ∀ q types, Stays (env.pull q types) (pull q types)) (f f' : Nat) (hle : f ≤ f') (pc : PC σ)
    (tok : Option Token) (c : Bool) : Stays (outer env f pc tok c) (outer { env with pull := pull } f' pc tok c) := by
  induction f generalizing f' pc tok c with
  | zero => exact .timeout _
  | succ f ih =>
    obtain ⟨f', rfl⟩ : ∃ x, f' = x + 1 := ⟨f' - 1, by omega⟩
    rw [outer, outer]
    split
    · exact .refl _
    · refine stays_bind (nextToken_stays hp _ (by omega) _) fun ⟨pc, x⟩ => ?_
      cases x with
      | error e => exact .refl _
      | ok tok => exact stays_res (inner_stays hp f f' (by omega) _ _) fun r => ih f' (by omega) _ _ _

theorem restLoop_stays (hp : ∀ q types, Stays (env.pull q types) (pull q types)) (f f' : Nat) (hle : f ≤ f') (pc : PC σ) :
    Stays (restLoop env f pc) (restLoop { env with pull := pull } f' pc) := by
  induction f generalizing f' pc with
  | zero => exact .timeout _
  | succ f ih =>
    obtain ⟨f', rfl⟩ : ∃ x, f' = x + 1 := ⟨f' - 1, by omega⟩
    rw [restLoop, restLoop]
    refine stays_bind (nextToken_stays hp _ (by omega) _) fun ⟨pc, x⟩ => ?_
    rcases x with _ | (_ | t)
    · exact .refl _
    · exact .refl _
    · dsimp only
      split
      · exact .refl _
      · split
        · exact ih f' (by omega) _
        · exact .refl _

theorem parse_stays (hp : ∀ q types, Stays (env.pull q types) (pull q types)) {f f' : Nat} (hle : f ≤ f') (src : σ) (pos : SrcPos) :
    Stays (parse env f src pos) (parse { env with pull := pull } f' src pos) := by
  rw [parse, parse]
  refine stays_res (.inr (pushNode_pull _ _ _ _ _).symm) fun pc => stays_res (outer_stays hp f f' hle _ _ _) fun r => ?_
  have : ∀ pc, putBack { env with pull := pull } pc r.2.1 r.2.2 = putBack env pc r.2.1 r.2.2 := fun _ => rfl
  rw [finish, finish, this]
  refine stays_bind (.refl _) fun pc => ?_
  split
  · exact restLoop_stays hp f f' hle pc
  · exact .refl _

/-- More steps do not change an outcome. -/
theorem parse_more {f f' : Nat} (hle : f ≤ f') (src : σ) (pos : SrcPos) (h : parse env f src pos ≠ .timeout) :
    parse env f' src pos = parse env f src pos := by
  rcases parse_stays (env := env) (pull := env.pull) (fun _ _ => .refl _) hle src pos with h1 | h1
  · exact absurd h1 h
  · exact h1.symm

end

end Verif.Proof
