/-
The reference lookahead follows every variant.
-/
import Verif.Proof.Lookahead

namespace Verif.Proof

open Verif.Model Verif.Spec
open Verif.Model.Tree (bindRun)

variable {σ : Type} {g : Grammar} {upper : List Nat → List Nat} {tok : Option Token}

/-- States of nodes of a branch. -/
def statesOf (l : List Frame) : List Int := l.map (·.state)

theorem popFrames_states (l : List Frame) : statesOf (popFrames l) = (statesOf l).dropWhile (· = -1) := by
  induction l with
  | nil => rfl
  | cons f l ih =>
    rw [popFrames, show statesOf (f :: l) = f.state :: statesOf l from rfl, List.dropWhile_cons]
    by_cases h : f.state = finalState
    · rw [if_pos h, if_pos (by rw [h]; rfl)]; exact ih
    · have h' : ¬ f.state = -1 := h
      rw [if_neg h, if_neg (by simpa using h')]; rfl

theorem moveFrame_state {r : Rule} {f f' : Frame} (h : moveFrame g r f = some f') : f'.state = after r f.state := by
  unfold moveFrame at h
  unfold after
  split at h
  · rename_i h1
    cases h
    rw [if_pos (show r.state = -128 from h1)]
  · rename_i h1
    rw [if_neg (show ¬ r.state = -128 from h1)]
    split at h
    · cases h; rfl
    · rw [Option.map_eq_some_iff] at h
      obtain ⟨_, -, rfl⟩ := h
      rfl

theorem consumes_spec (r : Rule) (tok : Option Token) : consumes r tok = true ↔ (r.node = -1 ∧ r.token ≠ -1) ∨ tok = none := by
  unfold consumes
  rw [decide_eq_true_iff]
  exact Iff.rfl

/-- Rule used without hooks. -/
theorem applyQuiet_states {r : Rule} {st st' : List Frame} {c : Bool} (h : applyQuiet g tok r st = some (st', c)) :
    ∃ f rest top, st = f :: rest ∧
      ((r.node = -1 ∧ top = [after r f.state]) ∨
        ∃ i f1 : Nat, r.node = (i : Int) ∧ g.firsts[i]? = some f1 ∧ top = [(f1 : Int), after r f.state]) ∧
      statesOf st' = (top ++ statesOf rest).dropWhile (· = -1) ∧ c = consumes r tok := by
  cases st with
  | nil => cases h
  | cons f rest =>
    rw [applyQuiet, Option.bind_eq_some_iff] at h
    obtain ⟨f', hf, h⟩ := h
    have hs := moveFrame_state hf
    rw [Option.map_eq_some_iff] at h
    obtain ⟨st1, h1, h2⟩ := h
    cases h2
    refine ⟨f, rest, ?_⟩
    split at h1
    · split at h1
      · rename_i hn h0
        rw [Option.bind_eq_some_iff] at h1
        obtain ⟨first, h3, h1⟩ := h1
        rw [Option.map_eq_some_iff] at h1
        obtain ⟨_, -, rfl⟩ := h1
        refine ⟨[(first : Int), after r f.state], rfl, .inr ⟨r.node.toNat, first, (Int.toNat_of_nonneg h0).symm, h3, rfl⟩, ?_, rfl⟩
        rw [popFrames_states]
        simp [statesOf, hs]
      · cases h1
    · rename_i hn
      cases h1
      refine ⟨[after r f.state], rfl, .inl ⟨not_not.mp hn, rfl⟩, ?_, rfl⟩
      rw [popFrames_states]
      simp [statesOf, hs]

theorem applyQuiet_move {r : Rule} {f : Frame} {rest st' : List Frame} {c : Bool} {rules : List Rule}
    (hr : findRules g upper tok f.state = some rules) (hm : r ∈ rules) (h : applyQuiet g tok r (f :: rest) = some (st', c)) :
    Move g upper tok (statesOf (f :: rest)) r (statesOf st') c := by
  obtain ⟨f0, rest0, top, h1, h2, h3, h4⟩ := applyQuiet_states h
  cases h1
  exact ⟨f.state, statesOf rest, rules, top, rfl, hr, hm, h2, h3, by rw [h4]; exact consumes_spec r tok⟩

theorem applyQuiet_det {r : Rule} {st st' : List Frame} {c u : Bool} {l : List Int}
    (h : applyQuiet g tok r st = some (st', c)) (hm : Move g upper tok (statesOf st) r l u) : l = statesOf st' ∧ u = c := by
  obtain ⟨f, rest, top, rfl, h2, h3, h4⟩ := applyQuiet_states h
  obtain ⟨s, rest', rules, top', e1, -, -, e4, e5, e6⟩ := hm
  simp only [statesOf, List.map_cons, List.cons.injEq] at e1
  obtain ⟨rfl, rfl⟩ := e1
  have ht : top' = top := by
    rcases h2 with ⟨a, b⟩ | ⟨i, f1, a, b, c⟩ <;> rcases e4 with ⟨a', b'⟩ | ⟨i', f1', a', b', c'⟩
    · rw [b, b']
    · omega
    · omega
    · have : i' = i := by omega
      subst this
      rw [b] at b'; cases b'
      rw [c, c']
  subst ht
  refine ⟨by rw [e5, h3]; rfl, ?_⟩
  have : u = true ↔ c = true := by rw [e6, h4, consumes_spec]
  exact Bool.eq_iff_iff.mpr this

theorem useRule_some {b : Branch} {r : Rule} {x : Branch} {c : Bool} :
    useRule g tok b r = some (x, c) ↔ applyQuiet g tok r b.stack = some (x.stack, c) ∧ x.rules = b.rules ++ [r] := by
  rw [useRule, Option.map_eq_some_iff]
  constructor
  · rintro ⟨⟨st, c'⟩, h, h2⟩
    cases h2
    exact ⟨h, rfl⟩
  · rintro ⟨h1, h2⟩
    exact ⟨_, h1, by rw [← h2]⟩

theorem useRules_sound {b : Branch} (rs : List Rule) {q q' : List Branch} {o o' : Traced}
    (h : useRules g tok b rs q o = some (q', o')) :
    (∀ x ∈ o'.next, x ∈ o.next ∨ ∃ r ∈ rs, useRule g tok b r = some (x, true)) ∧
    (∀ x ∈ o'.left, x ∈ o.left ∨ ∃ r ∈ rs, useRule g tok b r = some (x, false) ∧ x.stack = []) ∧
    (∀ x ∈ q', x ∈ q ∨ ∃ r ∈ rs, useRule g tok b r = some (x, false)) ∧ o'.dead = o.dead := by
  induction rs generalizing q o with
  | nil =>
    cases h
    exact ⟨fun x hx => .inl hx, fun x hx => .inl hx, fun x hx => .inl hx, rfl⟩
  | cons r rs ih =>
    rw [useRules, Option.bind_eq_some_iff] at h
    obtain ⟨⟨y, c⟩, hy, h⟩ := h
    dsimp only at h
    have up : ∀ {P : Rule → Prop}, (∃ r ∈ rs, P r) → ∃ r' ∈ r :: rs, P r' := by
      rintro P ⟨r', h1, h2⟩
      exact ⟨r', List.mem_cons_of_mem _ h1, h2⟩
    split at h
    · rename_i hc
      subst hc
      obtain ⟨h1, h2, h3, h4⟩ := ih h
      refine ⟨fun x hx => ?_, fun x hx => (h2 x hx).imp id up, fun x hx => (h3 x hx).imp id up, h4⟩
      rcases h1 x hx with hx | hx
      · rcases List.mem_append.mp hx with hx | hx
        · exact .inl hx
        · rw [List.mem_singleton] at hx
          subst hx
          exact .inr ⟨r, by simp, hy⟩
      · exact .inr (up hx)
    · rename_i hc
      have hc : c = false := by simpa using hc
      subst hc
      split at h
      · rename_i he
        obtain ⟨h1, h2, h3, h4⟩ := ih h
        refine ⟨fun x hx => (h1 x hx).imp id up, fun x hx => ?_, fun x hx => (h3 x hx).imp id up, h4⟩
        rcases h2 x hx with hx | hx
        · rcases List.mem_append.mp hx with hx | hx
          · exact .inl hx
          · rw [List.mem_singleton] at hx
            subst hx
            exact .inr ⟨r, by simp, hy, List.isEmpty_iff.mp he⟩
        · exact .inr (up hx)
      · obtain ⟨h1, h2, h3, h4⟩ := ih h
        refine ⟨fun x hx => (h1 x hx).imp id up, fun x hx => (h2 x hx).imp id up, fun x hx => ?_, h4⟩
        rcases h3 x hx with hx | hx
        · rcases List.mem_append.mp hx with hx | hx
          · exact .inl hx
          · rw [List.mem_singleton] at hx
            subst hx
            exact .inr ⟨r, by simp, hy⟩
        · exact .inr (up hx)

theorem useRules_complete {b : Branch} (rs : List Rule) {q q' : List Branch} {o o' : Traced}
    (h : useRules g tok b rs q o = some (q', o')) :
    (∀ x ∈ o.next, x ∈ o'.next) ∧ (∀ x ∈ o.left, x ∈ o'.left) ∧ (∀ x ∈ q, x ∈ q') ∧
    ∀ r ∈ rs, ∃ x c, useRule g tok b r = some (x, c) ∧ (c = true → x ∈ o'.next) ∧ (c = false → x.stack = [] → x ∈ o'.left) ∧
      (c = false → x.stack ≠ [] → x ∈ q') := by
  induction rs generalizing q o with
  | nil =>
    cases h
    exact ⟨fun x hx => hx, fun x hx => hx, fun x hx => hx, fun r hr => by cases hr⟩
  | cons r rs ih =>
    rw [useRules, Option.bind_eq_some_iff] at h
    obtain ⟨⟨y, c⟩, hy, h⟩ := h
    dsimp only at h
    split at h
    · rename_i hc
      obtain ⟨h1, h2, h3, h4⟩ := ih h
      refine ⟨fun x hx => h1 x (by simp [hx]), h2, h3, fun r' hr' => ?_⟩
      rcases List.mem_cons.mp hr' with rfl | hr'
      · exact ⟨y, c, hy, fun _ => h1 y (by simp), fun hf => (by rw [hf] at hc; cases hc), fun hf => (by rw [hf] at hc; cases hc)⟩
      · exact h4 r' hr'
    · rename_i hc
      split at h
      · rename_i he
        obtain ⟨h1, h2, h3, h4⟩ := ih h
        refine ⟨h1, fun x hx => h2 x (by simp [hx]), h3, fun r' hr' => ?_⟩
        rcases List.mem_cons.mp hr' with rfl | hr'
        · exact ⟨y, c, hy, fun hf => absurd hf hc, fun _ _ => h2 y (by simp), fun _ hne => absurd (List.isEmpty_iff.mp he) hne⟩
        · exact h4 r' hr'
      · rename_i he
        obtain ⟨h1, h2, h3, h4⟩ := ih h
        refine ⟨h1, h2, fun x hx => h3 x (by simp [hx]), fun r' hr' => ?_⟩
        rcases List.mem_cons.mp hr' with rfl | hr'
        · exact ⟨y, c, hy, fun hf => absurd hf hc, fun _ hne => absurd (List.isEmpty_iff.mpr hne) he, fun _ _ => h3 y (by simp)⟩
        · exact h4 r' hr'

/-- Branch `x` is branch `b` after some rules that take it as `P` says. -/
def From (P : List Int → List Rule → Prop) (b x : Branch) : Prop :=
  ∃ rs, x.rules = b.rules ++ rs ∧ P (statesOf b.stack) rs

theorem traceQueue_sound (fuel : Nat) {q : List Branch} {o o' : Traced} (h : traceQueue g upper tok fuel q o = .done o') :
    (∀ x ∈ o'.next, x ∈ o.next ∨ ∃ b ∈ q, From (fun st rs => Takes g upper tok st rs (statesOf x.stack)) b x) ∧
    (∀ x ∈ o'.left, x ∈ o.left ∨ ∃ b ∈ q, From (Leaves g upper tok) b x) ∧
    (∀ x ∈ o'.dead, x ∈ o.dead ∨ ∃ b ∈ q, From (Legal g upper [tok]) b x) := by
  induction fuel generalizing q o with
  | zero => simp [traceQueue] at h
  | succ fuel ih =>
    cases q with
    | nil =>
      cases h
      exact ⟨fun x hx => .inl hx, fun x hx => .inl hx, fun x hx => .inl hx⟩
    | cons b q =>
      have up : ∀ {P : Branch → Prop}, (∃ b ∈ q, P b) → ∃ b' ∈ b :: q, P b' := by
        rintro P ⟨b', h1, h2⟩
        exact ⟨b', List.mem_cons_of_mem _ h1, h2⟩
      rw [traceQueue] at h
      cases hst : b.stack with
      | nil =>
        rw [hst] at h
        obtain ⟨h1, h2, h3⟩ := ih h
        refine ⟨fun x hx => (h1 x hx).imp id up, fun x hx => ?_, fun x hx => (h3 x hx).imp id up⟩
        rcases h2 x hx with hx | hx
        · rcases List.mem_append.mp hx with hx | hx
          · exact .inl hx
          · rw [List.mem_singleton] at hx
            subst hx
            refine .inr ⟨x, by simp, [], by simp, ?_⟩
            rw [hst]
            exact .now
        · exact .inr (up hx)
      | cons top rest =>
        rw [hst] at h
        dsimp only at h
        rw [orPanic_done] at h
        obtain ⟨rules, hr, h⟩ := h
        match rules, hr, h with
        | [], hr, h =>
          obtain ⟨h1, h2, h3⟩ := ih h
          refine ⟨fun x hx => (h1 x hx).imp id up, fun x hx => (h2 x hx).imp id up, fun x hx => ?_⟩
          rcases h3 x hx with hx | hx
          · rcases List.mem_append.mp hx with hx | hx
            · exact .inl hx
            · rw [List.mem_singleton] at hx
              subst hx
              exact .inr ⟨x, by simp, [], by simp, .nil⟩
          · exact .inr (up hx)
        | r0 :: rs0, hr, h =>
          dsimp only at h
          rw [orPanic_done] at h
          obtain ⟨⟨q1, o1⟩, hu, h⟩ := h
          obtain ⟨a1, a2, a3, a4⟩ := useRules_sound _ hu
          obtain ⟨h1, h2, h3⟩ := ih h
          have mv : ∀ {r x c}, r ∈ r0 :: rs0 → useRule g tok b r = some (x, c) →
              x.rules = b.rules ++ [r] ∧ Move g upper tok (statesOf b.stack) r (statesOf x.stack) c := by
            intro r x c hm hx
            obtain ⟨e1, e2⟩ := useRule_some.mp hx
            refine ⟨e2, ?_⟩
            rw [hst] at e1 ⊢
            exact applyQuiet_move hr hm e1
          have ext : ∀ {P : List Int → List Rule → Prop} {x : Branch},
              (∀ st r st1 rs, Move g upper tok st r st1 false → P st1 rs → P st (r :: rs)) →
              (∃ b' ∈ q1, From P b' x) → ∃ b' ∈ b :: q, From P b' x := by
            rintro P x hP ⟨b', hb', rs, e1, e2⟩
            rcases a3 b' hb' with hb' | ⟨r, hm, hx⟩
            · exact ⟨b', List.mem_cons_of_mem _ hb', rs, e1, e2⟩
            · obtain ⟨e3, e4⟩ := mv hm hx
              exact ⟨b, by simp, r :: rs, by rw [e1, e3]; simp, hP _ _ _ _ e4 e2⟩
          refine ⟨fun x hx => ?_, fun x hx => ?_, fun x hx => ?_⟩
          · rcases h1 x hx with hx | hx
            · refine (a1 x hx).imp id ?_
              rintro ⟨r, hm, hx⟩
              obtain ⟨e3, e4⟩ := mv hm hx
              exact ⟨b, by simp, [r], e3, .use e4⟩
            · exact .inr (ext (fun st r st1 rs => Takes.go) hx)
          · rcases h2 x hx with hx | hx
            · refine (a2 x hx).imp id ?_
              rintro ⟨r, hm, hx, he⟩
              obtain ⟨e3, e4⟩ := mv hm hx
              rw [he] at e4
              exact ⟨b, by simp, [r], e3, .go e4 .now⟩
            · exact .inr (ext (fun st r st1 rs => Leaves.go) hx)
          · rcases h3 x hx with hx | hx
            · rw [a4] at hx
              exact .inl hx
            · exact .inr (ext (fun st r st1 rs => Legal.go) hx)

theorem traceQueue_complete (fuel : Nat) {q : List Branch} {o o' : Traced} (h : traceQueue g upper tok fuel q o = .done o') :
    (∀ x ∈ o.next, x ∈ o'.next) ∧ (∀ x ∈ o.left, x ∈ o'.left) ∧
    (∀ b ∈ q, ∀ rs st, Takes g upper tok (statesOf b.stack) rs st →
      ∃ x ∈ o'.next, x.rules = b.rules ++ rs ∧ statesOf x.stack = st) ∧
    (∀ b ∈ q, ∀ rs, Leaves g upper tok (statesOf b.stack) rs → ∃ x ∈ o'.left, x.rules = b.rules ++ rs) := by
  induction fuel generalizing q o with
  | zero => simp [traceQueue] at h
  | succ fuel ih =>
    cases q with
    | nil =>
      cases h
      exact ⟨fun x hx => hx, fun x hx => hx, fun b hb => (by cases hb), fun b hb => (by cases hb)⟩
    | cons b q =>
      rw [traceQueue] at h
      cases hst : b.stack with
      | nil =>
        rw [hst] at h
        obtain ⟨h1, h2, h3, h4⟩ := ih h
        refine ⟨h1, fun x hx => h2 x (by simp [hx]), fun b' hb' rs st ht => ?_, fun b' hb' rs ht => ?_⟩
        · rcases List.mem_cons.mp hb' with rfl | hb'
          · rw [hst] at ht
            exfalso
            cases ht with
            | use hm => obtain ⟨s, rest, rules, top, e1, -⟩ := hm; cases e1
            | go hm _ => obtain ⟨s, rest, rules, top, e1, -⟩ := hm; cases e1
          · exact h3 b' hb' rs st ht
        · rcases List.mem_cons.mp hb' with rfl | hb'
          · rw [hst] at ht
            cases ht with
            | now => exact ⟨b', h2 b' (by simp), by simp⟩
            | go hm _ => obtain ⟨s, rest, rules, top, e1, -⟩ := hm; cases e1
          · exact h4 b' hb' rs ht
      | cons top rest =>
        rw [hst] at h
        dsimp only at h
        rw [orPanic_done] at h
        obtain ⟨rules, hr, h⟩ := h
        have mem : ∀ r st u, Move g upper tok (statesOf b.stack) r st u → r ∈ rules := by
          rintro r st u ⟨s, rest', rules', top', e1, e2, e3, -⟩
          rw [hst] at e1
          simp only [statesOf, List.map_cons, List.cons.injEq] at e1
          rw [← e1.1, hr] at e2
          cases e2
          exact e3
        match rules, mem, h with
        | [], mem, h =>
          obtain ⟨h1, h2, h3, h4⟩ := ih h
          refine ⟨h1, h2, fun b' hb' rs st ht => ?_, fun b' hb' rs ht => ?_⟩
          · rcases List.mem_cons.mp hb' with rfl | hb'
            · exfalso
              cases ht with
              | use hm => cases mem _ _ _ hm
              | go hm _ => cases mem _ _ _ hm
            · exact h3 b' hb' rs st ht
          · rcases List.mem_cons.mp hb' with rfl | hb'
            · exfalso
              rw [hst] at ht
              generalize hl : statesOf (top :: rest) = l at ht
              cases ht with
              | now => simp [statesOf] at hl
              | go hm _ => rw [← hl, ← hst] at hm; cases mem _ _ _ hm
            · exact h4 b' hb' rs ht
        | r0 :: rs0, mem, h =>
          dsimp only at h
          rw [orPanic_done] at h
          obtain ⟨⟨q1, o1⟩, hu, h⟩ := h
          obtain ⟨a1, a2, a3, a4⟩ := useRules_complete _ hu
          obtain ⟨h1, h2, h3, h4⟩ := ih h
          refine ⟨fun x hx => h1 x (a1 x hx), fun x hx => h2 x (a2 x hx), fun b' hb' rs st ht => ?_, fun b' hb' rs ht => ?_⟩
          · rcases List.mem_cons.mp hb' with rfl | hb'
            · cases ht with
              | use hm =>
                obtain ⟨x, c, e1, e2, -, -⟩ := a4 _ (mem _ _ _ hm)
                obtain ⟨e3, e4⟩ := useRule_some.mp e1
                obtain ⟨e5, e6⟩ := applyQuiet_det e3 hm
                exact ⟨x, h1 x (e2 e6.symm), e4, e5.symm⟩
              | go hm ht =>
                obtain ⟨x, c, e1, -, -, e2⟩ := a4 _ (mem _ _ _ hm)
                obtain ⟨e3, e4⟩ := useRule_some.mp e1
                obtain ⟨e5, e6⟩ := applyQuiet_det e3 hm
                have hne : x.stack ≠ [] := by
                  intro he
                  rw [he] at e5
                  subst e5
                  cases ht with
                  | use hm => obtain ⟨s, rest, rules, top, e1, -⟩ := hm; cases e1
                  | go hm _ => obtain ⟨s, rest, rules, top, e1, -⟩ := hm; cases e1
                obtain ⟨y, f1, f2, f3⟩ := h3 x (e2 e6.symm hne) _ _ (by rw [← e5]; exact ht)
                exact ⟨y, f1, by rw [f2, e4]; simp, f3⟩
            · exact h3 b' (a3 b' hb') rs st ht
          · rcases List.mem_cons.mp hb' with rfl | hb'
            · rw [hst] at ht
              generalize hl : statesOf (top :: rest) = l at ht
              cases ht with
              | now => simp [statesOf] at hl
              | go hm ht =>
                rw [← hl, ← hst] at hm
                obtain ⟨x, c, e1, -, e0, e2⟩ := a4 _ (mem _ _ _ hm)
                obtain ⟨e3, e4⟩ := useRule_some.mp e1
                obtain ⟨e5, e6⟩ := applyQuiet_det e3 hm
                by_cases he : x.stack = []
                · refine ⟨x, h2 x (e0 e6.symm he), ?_⟩
                  rw [he] at e5
                  subst e5
                  cases ht with
                  | now => rw [e4]
                  | go hm _ => obtain ⟨s, rest, rules, top, e1, -⟩ := hm; cases e1
                · obtain ⟨y, f1, f2⟩ := h4 x (e2 e6.symm he) _ (by rw [← e5]; exact ht)
                  exact ⟨y, f1, by rw [f2, e4]; simp⟩
            · exact h4 b' (a3 b' hb') rs ht

/-- Every traced branch ends somewhere; dead branches are those without rules. -/
theorem traceQueue_dead (fuel : Nat) {q : List Branch} {o o' : Traced} (h : traceQueue g upper tok fuel q o = .done o') :
    ∃ D, o'.dead = o.dead ++ D ∧ (∀ x ∈ D, ∃ b ∈ q, From (Stuck g upper tok) b x) ∧ (q ≠ [] → D = [] → o'.next ≠ [] ∨ o'.left ≠ []) := by
  induction fuel generalizing q o with
  | zero => simp [traceQueue] at h
  | succ fuel ih =>
    cases q with
    | nil =>
      cases h
      exact ⟨[], by simp, by simp, by simp⟩
    | cons b q =>
      rw [traceQueue] at h
      cases hst : b.stack with
      | nil =>
        rw [hst] at h
        obtain ⟨D, h1, h2, -⟩ := ih h
        refine ⟨D, h1, fun x hx => ?_, fun _ _ => .inr ?_⟩
        · obtain ⟨b', h3, h4⟩ := h2 x hx
          exact ⟨b', List.mem_cons_of_mem _ h3, h4⟩
        · obtain ⟨-, h3, -⟩ := traceQueue_complete fuel h
          exact List.ne_nil_of_mem (h3 b (by simp))
      | cons top rest =>
        rw [hst] at h
        dsimp only at h
        rw [orPanic_done] at h
        obtain ⟨rules, hr, h⟩ := h
        match rules, hr, h with
        | [], hr, h =>
          obtain ⟨D, h1, h2, -⟩ := ih h
          refine ⟨b :: D, by rw [h1]; simp, fun x hx => ?_, by simp⟩
          rcases List.mem_cons.1 hx with rfl | hx
          · refine ⟨x, by simp, [], by simp, ?_⟩
            rw [hst]
            exact .now hr
          · obtain ⟨b', h3, h4⟩ := h2 x hx
            exact ⟨b', List.mem_cons_of_mem _ h3, h4⟩
        | r0 :: rs0, hr, h =>
          dsimp only at h
          rw [orPanic_done] at h
          obtain ⟨⟨q1, o1⟩, hu, h⟩ := h
          obtain ⟨-, -, a3, a4⟩ := useRules_sound _ hu
          obtain ⟨-, -, -, c4⟩ := useRules_complete _ hu
          obtain ⟨D, h1, h2, h3⟩ := ih h
          obtain ⟨d1, d2, -⟩ := traceQueue_complete fuel h
          refine ⟨D, by rw [h1, a4], fun x hx => ?_, fun _ hD => ?_⟩
          · obtain ⟨b', hb', rs, e1, e2⟩ := h2 x hx
            rcases a3 b' hb' with hb' | ⟨r, hm, hx⟩
            · exact ⟨b', List.mem_cons_of_mem _ hb', rs, e1, e2⟩
            · obtain ⟨e3, e4⟩ := useRule_some.mp hx
              refine ⟨b, by simp, r :: rs, by rw [e1, e4]; simp, .go ?_ e2⟩
              rw [hst] at e3 ⊢
              exact applyQuiet_move hr hm e3
          · obtain ⟨x, c, -, e1, e2, e3⟩ := c4 r0 (by simp)
            cases c with
            | true => exact .inl (List.ne_nil_of_mem (d1 x (e1 rfl)))
            | false =>
              by_cases he : x.stack = []
              · exact .inr (List.ne_nil_of_mem (d2 x (e2 rfl he)))
              · exact h3 (List.ne_nil_of_mem (e3 rfl he)) hD

theorem traceEach_dead (fuel : Nat) (L : List Branch) {o o' : Traced} (h : traceEach g upper tok fuel L o = .done o') :
    (∀ x ∈ o.next, x ∈ o'.next) ∧ (∀ x ∈ o.left, x ∈ o'.left) ∧
    ∃ D, o'.dead = o.dead ++ D ∧ (∀ x ∈ D, ∃ b ∈ L, From (Stuck g upper tok) b x) ∧ (L ≠ [] → D = [] → o'.next ≠ [] ∨ o'.left ≠ []) := by
  induction L generalizing o with
  | nil =>
    cases h
    exact ⟨fun x hx => hx, fun x hx => hx, [], by simp, by simp, by simp⟩
  | cons b L ih =>
    rw [traceEach, bindRun_done] at h
    obtain ⟨o1, h1, h⟩ := h
    obtain ⟨D1, a1, a2, a3⟩ := traceQueue_dead fuel h1
    obtain ⟨c1, c2, -⟩ := traceQueue_complete fuel h1
    obtain ⟨d1, d2, D2, b1, b2, -⟩ := ih h
    refine ⟨fun x hx => d1 x (c1 x hx), fun x hx => d2 x (c2 x hx), D1 ++ D2, by rw [b1, a1]; simp, fun x hx => ?_, fun _ hD => ?_⟩
    · rcases List.mem_append.1 hx with hx | hx
      · obtain ⟨b', e1, e2⟩ := a2 x hx
        rw [List.mem_singleton] at e1
        exact ⟨b', by simp [e1], e2⟩
      · obtain ⟨b', e1, e2⟩ := b2 x hx
        exact ⟨b', List.mem_cons_of_mem _ e1, e2⟩
    · have hD1 : D1 = [] := (List.append_eq_nil_iff.1 hD).1
      rcases a3 (by simp) hD1 with e | e
      · obtain ⟨x, hx⟩ := List.exists_mem_of_ne_nil _ e
        exact .inl (List.ne_nil_of_mem (d1 x hx))
      · obtain ⟨x, hx⟩ := List.exists_mem_of_ne_nil _ e
        exact .inr (List.ne_nil_of_mem (d2 x hx))

/-- Results of a round: exactly the variants of its branches. -/
theorem traceEach_spec (fuel : Nat) (L : List Branch) {o o' : Traced} (h : traceEach g upper tok fuel L o = .done o') :
    ((∀ x ∈ o'.next, x ∈ o.next ∨ ∃ b ∈ L, From (fun st rs => Takes g upper tok st rs (statesOf x.stack)) b x) ∧
     (∀ x ∈ o'.left, x ∈ o.left ∨ ∃ b ∈ L, From (Leaves g upper tok) b x) ∧
     (∀ x ∈ o'.dead, x ∈ o.dead ∨ ∃ b ∈ L, From (Legal g upper [tok]) b x)) ∧
    (∀ x ∈ o.next, x ∈ o'.next) ∧ (∀ x ∈ o.left, x ∈ o'.left) ∧
    (∀ b ∈ L, ∀ rs st, Takes g upper tok (statesOf b.stack) rs st →
      ∃ x ∈ o'.next, x.rules = b.rules ++ rs ∧ statesOf x.stack = st) ∧
    (∀ b ∈ L, ∀ rs, Leaves g upper tok (statesOf b.stack) rs → ∃ x ∈ o'.left, x.rules = b.rules ++ rs) := by
  induction L generalizing o with
  | nil =>
    cases h
    exact ⟨⟨fun x hx => .inl hx, fun x hx => .inl hx, fun x hx => .inl hx⟩, fun x hx => hx, fun x hx => hx,
      fun b hb => (by cases hb), fun b hb => (by cases hb)⟩
  | cons b L ih =>
    rw [traceEach, bindRun_done] at h
    obtain ⟨o1, h1, h⟩ := h
    obtain ⟨s1, s2, s3⟩ := traceQueue_sound fuel h1
    obtain ⟨c1, c2, c3, c4⟩ := traceQueue_complete fuel h1
    obtain ⟨⟨t1, t2, t3⟩, d1, d2, d3, d4⟩ := ih h
    have up : ∀ {P : Branch → Prop}, (∃ b ∈ L, P b) → ∃ b' ∈ b :: L, P b' := by
      rintro P ⟨b', h1, h2⟩
      exact ⟨b', List.mem_cons_of_mem _ h1, h2⟩
    have up1 : ∀ {P : Branch → Prop}, (∃ b' ∈ [b], P b') → ∃ b' ∈ b :: L, P b' := by
      rintro P ⟨b', h1, h2⟩
      rw [List.mem_singleton] at h1
      exact ⟨b', by simp [h1], h2⟩
    refine ⟨⟨fun x hx => ?_, fun x hx => ?_, fun x hx => ?_⟩, fun x hx => d1 x (c1 x hx), fun x hx => d2 x (c2 x hx), ?_, ?_⟩
    · rcases t1 x hx with hx | hx
      · exact (s1 x hx).imp id up1
      · exact .inr (up hx)
    · rcases t2 x hx with hx | hx
      · exact (s2 x hx).imp id up1
      · exact .inr (up hx)
    · rcases t3 x hx with hx | hx
      · exact (s3 x hx).imp id up1
      · exact .inr (up hx)
    · intro b' hb' rs st ht
      rcases List.mem_cons.mp hb' with rfl | hb'
      · obtain ⟨x, e1, e2⟩ := c3 b' (by simp) rs st ht
        exact ⟨x, d1 x e1, e2⟩
      · exact d3 b' hb' rs st ht
    · intro b' hb' rs ht
      rcases List.mem_cons.mp hb' with rfl | hb'
      · obtain ⟨x, e1, e2⟩ := c4 b' (by simp) rs ht
        exact ⟨x, d2 x e1, e2⟩
      · exact d4 b' hb' rs ht

theorem takesAll_snoc {ts : List (Option Token)} {st : List Int} {rs : List Rule} {st1 : List Int} {rs' : List Rule}
    {st' : List Int} (h : TakesAll g upper ts st rs st1) (h2 : Takes g upper tok st1 rs' st') :
    TakesAll g upper (ts ++ [tok]) st (rs ++ rs') st' := by
  induction h with
  | nil => simpa using TakesAll.cons h2 .nil
  | cons h1 _ ih => rw [List.append_assoc]; exact .cons h1 (ih h2)

theorem takesAll_split {ts : List (Option Token)} {st : List Int} {rs : List Rule} {st' : List Int}
    (h : TakesAll g upper (ts ++ [tok]) st rs st') :
    ∃ rs1 st1 rs2, TakesAll g upper ts st rs1 st1 ∧ Takes g upper tok st1 rs2 st' ∧ rs = rs1 ++ rs2 := by
  induction ts generalizing st rs with
  | nil =>
    cases h with
    | cons h1 h2 => cases h2; exact ⟨[], st, _, .nil, h1, by simp⟩
  | cons t ts ih =>
    cases h with
    | cons h1 h2 =>
      obtain ⟨rs1, st1, rs2, e1, e2, rfl⟩ := ih h2
      exact ⟨_, st1, rs2, .cons h1 e1, e2, by simp⟩

theorem legal_more {ts : List (Option Token)} {st : List Int} {rs : List Rule} (h : Legal g upper ts st rs)
    (more : List (Option Token)) : Legal g upper (ts ++ more) st rs := by
  induction h with
  | nil => exact .nil
  | use hm _ ih => exact .use hm ih
  | go hm _ ih => exact .go hm ih

theorem takes_legal {ts : List (Option Token)} {st : List Int} {rs rs' : List Rule} {st' : List Int}
    (h : Takes g upper tok st rs st') (h2 : Legal g upper ts st' rs') : Legal g upper (tok :: ts) st (rs ++ rs') := by
  induction h with
  | use hm => exact .use hm h2
  | go hm _ ih => exact .go hm (ih h2)

theorem takesAll_legal {ts ts' : List (Option Token)} {st : List Int} {rs rs' : List Rule} {st' : List Int}
    (h : TakesAll g upper ts st rs st') (h2 : Legal g upper ts' st' rs') : Legal g upper (ts ++ ts') st (rs ++ rs') := by
  induction h with
  | nil => exact h2
  | cons h1 _ ih => rw [List.append_assoc]; exact takes_legal h1 (ih h2)

theorem leaves_legal {st : List Int} {rs : List Rule} (h : Leaves g upper tok st rs) : Legal g upper [tok] st rs := by
  induction h with
  | now => exact .nil
  | go hm _ ih => exact .go hm ih

/-- What is known after the tokens `ts` are traced: surviving branches are exactly the variants of using the tokens. -/
structure Traces (g : Grammar) (upper : List Nat → List Nat) (start : List Int) (ts : List (Option Token)) (o : Traced) : Prop where
  sound : ∀ x ∈ o.next, TakesAll g upper ts start x.rules (statesOf x.stack)
  complete : ∀ rs st, TakesAll g upper ts start rs st → ∃ x ∈ o.next, x.rules = rs ∧ statesOf x.stack = st
  dead : ∀ x ∈ o.dead, Legal g upper ts start x.rules

theorem traces_start (b : Branch) (h : b.rules = []) : Traces g upper (statesOf b.stack) [] { next := [b] } := by
  refine ⟨fun x hx => ?_, fun rs st ht => ?_, fun x hx => by cases hx⟩
  · rw [List.mem_singleton] at hx
    subst hx
    rw [h]
    exact .nil
  · cases ht
    exact ⟨b, by simp, h, rfl⟩

theorem traces_step {start : List Int} {ts : List (Option Token)} {o o' : Traced} {fuel : Nat}
    (ht : Traces g upper start ts o) (h : traceEach g upper tok fuel o.next { dead := o.dead } = .done o') :
    Traces g upper start (ts ++ [tok]) o' ∧
    (∀ x ∈ o'.left, ∃ rs1 st rs2, TakesAll g upper ts start rs1 st ∧ Leaves g upper tok st rs2 ∧ x.rules = rs1 ++ rs2) ∧
    (∀ rs1 st rs2, TakesAll g upper ts start rs1 st → Leaves g upper tok st rs2 → ∃ x ∈ o'.left, x.rules = rs1 ++ rs2) ∧
    (o.next ≠ [] → o'.next = [] → o'.left = [] → ∀ x, o'.dead.getLast? = some x →
      ∃ rs1 st rs2, TakesAll g upper ts start rs1 st ∧ Stuck g upper tok st rs2 ∧ x.rules = rs1 ++ rs2) := by
  obtain ⟨⟨s1, s2, s3⟩, -, -, c1, c2⟩ := traceEach_spec fuel _ h
  refine ⟨⟨fun x hx => ?_, fun rs st hta => ?_, fun x hx => ?_⟩, fun x hx => ?_, fun rs1 st rs2 h1 h2 => ?_, fun h0 h1 h2 x hx => ?_⟩
  rotate_right
  · obtain ⟨-, -, D, d1, d2, d3⟩ := traceEach_dead fuel _ h
    have hD : D ≠ [] := by
      intro hD
      rcases d3 h0 hD with e | e
      · exact e h1
      · exact e h2
    rw [d1, List.getLast?_append_of_ne_nil _ hD] at hx
    obtain ⟨b, hb, rs, e1, e2⟩ := d2 x (List.mem_of_mem_getLast? hx)
    exact ⟨_, _, rs, ht.sound b hb, e2, e1⟩
  · rcases s1 x hx with hx | ⟨b, hb, rs, e1, e2⟩
    · cases hx
    · rw [e1]
      exact takesAll_snoc (ht.sound b hb) e2
  · obtain ⟨rs1, st1, rs2, e1, e2, rfl⟩ := takesAll_split hta
    obtain ⟨b, hb, f1, f2⟩ := ht.complete _ _ e1
    obtain ⟨x, hx, f3, f4⟩ := c1 b hb rs2 st (by rw [f2]; exact e2)
    exact ⟨x, hx, by rw [f3, f1], f4⟩
  · rcases s3 x hx with hx | ⟨b, hb, rs, e1, e2⟩
    · exact legal_more (ht.dead x hx) _
    · rw [e1]
      exact takesAll_legal (ht.sound b hb) e2
  · rcases s2 x hx with hx | ⟨b, hb, rs, e1, e2⟩
    · cases hx
    · exact ⟨_, _, rs, ht.sound b hb, e2, e1⟩
  · obtain ⟨b, hb, f1, f2⟩ := ht.complete _ _ h1
    obtain ⟨x, hx, f3⟩ := c2 b hb rs2 (by rw [f2]; exact h2)
    exact ⟨x, hx, by rw [f3, f1]⟩

/-- Result of a lookahead: the chosen rules use all the tokens if that is possible; otherwise they leave the node after all
but the last one if that is possible; in any case they can be used. -/
structure Chosen (g : Grammar) (upper : List Nat → List Nat) (start : List Int) (tokens : List (Option Token)) (rules : List Rule) :
    Prop where
  legal : Legal g upper tokens start rules
  taken : (∃ rs st, TakesAll g upper tokens start rs st) → ∃ st, TakesAll g upper tokens start rules st
  left : (¬ ∃ rs st, TakesAll g upper tokens start rs st) → ∀ ts last, tokens = ts ++ [last] →
    (∃ rs1 st rs2, TakesAll g upper ts start rs1 st ∧ Leaves g upper last st rs2) →
    ∃ rs1 st rs2, TakesAll g upper ts start rs1 st ∧ Leaves g upper last st rs2 ∧ rules = rs1 ++ rs2
  shape : ∃ ts last, tokens = ts ++ [last] ∧ ((∃ st, TakesAll g upper tokens start rules st) ∨
    ∃ rs1 st rs2, TakesAll g upper ts start rs1 st ∧ rules = rs1 ++ rs2 ∧ (Leaves g upper last st rs2 ∨ Stuck g upper last st rs2))

theorem chosen_of {rc : RC} {start : List Int} {ts : List (Option Token)} {o : Traced} {rules : List Rule}
    (hsim : Sim rc [] [] o []) (ht : Traces g upper start (ts ++ [tok]) o)
    (hl : ∀ x ∈ o.left, ∃ rs1 st rs2, TakesAll g upper ts start rs1 st ∧ Leaves g upper tok st rs2 ∧ x.rules = rs1 ++ rs2)
    (hl2 : ∀ rs1 st rs2, TakesAll g upper ts start rs1 st → Leaves g upper tok st rs2 → ∃ x ∈ o.left, x.rules = rs1 ++ rs2)
    (hl3 : o.next = [] → o.left = [] → ∀ x, o.dead.getLast? = some x →
      ∃ rs1 st rs2, TakesAll g upper ts start rs1 st ∧ Stuck g upper tok st rs2 ∧ x.rules = rs1 ++ rs2)
    (h : rc.chosen = some rules) : Chosen g upper start (ts ++ [tok]) rules := by
  obtain ⟨b, rfl, hb⟩ := chosen_sim hsim h
  have hnone : o.next = [] → ¬ ∃ rs st, TakesAll g upper (ts ++ [tok]) start rs st := by
    rintro hn ⟨rs, st, hta⟩
    obtain ⟨x, hx, -⟩ := ht.complete _ _ hta
    rw [hn] at hx
    cases hx
  rcases hb with hb | ⟨hn, hb⟩ | ⟨hn, hle, hb⟩
  · have hm : b ∈ o.next := List.mem_of_mem_head? hb
    have hta := ht.sound b hm
    refine ⟨?_, fun _ => ⟨_, hta⟩, fun hno => absurd ⟨_, _, hta⟩ hno, _, _, rfl, .inl ⟨_, hta⟩⟩
    simpa using takesAll_legal hta (Legal.nil (ts := []))
  · obtain ⟨rs1, st, rs2, e1, e2, e3⟩ := hl b (List.mem_of_mem_getLast? hb)
    refine ⟨?_, fun hy => absurd hy (hnone hn), ?_, _, _, rfl, .inr ⟨rs1, st, rs2, e1, e3, .inl e2⟩⟩
    · rw [e3]
      exact takesAll_legal e1 (leaves_legal e2)
    · intro _ ts' last hts _
      obtain ⟨rfl, hh⟩ := List.append_inj' hts rfl
      cases hh
      exact ⟨rs1, st, rs2, e1, e2, e3⟩
  · obtain ⟨rs1, st, rs2, e1, e2, e3⟩ := hl3 hn hle b hb
    refine ⟨ht.dead b (List.mem_of_mem_getLast? hb), fun hy => absurd hy (hnone hn), ?_, _, _, rfl, .inr ⟨rs1, st, rs2, e1, e3, .inr e2⟩⟩
    rintro _ ts' last hts ⟨rs1, st, rs2, e1, e2⟩
    obtain ⟨rfl, hh⟩ := List.append_inj' hts rfl
    cases hh
    obtain ⟨x, hx, -⟩ := hl2 _ _ _ e1 e2
    rw [hle] at hx
    cases hx

/-- Why the lookahead stopped. -/
def Stopped (env : PEnv σ) (start : List Int) (tokens : List (Option Token)) : Prop :=
  (∀ rs st rs' st', TakesAll env.g env.upper tokens start rs st → TakesAll env.g env.upper tokens start rs' st' →
    rs = rs' ∧ st = st') ∨
  ∃ types : TokenTypeSet, types = 0 ∨ ∃ fuel pc pc' e, nextToken env fuel pc types = .done (pc', .error e)

theorem nextLoop_fed {env : PEnv σ} {P : Option Token → Prop} (hP : Feeds env P) {types : TokenTypeSet} (fuel : Nat) {pc pc' : PC σ}
    {tok : Option Token} (h : nextLoop env types fuel pc = .done (pc', .ok tok)) : P tok ∧ pc'.tokens = pc.tokens := by
  induction fuel generalizing pc with
  | zero => simp [nextLoop] at h
  | succ fuel ih =>
    rw [nextLoop, bindRun_done] at h
    obtain ⟨⟨src, r⟩, h1, h⟩ := h
    cases r with
    | error e => cases h
    | ok t =>
      dsimp only at h
      split at h
      · have := ih h
        exact this
      · rename_i hn
        cases h
        rw [not_or] at hn
        exact ⟨hP _ _ _ _ h1 hn.1 hn.2, rfl⟩

theorem nextToken_fed {env : PEnv σ} {P : Option Token → Prop} (hP : Feeds env P) {types : TokenTypeSet} {fuel : Nat} {pc pc' : PC σ}
    {tok : Option Token} (hpc : ∀ t ∈ pc.tokens, P t) (h : nextToken env fuel pc types = .done (pc', .ok tok)) :
    P tok ∧ ∀ t ∈ pc'.tokens, P t := by
  rw [nextToken.eq_def] at h
  split at h
  · rename_i t ts hts
    cases h
    rw [hts] at hpc
    exact ⟨hpc _ (by simp), fun t ht => hpc t (by simp [ht])⟩
  · rename_i hts
    obtain ⟨h1, h2⟩ := nextLoop_fed hP fuel h
    exact ⟨h1, by rw [h2]; exact hpc⟩

theorem nextLoop_left {env : PEnv σ} {types : TokenTypeSet} (fuel : Nat) {pc pc' : PC σ} {r : Except PErr (Option Token)}
    (h : nextLoop env types fuel pc = .done (pc', r)) : pc'.tokens = pc.tokens := by
  induction fuel generalizing pc with
  | zero => simp [nextLoop] at h
  | succ fuel ih =>
    rw [nextLoop, bindRun_done] at h
    obtain ⟨⟨src, q⟩, h1, h⟩ := h
    cases q with
    | error e => cases h; rfl
    | ok t =>
      dsimp only at h
      split at h
      · have := ih h
        exact this
      · cases h; rfl

theorem nextToken_left {env : PEnv σ} {types : TokenTypeSet} {fuel : Nat} {pc pc' : PC σ} {r : Except PErr (Option Token)}
    (h : nextToken env fuel pc types = .done (pc', r)) : ∀ t ∈ pc'.tokens, t ∈ pc.tokens := by
  rw [nextToken.eq_def] at h
  split at h
  · rename_i t ts hts
    cases h
    rw [hts]
    intro t ht
    exact List.mem_cons_of_mem _ ht
  · rw [nextLoop_left fuel h]
    exact fun t ht => ht

theorem conflictLoop_chosen_on {env : PEnv σ} {P : Option Token → Prop} (hP : Feeds env P) (fuel : Nat) {start : Branch} {pc pc' : PC σ} {tok0 tok : Option Token}
    {ts tokens : List (Option Token)} {rc : RC} {o : Traced} {rules : List Rule}
    (hfit : ∀ ts L dead fuel tok, (ts ≠ [] → ts.head? = some tok0) → (∀ t ∈ ts, P t) → P tok → Rounds env.g env.upper start ts L →
      Fits env.g env.upper tok fuel 0 L { dead := dead })
    (h0 : (ts ++ [tok]).head? = some tok0) (hts : ∀ t ∈ ts, P t) (htok : P tok) (hpc : ∀ t ∈ pc.tokens, P t)
    (hsim : Sim rc [] [] o []) (hne : o.next ≠ []) (hr : Rounds env.g env.upper start ts o.next)
    (ht : Traces env.g env.upper (statesOf start.stack) ts o)
    (h : conflictLoop env fuel pc tok ts rc = .done (pc', tokens, rules)) :
    Chosen env.g env.upper (statesOf start.stack) tokens rules ∧ Stopped env (statesOf start.stack) tokens ∧
      (∀ t ∈ tokens, P t) ∧ ∀ t ∈ pc'.tokens, P t := by
  induction fuel generalizing pc tok ts rc o with
  | zero => simp [conflictLoop] at h
  | succ fuel ih =>
    rw [conflictLoop, bindRun_done] at h
    obtain ⟨rc1, h1, h⟩ := h
    obtain ⟨o1, h2, hsim1⟩ := round_sim hsim (hfit _ _ _ _ _ (fun hne => by
      cases ts with
      | nil => exact absurd rfl hne
      | cons t ts => simpa using h0) hts htok hr) h1
    obtain ⟨ht1, hl, hl2, hl3⟩ := traces_step ht h2
    have hts1 : ∀ t ∈ ts ++ [tok], P t := by
      intro t ht
      rcases List.mem_append.mp ht with ht | ht
      · exact hts t ht
      · rw [List.mem_singleton.mp ht]; exact htok
    dsimp only at h
    have fin : ∀ {pc1 : PC σ}, (orPanic rc1.chosen fun rules => Run.done (pc1, ts ++ [tok], rules)) = .done (pc', tokens, rules) →
        tokens = ts ++ [tok] ∧ pc' = pc1 ∧ Chosen env.g env.upper (statesOf start.stack) tokens rules := by
      intro pc1 h
      obtain ⟨_, hc, h⟩ := orPanic_done.mp h
      cases h
      exact ⟨rfl, rfl, chosen_of hsim1 ht1 hl hl2 (hl3 hne) hc⟩
    split at h
    · rename_i hlen
      obtain ⟨rfl, rfl, hc⟩ := fin h
      refine ⟨hc, .inl ?_, hts1, hpc⟩
      intro rs st rs' st' e1 e2
      obtain ⟨x, hx, f1, f2⟩ := ht1.complete _ _ e1
      obtain ⟨y, hy, f3, f4⟩ := ht1.complete _ _ e2
      have hle : o1.next.length ≤ 1 := by rw [sim_len hsim1]; exact hlen
      have : x = y := by
        match hn : o1.next, hx, hy, hle with
        | [a], hx, hy, _ =>
          rw [List.mem_singleton] at hx hy
          rw [hx, hy]
      subst this
      exact ⟨f1.symm.trans f3, f2.symm.trans f4⟩
    · split at h
      · rename_i hz
        obtain ⟨rfl, rfl, hc⟩ := fin h
        exact ⟨hc, .inr ⟨_, .inl hz⟩, hts1, hpc⟩
      · rw [bindRun_done] at h
        obtain ⟨⟨pc1, r⟩, h3, h⟩ := h
        cases r with
        | error e =>
          obtain ⟨rfl, rfl, hc⟩ := fin h
          exact ⟨hc, .inr ⟨_, .inr ⟨_, _, _, _, h3⟩⟩, hts1, fun t ht => hpc t (nextToken_left h3 t ht)⟩
        | ok tok' =>
          obtain ⟨k1, k2⟩ := nextToken_fed hP hpc h3
          refine ih (by simpa using h0) hts1 k1 k2 hsim1 ?_ (.step hr h2) ht1 h
          rename_i hlen _
          intro he
          rw [← sim_len hsim1, he] at hlen
          simp at hlen

end Verif.Proof
