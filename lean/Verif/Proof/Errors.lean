/-
Lemmas about errors: a parse without lookahead returns the first error of the token pipeline.
-/
import Verif.Spec.Strict
import Verif.Proof.Parse
import Verif.Proof.Sound

namespace Verif.Proof

open Verif.Model Verif.Spec
open Verif.Model.Tree (bindRun)

variable {σ η : Type}

/-- The error, if any, is an allowed one unless it does not come from hooks. -/
def Allowed {α : Type} (allowed : Nat → Bool) (r : Except PErr α) : Prop := ∀ e, r = .error (.hook e) → allowed e = true

/-! ### Pipeline -/

theorem strict_run (allowed : Nat → Bool) (env : TEnv η) (fuel : Nat) (qs : List (List Token)) (p : HookProg η) (tc : TC)
    (r : TC × η × Except PErr (Bool × List Token)) (h : p.run env fuel qs tc = .done r) (ha : Allowed allowed r.2.2) :
    (strictProg allowed p).run env fuel qs tc = .done r := by
  induction p generalizing tc with
  | ret st emit extra => exact h
  | fail st e =>
    simp only [HookProg.run] at h
    cases h
    have : allowed e = true := ha e rfl
    simp [strictProg, this, HookProg.run]
  | crash => exact h
  | peek k ih =>
    simp only [HookProg.run, strictProg] at h ⊢
    obtain ⟨x, h1, h2⟩ := bindRun_done.1 h
    rw [h1]
    exact ih _ _ h2
  | read k ih =>
    simp only [HookProg.run, strictProg] at h ⊢
    exact ih _ _ _ h
  | call c k ih =>
    simp only [HookProg.run, strictProg] at h ⊢
    obtain ⟨x, h1, h2⟩ := orPanic_done.1 h
    rw [h1]
    exact ih _ h2

theorem index_map {α β : Type} (f : α → β) (l : List α) (i : Int) : Go.index (l.map f) i = (Go.index l i).map f := by
  unfold Go.index
  split <;> simp

theorem strict_pick (allowed : Nat → Bool) (env : TEnv η) (hooks : TokenLayer η) (tok : Token) :
    pickHook env (strictLayer allowed hooks) tok =
      (pickHook env hooks tok).map fun h => h.map fun hook => fun st tok => strictProg allowed (hook st tok) := by
  have key : ∀ l : List Int,
      l.foldr (fun i rest => (Go.index (strictLayer allowed hooks) (i + 3)).bind fun h => match h with
        | some h => some (some h)
        | none => rest) (some none) =
      (l.foldr (fun i rest => (Go.index hooks (i + 3)).bind fun h => match h with
        | some h => some (some h)
        | none => rest) (some none)).map
          fun h => h.map fun hook => fun st tok => strictProg allowed (hook st tok) := by
    intro l
    induction l with
    | nil => rfl
    | cons i l ih =>
      rw [List.foldr_cons, List.foldr_cons, ih, strictLayer, index_map]
      cases Go.index hooks (i + 3) with
      | none => rfl
      | some h => cases h <;> rfl
  have hlen : (strictLayer allowed hooks).length = hooks.length := by simp [strictLayer]
  unfold pickHook
  simp only [hlen]
  split
  · exact key _
  · cases Go.index env.g.tokens tok.type with
    | none => rfl
    | some t => exact key _

theorem strict_handle (allowed : Nat → Bool) (env : TEnv η) (fuel : Nat) (hooks : TokenLayer η) (qs : List (List Token))
    (ps : PState η) (tok : Option Token) (r : PState η × Except PErr (Bool × List Token))
    (h : handleToken env fuel hooks qs ps tok = .done r) (ha : Allowed allowed r.2) :
    handleToken env fuel (strictLayer allowed hooks) qs ps tok = .done r := by
  unfold handleToken at h ⊢
  cases tok with
  | none => exact h
  | some tok =>
    simp only at h ⊢
    rw [strict_pick]
    obtain ⟨hook, h1, h2⟩ := orPanic_done.1 h
    rw [h1]
    cases hook with
    | none => exact h2
    | some hook =>
      simp only [Option.map_some, orPanic] at h2 ⊢
      obtain ⟨x, h3, h4⟩ := bindRun_done.1 h2
      have hx : Allowed allowed x.2.2 := by
        intro e he
        obtain ⟨src, h5, h6⟩ := orPanic_done.1 h4
        cases h6
        exact ha e (by simp [he, Except.map])
      rw [strict_run allowed env fuel qs _ _ x h3 hx]
      exact h4

theorem strict_loop (allowed : Nat → Bool) (env : TEnv η) (fuel0 : Nat) (hooks : TokenLayer η)
    (lower lower' : LState η → Run (LState η × Except PErr (Option Token)))
    (hl : ∀ ls r, lower ls = .done r → Allowed allowed r.2 → lower' ls = .done r)
    (fuel : Nat) (q : List Token) (ls : LState η) (r : LState η × Except PErr (Option Token))
    (h : hookLoop env fuel0 hooks lower fuel q ls = .done r) (ha : Allowed allowed r.2) :
    hookLoop env fuel0 (strictLayer allowed hooks) lower' fuel q ls = .done r := by
  induction fuel generalizing q ls with
  | zero => cases h
  | succ fuel ih =>
    rw [hookLoop] at h ⊢
    obtain ⟨⟨ls1, x⟩, h1, h2⟩ := bindRun_done.1 h
    cases x with
    | error e =>
      cases h2
      rw [hl _ _ h1 (fun e' he => ha e' (by cases he; rfl))]
      rfl
    | ok tok =>
      rw [hl _ _ h1 (fun e' he => by cases he)]
      simp only [bindRun] at h2 ⊢
      obtain ⟨⟨ps, y⟩, h3, h4⟩ := bindRun_done.1 h2
      cases y with
      | error e =>
        cases h4
        rw [strict_handle allowed env fuel0 hooks _ _ _ _ h3 (fun e' he => ha e' (by cases he; rfl))]
      | ok y =>
        rw [strict_handle allowed env fuel0 hooks _ _ _ _ h3 (fun e' he => by cases he)]
        obtain ⟨emit, extra⟩ := y
        simp only at h4 ⊢
        cases h5 : appendExtra env.g q extra with
        | error e => rw [h5] at h4; exact h4
        | ok q' =>
          rw [h5] at h4
          simp only at h4 ⊢
          split at h4
          · rename_i hem
            rw [if_pos hem]
            exact h4
          · rename_i hem
            rw [if_neg hem]
            cases q' with
            | cons t q' => exact h4
            | nil => exact ih _ _ h4

theorem strict_pull (allowed : Nat → Bool) (env : TEnv η) (fuel : Nat) (types : TokenTypeSet) (layers : List (TokenLayer η))
    (ls : LState η) (r : LState η × Except PErr (Option Token))
    (h : pullToken env fuel types layers ls = .done r) (ha : Allowed allowed r.2) :
    pullToken env fuel types (layers.map (strictLayer allowed)) ls = .done r := by
  induction layers generalizing ls r with
  | nil => exact h
  | cons hooks layers ih =>
    rw [List.map_cons]
    rw [pullToken] at h ⊢
    split at h
    · cases h
    · exact h
    · exact strict_loop allowed env fuel hooks _ _ ih _ _ _ _ h ha

/-! ### Parser -/

section

variable (env : PEnv σ) (pull : σ → TokenTypeSet → Run (σ × Except PErr (Option Token)))

theorem send_pull (es log : List Event) : send { env with pull := pull } es log = send env es log := by
  induction es generalizing log with
  | nil => rfl
  | cons e es ih => simp only [send, ih]

theorem makeHooks_pull (index : Nat) (tok : Option Token) (ls : List Nat) (log : List Event) :
    makeHooks { env with pull := pull } index tok ls log = makeHooks env index tok ls log := by
  induction ls generalizing log with
  | nil => rfl
  | cons l ls ih => simp only [makeHooks, ih]

theorem endHooks_pull (hs : List (Option Nat × Nat)) (log : List Event) (last : Option Nat) :
    endHooks { env with pull := pull } hs log last = endHooks env hs log last := by
  induction hs generalizing log last with
  | nil => rfl
  | cons h hs ih =>
    obtain ⟨h, l⟩ := h
    cases h <;> simp only [endHooks, ih]

theorem popLoop_pull (sides : List Token) (stack : List NodeRec) (log : List Event) (last : Option Nat) :
    popLoop { env with pull := pull } sides stack log last = popLoop env sides stack log last := by
  induction stack generalizing log last with
  | nil => rfl
  | cons node rest ih =>
    cases rest with
    | nil =>
      rw [popLoop, popLoop]
      simp only [send_pull, endHooks_pull]
    | cons parent rest =>
      rw [popLoop, popLoop]
      simp only [send_pull, endHooks_pull, ih]

theorem addNode_pull (pc : PC σ) (index : Nat) (tok : Option Token) (stack : List NodeRec) (log : List Event) :
    addNode { env with pull := pull } pc index tok stack log = addNode env pc index tok stack log := by
  simp only [addNode, makeHooks_pull]

theorem pushNode_pull (pc : PC σ) (index : Nat) (tok : Option Token) :
    pushNode { env with pull := pull } pc index tok = pushNode env pc index tok := by
  simp only [pushNode, addNode_pull, send_pull]

theorem popNode_pull (pc : PC σ) : popNode { env with pull := pull } pc = popNode env pc := by
  simp only [popNode, popLoop_pull]

theorem handleNodeToken_pull (pc : PC σ) (tok : Option Token) :
    handleNodeToken { env with pull := pull } pc tok = handleNodeToken env pc tok := by
  simp only [handleNodeToken, send_pull]

theorem applyRule_pull (pc : PC σ) (tok : Option Token) (rule : Rule) :
    applyRule { env with pull := pull } pc tok rule = applyRule env pc tok rule := by
  simp only [applyRule, pushNode_pull, popNode_pull, handleNodeToken_pull]

end

/-- Pulls of both pipelines agree unless they end with an error that is not allowed. -/
def Agree (allowed : Nat → Bool) (pull pull' : σ → TokenTypeSet → Run (σ × Except PErr (Option Token))) : Prop :=
  ∀ s types r, pull s types = .done r → Allowed allowed r.2 → pull' s types = .done r

variable {env : PEnv σ} {pull : σ → TokenTypeSet → Run (σ × Except PErr (Option Token))} {allowed : Nat → Bool}

theorem nextLoop_agree (hp : Agree allowed env.pull pull) (types : TokenTypeSet) (fuel : Nat) (pc : PC σ)
    (r : PC σ × Except PErr (Option Token)) (h : nextLoop env types fuel pc = .done r) (ha : Allowed allowed r.2) :
    nextLoop { env with pull := pull } types fuel pc = .done r := by
  induction fuel generalizing pc with
  | zero => cases h
  | succ fuel ih =>
    rw [nextLoop] at h ⊢
    obtain ⟨⟨src, x⟩, h1, h2⟩ := bindRun_done.1 h
    cases x with
    | error e =>
      cases h2
      simp only
      rw [hp _ _ _ h1 (fun e' he => ha e' (by cases he; rfl))]
      rfl
    | ok tok =>
      simp only
      rw [hp _ _ _ h1 (fun e' he => by cases he)]
      simp only [bindRun] at h2 ⊢
      split at h2
      · rename_i hc
        rw [if_pos hc]
        exact ih _ h2
      · rename_i hc
        rw [if_neg hc]
        exact h2

theorem nextToken_agree (hp : Agree allowed env.pull pull) (fuel : Nat) (pc : PC σ) (types : TokenTypeSet)
    (r : PC σ × Except PErr (Option Token)) (h : nextToken env fuel pc types = .done r) (ha : Allowed allowed r.2) :
    nextToken { env with pull := pull } fuel pc types = .done r := by
  unfold nextToken at h ⊢
  cases hpt : pc.tokens with
  | nil => rw [hpt] at h; exact nextLoop_agree hp types fuel pc r h ha
  | cons t ts => rw [hpt] at h; exact h

theorem nextRule_agree (hm : env.g.tables.multi = []) (fuel : Nat) (pc : PC σ) (tok : Option Token) (s : Int)
    (r : PC σ × Option Rule) (h : nextRule env fuel pc tok s = .done r) :
    nextRule { env with pull := pull } fuel pc tok s = .done r := by
  unfold nextRule at h ⊢
  cases hap : pc.applied with
  | cons x xs => rw [hap] at h; exact h
  | nil =>
    rw [hap] at h
    simp only at h ⊢
    obtain ⟨rules, h1, h2⟩ := orPanic_done.1 h
    rw [h1]
    have := findRules_single hm h1
    rcases rules with _ | ⟨x, _ | ⟨y, rest⟩⟩
    · exact h2
    · exact h2
    · simp at this

theorem noRule_agree (hp : Agree allowed env.pull pull) (fuel : Nat) (pc : PC σ) (tok : Option Token) (s : Int)
    (r : Except PErr (PC σ × Bool)) (h : noRule env fuel pc tok s = .done r) (ha : Allowed allowed r) :
    noRule { env with pull := pull } fuel pc tok s = .done r := by
  unfold noRule at h ⊢
  cases tok with
  | some t => exact h
  | none =>
    simp only at h ⊢
    obtain ⟨⟨pc', x⟩, h1, h2⟩ := bindRun_done.1 h
    cases x with
    | error e =>
      cases h2
      rw [nextToken_agree hp _ _ _ _ h1 (fun e' he => ha e' (by cases he; rfl))]
      rfl
    | ok tok =>
      rw [nextToken_agree hp _ _ _ _ h1 (fun e' he => by cases he)]
      exact h2

theorem bindRes_done {α β : Type} {x : PRes α} {f : α → PRes β} {r : Except PErr β} :
    bindRes x f = .done r ↔ (∃ a, x = .done (.ok a) ∧ f a = .done r) ∨ ∃ e, x = .done (.error e) ∧ r = .error e := by
  cases x with
  | panic => simp [bindRes]
  | timeout => simp [bindRes]
  | done x =>
    cases x with
    | error e =>
      simp only [bindRes, Run.done.injEq, reduceCtorEq, false_and, exists_false, Except.error.injEq, false_or]
      constructor
      · rintro rfl; exact ⟨e, rfl, rfl⟩
      · rintro ⟨e', rfl, rfl⟩; rfl
    | ok a => simp [bindRes]

theorem inner_agree (hm : env.g.tables.multi = []) (hp : Agree allowed env.pull pull) (fuel : Nat) (pc : PC σ)
    (tok : Option Token) (r : Except PErr (PC σ × Bool)) (h : inner env fuel pc tok = .done r) (ha : Allowed allowed r) :
    inner { env with pull := pull } fuel pc tok = .done r := by
  induction fuel generalizing pc with
  | zero => cases h
  | succ fuel ih =>
    rw [inner] at h ⊢
    cases hs : pc.stack with
    | nil => rw [hs] at h; exact h
    | cons node rest =>
      rw [hs] at h
      simp only at h ⊢
      obtain ⟨⟨pc', x⟩, h1, h2⟩ := bindRun_done.1 h
      rw [nextRule_agree hm _ _ _ _ _ h1]
      cases x with
      | none => exact noRule_agree hp _ _ _ _ _ h2 ha
      | some rule =>
        simp only [bindRun] at h2 ⊢
        rw [applyRule_pull]
        rcases bindRes_done.1 h2 with ⟨a, h3, h4⟩ | ⟨e, h3, h4⟩
        · rw [h3]
          simp only [bindRes]
          split at h4
          · rename_i hc
            rw [if_pos hc]
            exact h4
          · rename_i hc
            rw [if_neg hc]
            exact ih _ h4
        · rw [h3, h4]
          rfl

theorem outer_agree (hm : env.g.tables.multi = []) (hp : Agree allowed env.pull pull) (fuel : Nat) (pc : PC σ)
    (tok : Option Token) (consumed : Bool) (r : Except PErr (PC σ × Option Token × Bool))
    (h : outer env fuel pc tok consumed = .done r) (ha : Allowed allowed r) :
    outer { env with pull := pull } fuel pc tok consumed = .done r := by
  induction fuel generalizing pc tok consumed with
  | zero => cases h
  | succ fuel ih =>
    rw [outer] at h ⊢
    cases hs : pc.stack with
    | nil => rw [hs] at h; exact h
    | cons node rest =>
      rw [hs] at h
      simp only at h ⊢
      obtain ⟨⟨pc', x⟩, h1, h2⟩ := bindRun_done.1 h
      cases x with
      | error e =>
        cases h2
        rw [nextToken_agree hp _ _ _ _ h1 (fun e' he => ha e' (by cases he; rfl))]
        rfl
      | ok tok =>
        rw [nextToken_agree hp _ _ _ _ h1 (fun e' he => by cases he)]
        simp only [bindRun] at h2 ⊢
        rcases bindRes_done.1 h2 with ⟨a, h3, h4⟩ | ⟨e, h3, h4⟩
        · rw [inner_agree hm hp _ _ _ _ h3 (fun e' he => by cases he)]
          exact ih _ _ _ h4
        · subst h4
          rw [inner_agree hm hp _ _ _ _ h3 (fun e' he => ha e' (by cases he; rfl))]
          rfl

theorem restLoop_agree (hp : Agree allowed env.pull pull) (fuel : Nat) (pc : PC σ) (r : Except PErr (PC σ))
    (h : restLoop env fuel pc = .done r) (ha : Allowed allowed r) :
    restLoop { env with pull := pull } fuel pc = .done r := by
  induction fuel generalizing pc with
  | zero => cases h
  | succ fuel ih =>
    rw [restLoop] at h ⊢
    obtain ⟨⟨pc', x⟩, h1, h2⟩ := bindRun_done.1 h
    cases x with
    | error e =>
      cases h2
      rw [nextToken_agree hp _ _ _ _ h1 (fun e' he => ha e' (by cases he; rfl))]
      rfl
    | ok tok =>
      rw [nextToken_agree hp _ _ _ _ h1 (fun e' he => by cases he)]
      cases tok with
      | none => exact h2
      | some t =>
        simp only [bindRun] at h2 ⊢
        split at h2
        · rename_i hc
          rw [if_pos hc]
          exact h2
        · rename_i hc
          rw [if_neg hc]
          split at h2
          · rename_i hc
            rw [if_pos hc]
            exact ih _ h2
          · rename_i hc
            rw [if_neg hc]
            exact h2

theorem parse_agree (hm : env.g.tables.multi = []) (hp : Agree allowed env.pull pull) (fuel : Nat) (src : σ) (pos : SrcPos)
    (r : Except PErr (PC σ)) (h : parse env fuel src pos = .done r) (ha : Allowed allowed r) :
    parse { env with pull := pull } fuel src pos = .done r := by
  unfold parse at h ⊢
  rw [pushNode_pull]
  rcases bindRes_done.1 h with ⟨pc, h1, h2⟩ | ⟨e, h1, h2⟩
  · rw [h1]
    simp only [bindRes]
    unfold parseLoop at h2 ⊢
    rcases bindRes_done.1 h2 with ⟨a, h3, h4⟩ | ⟨e, h3, h4⟩
    · rw [outer_agree hm hp _ _ _ _ _ h3 (fun e' he => by cases he)]
      simp only [bindRes]
      unfold finish at h4 ⊢
      obtain ⟨pc', h5, h6⟩ := bindRun_done.1 h4
      have : putBack { env with pull := pull } a.1 a.2.1 a.2.2 = .done pc' := h5
      rw [this]
      simp only [bindRun]
      split at h6
      · rename_i hc
        rw [if_pos hc]
        exact restLoop_agree hp _ _ _ h6 ha
      · rename_i hc
        rw [if_neg hc]
        exact h6
    · subst h4
      rw [outer_agree hm hp _ _ _ _ _ h3 (fun e' he => ha e' (by cases he; rfl))]
      rfl
  · rw [h1, h2]
    rfl

end Verif.Proof
