/-
Lemmas on the parsing loop.
-/
import Verif.Model.Parser

namespace Verif.Proof

open Verif.Model
open Verif.Model.Tree (bindRun)

variable {σ : Type}

theorem bindRun_done {α β : Type} {x : Run α} {f : α → Run β} {b : β} :
    bindRun x f = .done b ↔ ∃ a, x = .done a ∧ f a = .done b := by
  cases x <;> simp [bindRun]

theorem bindRes_ok {α β : Type} {x : PRes α} {f : α → PRes β} {b : β} :
    bindRes x f = .done (.ok b) ↔ ∃ a, x = .done (.ok a) ∧ f a = .done (.ok b) := by
  rcases x with _ | _ | (_ | _) <;> simp [bindRes]

theorem orPanic_done {α β : Type} {x : Option α} {f : α → Run β} {b : β} :
    orPanic x f = .done b ↔ ∃ a, x = some a ∧ f a = .done b := by
  cases x <;> simp [orPanic]

/-- Token received by `nextToken`. -/
def received : Except PErr (Option Token) → List (Option Token)
  | .ok t => [t]
  | .error _ => []

theorem nextLoop_spec {env : PEnv σ} {types : TokenTypeSet} (fuel : Nat) {pc pc' : PC σ} {r : Except PErr (Option Token)}
    (h : nextLoop env types fuel pc = .done (pc', r)) :
    ∃ src, pc' = { pc with src := src, delivered := pc.delivered ++ received r } := by
  induction fuel generalizing pc with
  | zero => simp [nextLoop] at h
  | succ fuel ih =>
    rw [nextLoop, bindRun_done] at h
    obtain ⟨⟨src, res⟩, -, h⟩ := h
    cases res with
    | error e => cases h; exact ⟨src, by simp [received]⟩
    | ok tok =>
      dsimp only at h
      split at h
      · obtain ⟨src', h⟩ := ih h
        exact ⟨src', h⟩
      · cases h; exact ⟨src, rfl⟩

/-- What `nextToken` does to the context. -/
theorem nextToken_spec {env : PEnv σ} {types : TokenTypeSet} {fuel : Nat} {pc pc' : PC σ} {r : Except PErr (Option Token)}
    (h : nextToken env fuel pc types = .done (pc', r)) :
    ∃ src ts dl, pc' = { pc with src := src, tokens := ts, delivered := pc.delivered ++ dl } ∧
      received r ++ ts = pc.tokens ++ dl := by
  rw [nextToken] at h
  cases ht : pc.tokens with
  | cons t ts =>
    rw [ht] at h; cases h
    exact ⟨pc.src, ts, [], by simp, by simp [received]⟩
  | nil =>
    rw [ht] at h
    obtain ⟨src, h⟩ := nextLoop_spec fuel h
    exact ⟨src, [], received r, by rw [h]; simp [ht], by simp⟩

theorem conflictLoop_spec {env : PEnv σ} (fuel : Nat) {pc pc' : PC σ} {tok : Option Token} {tokens tokens' : List (Option Token)}
    {rc : RC} {rules : List Rule} (h : conflictLoop env fuel pc tok tokens rc = .done (pc', tokens', rules)) :
    ∃ src ts dl more, pc' = { pc with src := src, tokens := ts, delivered := pc.delivered ++ dl } ∧
      tokens' = tokens ++ tok :: more ∧ more ++ ts = pc.tokens ++ dl := by
  induction fuel generalizing pc tok tokens rc with
  | zero => simp [conflictLoop] at h
  | succ fuel ih =>
    rw [conflictLoop, bindRun_done] at h
    obtain ⟨rc', -, h⟩ := h
    dsimp only at h
    have fin : ∀ {pc1 : PC σ}, (orPanic rc'.chosen fun rules => Run.done (pc1, tokens ++ [tok], rules)) = .done (pc', tokens', rules) →
        pc' = pc1 ∧ tokens' = tokens ++ [tok] := by
      intro pc1 h
      obtain ⟨_, -, h⟩ := orPanic_done.mp h
      cases h; exact ⟨rfl, rfl⟩
    split at h
    · obtain ⟨rfl, rfl⟩ := fin h
      exact ⟨pc'.src, pc'.tokens, [], [], by simp, rfl, by simp⟩
    · split at h
      · obtain ⟨rfl, rfl⟩ := fin h
        exact ⟨pc'.src, pc'.tokens, [], [], by simp, rfl, by simp⟩
      · rw [bindRun_done] at h
        obtain ⟨⟨pc1, r⟩, h1, h⟩ := h
        obtain ⟨src, ts, dl, rfl, h2⟩ := nextToken_spec h1
        cases r with
        | error e =>
          obtain ⟨rfl, rfl⟩ := fin h
          exact ⟨src, ts, dl, [], rfl, rfl, by simpa [received] using h2⟩
        | ok tok' =>
          obtain ⟨src', ts', dl', more, h3, h4, h5⟩ := ih h
          refine ⟨src', ts', dl ++ dl', tok' :: more, by rw [h3]; simp, by rw [h4]; simp, ?_⟩
          have h5 : more ++ ts' = ts ++ dl' := h5
          simp only [received, List.cons_append, List.nil_append] at h2
          rw [← List.append_assoc, ← h2]; simp [h5]

/-- What `nextRule` does to the context. -/
theorem nextRule_spec {env : PEnv σ} {fuel : Nat} {pc pc' : PC σ} {tok : Option Token} {s : Int} {r : Option Rule}
    (h : nextRule env fuel pc tok s = .done (pc', r)) :
    ∃ src ap dl, pc' = { pc with src := src, tokens := pc.tokens ++ dl, applied := ap, delivered := pc.delivered ++ dl } := by
  rw [nextRule] at h
  cases ha : pc.applied with
  | cons a as => rw [ha] at h; cases h; exact ⟨pc.src, as, [], by simp⟩
  | nil =>
    rw [ha] at h
    obtain ⟨rules, -, h⟩ := orPanic_done.mp h
    dsimp only at h
    split at h
    · cases h; exact ⟨pc.src, pc.applied, [], by simp⟩
    · cases h; exact ⟨pc.src, pc.applied, [], by simp⟩
    · rw [bindRun_done] at h
      obtain ⟨⟨pc1, toks, rules⟩, h1, h⟩ := h
      rw [resolveConflict] at h1
      obtain ⟨top, -, h1⟩ := orPanic_done.mp h1
      obtain ⟨src, ts, dl, more, rfl, h2, h3⟩ := conflictLoop_spec fuel h1
      obtain ⟨r', -, h⟩ := orPanic_done.mp h
      cases h
      refine ⟨src, rules.drop 1, dl, ?_⟩
      subst h2
      simp [h3]

theorem addNode_spec {env : PEnv σ} {pc pc' : PC σ} {index : Nat} {tok : Option Token} {st : List NodeRec}
    {log : List Event} (h : addNode env pc index tok st log = .done (.ok pc')) :
    ∃ n stack log, pc' = { pc with stack := n :: stack, log := log } := by
  rw [addNode] at h
  split at h
  · cases h
  · obtain ⟨_, -, h⟩ := orPanic_done.mp h
    obtain ⟨_, -, h⟩ := orPanic_done.mp h
    cases h; exact ⟨_, _, _, rfl⟩

theorem pushNode_spec {env : PEnv σ} {pc pc' : PC σ} {index : Nat} {tok : Option Token}
    (h : pushNode env pc index tok = .done (.ok pc')) : ∃ n stack log, pc' = { pc with stack := n :: stack, log := log } := by
  rw [pushNode] at h
  split at h
  · exact addNode_spec h
  · split at h
    · cases h
    · split at h
      · cases h
      · exact addNode_spec h

theorem popNode_spec {env : PEnv σ} {pc pc' : PC σ} (h : popNode env pc = .done (.ok pc')) :
    ∃ stack log last, pc' = { pc with stack := stack, log := log, lastResult := last } := by
  rw [popNode] at h
  split at h
  · cases h
  · split at h
    · cases h
    · cases h; exact ⟨_, _, _, rfl⟩

theorem handleNodeToken_spec {env : PEnv σ} {pc pc' : PC σ} {tok : Option Token}
    (h : handleNodeToken env pc tok = .done (.ok pc')) : ∃ stack log, pc' = { pc with stack := stack, log := log } := by
  rw [handleNodeToken.eq_def] at h
  split at h
  · cases h; exact ⟨_, _, rfl⟩
  · cases h
  · split at h
    · cases h; exact ⟨_, _, rfl⟩
    · split at h
      · cases h
      · cases h; exact ⟨_, _, rfl⟩

/-- What `applyRule` does to the context. -/
theorem applyRule_spec {env : PEnv σ} {pc pc' : PC σ} {tok : Option Token} {rule : Rule} {b : Bool}
    (h : applyRule env pc tok rule = .done (.ok (pc', b))) :
    b = consumes rule tok ∧ ∃ stack log last, pc' =
      { pc with stack := stack, log := log, lastResult := last, steps := pc.steps ++ [(tok, rule)] } := by
  rw [applyRule] at h
  cases hs : pc.stack with
  | nil => rw [hs] at h; cases h
  | cons node rest =>
    rw [hs] at h
    obtain ⟨f, -, h⟩ := orPanic_done.mp h
    dsimp only at h
    rw [bindRes_ok] at h
    obtain ⟨pc1, h1, h⟩ := h
    rw [bindRes_ok] at h
    obtain ⟨pc2, h2, h⟩ := h
    cases h
    refine ⟨rfl, ?_⟩
    have h3 : ∃ stack log, pc1 = { pc with stack := stack, log := log, steps := pc.steps ++ [(tok, rule)] } := by
      split at h1
      · split at h1
        · obtain ⟨_, s, l, rfl⟩ := pushNode_spec h1; exact ⟨_, _, rfl⟩
        · cases h1
      · split at h1
        · obtain ⟨s, l, rfl⟩ := handleNodeToken_spec h1; exact ⟨_, _, rfl⟩
        · cases h1; exact ⟨_, _, rfl⟩
    obtain ⟨s, l, rfl⟩ := h3
    split at h2
    · cases h2
    · split at h2
      · obtain ⟨s, l, la, rfl⟩ := popNode_spec h2; exact ⟨_, _, _, rfl⟩
      · cases h2; exact ⟨_, _, _, rfl⟩

/-- Holds before the token is consumed (`false`) or after that (`true`). -/
def Phase (I : PC σ → Option Token → Prop) (J : PC σ → Prop) (b : Bool) (pc : PC σ) (tok : Option Token) : Prop :=
  if b then J pc else I pc tok

/-- Invariants of the parsing loop: `J` holds when a new token is needed, `I` while a token is being handled. -/
structure LoopInv (env : PEnv σ) (I : PC σ → Option Token → Prop) (J : PC σ → Prop) : Prop where
  token : ∀ {fuel : Nat} {pc pc' : PC σ} {tok : Option Token} {node : NodeRec} {rest : List NodeRec}, J pc →
    pc.stack = node :: rest → nextToken env fuel pc node.types = .done (pc', .ok tok) → I pc' tok
  step : ∀ {fuel : Nat} {pc pc1 pc2 : PC σ} {tok : Option Token} {node : NodeRec} {rest : List NodeRec} {r : Rule} {b : Bool},
    I pc tok → pc.stack = node :: rest → nextRule env fuel pc tok node.state = .done (pc1, some r) →
    applyRule env pc1 tok r = .done (.ok (pc2, b)) → Phase I J b pc2 tok

theorem unexpected_ne {env : PEnv σ} {t : Token} {s : Int} {x : PC σ × Bool} :
    unexpected env s t ≠ .done (.ok x) := by
  intro h
  obtain ⟨_, -, h⟩ := orPanic_done.mp h
  cases h

theorem noRule_ne {env : PEnv σ} {fuel : Nat} {pc : PC σ} {tok : Option Token} {s : Int} {x : PC σ × Bool} :
    noRule env fuel pc tok s ≠ .done (.ok x) := by
  intro h
  cases tok with
  | some t => exact unexpected_ne h
  | none =>
    rw [noRule, bindRun_done] at h
    obtain ⟨⟨pc', r⟩, -, h⟩ := h
    rcases r with _ | (_ | t)
    · cases h
    · cases h
    · exact unexpected_ne h

theorem inner_inv {env : PEnv σ} {I : PC σ → Option Token → Prop} {J : PC σ → Prop} (hinv : LoopInv env I J) (fuel : Nat)
    {pc pc' : PC σ} {tok : Option Token} {b : Bool} (hI : I pc tok) (h : inner env fuel pc tok = .done (.ok (pc', b))) :
    Phase I J b pc' tok ∧ (b = false → pc'.stack = []) := by
  induction fuel generalizing pc with
  | zero => simp [inner] at h
  | succ fuel ih =>
    rw [inner] at h
    cases hs : pc.stack with
    | nil => rw [hs] at h; cases h; exact ⟨hI, fun _ => hs⟩
    | cons node rest =>
      rw [hs] at h
      dsimp only at h
      rw [bindRun_done] at h
      obtain ⟨⟨pc1, r⟩, h1, h⟩ := h
      cases r with
      | none => exact absurd h noRule_ne
      | some rule =>
        dsimp only at h
        rw [bindRes_ok] at h
        obtain ⟨⟨pc2, b2⟩, h2, h⟩ := h
        have h3 := hinv.step hI hs h1 h2
        cases b2 with
        | true => simp only [if_true] at h; cases h; exact ⟨h3, fun h => by cases h⟩
        | false => exact ih h3 h

theorem outer_inv {env : PEnv σ} {I : PC σ → Option Token → Prop} {J : PC σ → Prop} (hinv : LoopInv env I J) (fuel : Nat)
    {pc pc' : PC σ} {tok tok' : Option Token} {b b' : Bool} (hP : Phase I J b pc tok) (hb : b = false → pc.stack = [] ∨ J pc)
    (h : outer env fuel pc tok b = .done (.ok (pc', tok', b'))) :
    pc'.stack = [] ∧ Phase I J b' pc' tok' := by
  induction fuel generalizing pc tok b with
  | zero => simp [outer] at h
  | succ fuel ih =>
    rw [outer] at h
    cases hs : pc.stack with
    | nil => rw [hs] at h; cases h; exact ⟨hs, hP⟩
    | cons node rest =>
      rw [hs] at h
      dsimp only at h
      rw [bindRun_done] at h
      obtain ⟨⟨pc1, r⟩, h1, h⟩ := h
      cases r with
      | error e => cases h
      | ok tok1 =>
        dsimp only at h
        rw [bindRes_ok] at h
        obtain ⟨⟨pc2, b2⟩, h2, h⟩ := h
        have hJ : J pc := by
          cases b with
          | true => exact hP
          | false =>
            rcases hb rfl with h3 | h3
            · rw [hs] at h3; cases h3
            · exact h3
        obtain ⟨h4, h5⟩ := inner_inv hinv fuel (hinv.token hJ hs h1) h2
        exact ih h4 (fun hb => .inl (h5 hb)) h

theorem outer_ok {env : PEnv σ} {I : PC σ → Option Token → Prop} {J : PC σ → Prop} (hinv : LoopInv env I J) {fuel : Nat}
    {pc pc' : PC σ} {tok' : Option Token} {b' : Bool} (hJ : J pc) (hne : pc.stack ≠ [])
    (h : outer env fuel pc none false = .done (.ok (pc', tok', b'))) :
    pc'.stack = [] ∧ Phase I J b' pc' tok' := by
  cases fuel with
  | zero => simp [outer] at h
  | succ fuel =>
    rw [outer] at h
    cases hs : pc.stack with
    | nil => exact absurd hs hne
    | cons node rest =>
      rw [hs] at h
      dsimp only at h
      rw [bindRun_done] at h
      obtain ⟨⟨pc1, r⟩, h1, h⟩ := h
      cases r with
      | error e => cases h
      | ok tok1 =>
        dsimp only at h
        rw [bindRes_ok] at h
        obtain ⟨⟨pc2, b2⟩, h2, h⟩ := h
        obtain ⟨h4, h5⟩ := inner_inv hinv fuel (hinv.token hJ hs h1) h2
        exact outer_inv hinv fuel h4 (fun hb => .inl (h5 hb)) h

theorem restLoop_spec {env : PEnv σ} (fuel : Nat) {pc pc' : PC σ} (h : restLoop env fuel pc = .done (.ok pc')) :
    ∃ src ts dl read, pc' = { pc with src := src, tokens := ts, delivered := pc.delivered ++ dl } ∧
      read ++ ts = pc.tokens ++ dl := by
  induction fuel generalizing pc with
  | zero => simp [restLoop] at h
  | succ fuel ih =>
    rw [restLoop, bindRun_done] at h
    obtain ⟨⟨pc1, r⟩, h1, h⟩ := h
    obtain ⟨src, ts, dl, rfl, h2⟩ := nextToken_spec h1
    rcases r with _ | (_ | t)
    · cases h
    · cases h
    · dsimp only at h
      split at h
      · cases h; exact ⟨src, ts, dl, _, rfl, h2⟩
      · split at h
        · obtain ⟨src', ts', dl', read, rfl, h3⟩ := ih h
          refine ⟨src', ts', dl ++ dl', some t :: read, by simp, ?_⟩
          have h3 : read ++ ts' = ts ++ dl' := h3
          simp only [received, List.cons_append, List.nil_append] at h2
          rw [← List.append_assoc, ← h2]; simp [h3]
        · cases h

theorem putBack_spec {env : PEnv σ} {pc pc' : PC σ} {tok : Option Token} {b : Bool}
    (h : putBack env pc tok b = .done pc') : ∃ src, pc' = { pc with src := src } := by
  rw [putBack.eq_def] at h
  split at h
  · cases h; exact ⟨_, rfl⟩
  · split at h
    · cases h
    · split at h
      · cases h; exact ⟨_, rfl⟩
      · split at h
        · cases h; exact ⟨_, rfl⟩
        · obtain ⟨_, -, h1⟩ := orPanic_done.mp h
          cases h1; exact ⟨_, rfl⟩

/-- What the code after the parsing loop does to the context. -/
theorem finish_spec {env : PEnv σ} {fuel : Nat} {pc pc' : PC σ} {tok : Option Token} {b : Bool}
    (h : finish env fuel pc tok b = .done (.ok pc')) :
    ∃ src ts dl read, pc' = { pc with src := src, tokens := ts, delivered := pc.delivered ++ dl } ∧
      read ++ ts = pc.tokens ++ dl := by
  rw [finish, bindRun_done] at h
  obtain ⟨pc1, h1, h⟩ := h
  obtain ⟨src, rfl⟩ := putBack_spec h1
  split at h
  · obtain ⟨src', ts, dl, read, rfl, h3⟩ := restLoop_spec fuel h
    exact ⟨src', ts, dl, read, rfl, h3⟩
  · cases h; exact ⟨src, pc.tokens, [], [], by simp, by simp⟩

/-- A successful parse: the root node is pushed, the loop works until the stack is empty, then the rest of the input is
handled. -/
theorem parse_split {env : PEnv σ} {fuel : Nat} {src : σ} {pos : SrcPos} {pc : PC σ}
    (h : parse env fuel src pos = .done (.ok pc)) :
    ∃ pc0 pc1 tok b, pushNode env { src := src } rootNode (some { type := anyToken, typeName := "", content := [], pos := pos }) =
        .done (.ok pc0) ∧ outer env fuel pc0 none false = .done (.ok (pc1, tok, b)) ∧
      finish env fuel pc1 tok b = .done (.ok pc) := by
  rw [parse, bindRes_ok] at h
  obtain ⟨pc0, h0, h⟩ := h
  rw [parseLoop, bindRes_ok] at h
  obtain ⟨⟨pc1, tok, b⟩, h1, h2⟩ := h
  exact ⟨pc0, pc1, tok, b, h0, h1, h2⟩

theorem pushNode_ne {env : PEnv σ} {pc pc' : PC σ} {index : Nat} {tok : Option Token}
    (h : pushNode env pc index tok = .done (.ok pc')) : pc'.stack ≠ [] := by
  obtain ⟨_, _, _, rfl⟩ := pushNode_spec h
  simp

/-- Invariants of the loop hold at its end. -/
theorem parse_inv {env : PEnv σ} {I : PC σ → Option Token → Prop} {J : PC σ → Prop} (hinv : LoopInv env I J) {fuel : Nat}
    {src : σ} {pos : SrcPos} {pc : PC σ} (h : parse env fuel src pos = .done (.ok pc))
    (h0 : ∀ pc0, pushNode env { src := src } rootNode (some { type := anyToken, typeName := "", content := [], pos := pos }) =
      .done (.ok pc0) → J pc0) :
    ∃ pc1 tok b, pc1.stack = [] ∧ Phase I J b pc1 tok ∧ finish env fuel pc1 tok b = .done (.ok pc) := by
  obtain ⟨pc0, pc1, tok, b, h1, h2, h3⟩ := parse_split h
  obtain ⟨h4, h5⟩ := outer_ok hinv (h0 _ h1) (pushNode_ne h1) h2
  exact ⟨pc1, tok, b, h4, h5, h3⟩

end Verif.Proof
