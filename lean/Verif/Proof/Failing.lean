/-
Lemmas about errors of parses.
-/
import Verif.Proof.CutsEnd
import Verif.Proof.Errors
import Verif.Spec.Failing

namespace Verif.Proof

open Verif.Model Verif.Spec Verif.Model.Lexer
open Verif.Model.Tree (bindRun)
open Verif.Props (LexersOf)

variable {σ η : Type}

/-! ### Hooks -/

/-- The error is returned by a hook. -/
def HookFails (env : PEnv σ) (e : PErr) : Prop :=
  ∃ x, e = .hook x ∧ ∃ log ev, env.onMake log ev = .error x ∨ env.onCall log ev = .error x

theorem send_fails {env : PEnv σ} {es log : List Event} {e : PErr} (h : send env es log = .error e) : HookFails env e := by
  induction es generalizing log with
  | nil => cases h
  | cons ev es ih =>
    rw [send] at h
    split at h
    · rename_i x hx
      cases h
      exact ⟨x, rfl, _, _, .inr hx⟩
    · exact ih h

theorem makeHooks_fails {env : PEnv σ} {index : Nat} {tok : Option Token} {ls : List Nat} {log : List Event} {e : PErr}
    (h : makeHooks env index tok ls log = .error e) : HookFails env e := by
  induction ls generalizing log with
  | nil => cases h
  | cons l ls ih =>
    rw [makeHooks] at h
    split at h
    · split at h
      · rename_i x hx
        cases h
        exact ⟨x, rfl, _, _, .inl hx⟩
      · split at h
        · rename_i hx
          cases h
          exact ih hx
        · cases h
    · split at h
      · rename_i hx
        cases h
        exact ih hx
      · cases h

theorem endHooks_fails {env : PEnv σ} {hs : List (Option Nat × Nat)} {log : List Event} {last : Option Nat} {e : PErr}
    (h : endHooks env hs log last = .error e) : HookFails env e := by
  induction hs generalizing log last with
  | nil => cases h
  | cons x hs ih =>
    obtain ⟨_ | i, l⟩ := x
    · rw [endHooks] at h
      split at h
      · rename_i hx
        cases h
        exact ih hx
      · cases h
    · rw [endHooks] at h
      split at h
      · rename_i x hx
        cases h
        exact ⟨x, rfl, _, _, .inr hx⟩
      · split at h
        · rename_i hx
          cases h
          exact ih hx
        · cases h

theorem popLoop_fails {env : PEnv σ} {sides : List Token} {stack : List NodeRec} {log : List Event} {last : Option Nat} {e : PErr}
    (h : popLoop env sides stack log last = .error e) : HookFails env e := by
  induction stack generalizing log last with
  | nil => cases h
  | cons node rest ih =>
    rw [popLoop.eq_def] at h
    dsimp only at h
    split at h
    · cases h
    · split at h
      · rename_i hx
        cases h
        exact send_fails hx
      · split at h
        · rename_i hx
          cases h
          exact endHooks_fails hx
        · split at h
          · cases h
          · split at h
            · rename_i hx
              cases h
              exact send_fails hx
            · exact ih h

theorem addNode_fails {env : PEnv σ} {pc : PC σ} {index : Nat} {tok : Option Token} {stack : List NodeRec} {log : List Event} {e : PErr}
    (h : addNode env pc index tok stack log = .done (.error e)) : HookFails env e := by
  rw [addNode] at h
  split at h
  · rename_i hx
    cases h
    exact makeHooks_fails hx
  · obtain ⟨_, -, h⟩ := orPanic_done.mp h
    obtain ⟨_, -, h⟩ := orPanic_done.mp h
    cases h

theorem pushNode_fails {env : PEnv σ} {pc : PC σ} {index : Nat} {tok : Option Token} {e : PErr}
    (h : pushNode env pc index tok = .done (.error e)) : HookFails env e := by
  rw [pushNode] at h
  split at h
  · exact addNode_fails h
  · split at h
    · rename_i hx
      cases h
      exact send_fails hx
    · split at h
      · rename_i hx
        cases h
        exact send_fails hx
      · exact addNode_fails h

theorem popNode_fails {env : PEnv σ} {pc : PC σ} {e : PErr} (h : popNode env pc = .done (.error e)) : HookFails env e := by
  rw [popNode] at h
  split at h
  · cases h
  · split at h
    · rename_i hx
      cases h
      exact popLoop_fails hx
    · cases h

theorem handleNodeToken_fails {env : PEnv σ} {pc : PC σ} {tok : Option Token} {e : PErr}
    (h : handleNodeToken env pc tok = .done (.error e)) : HookFails env e := by
  rw [handleNodeToken.eq_def] at h
  split at h
  · cases h
  · cases h
  · split at h
    · cases h
    · split at h
      · rename_i hx
        cases h
        exact send_fails hx
      · cases h

theorem applyRule_fails {env : PEnv σ} {pc : PC σ} {tok : Option Token} {rule : Rule} {e : PErr}
    (h : applyRule env pc tok rule = .done (.error e)) : HookFails env e := by
  rw [applyRule] at h
  split at h
  · cases h
  · obtain ⟨f, -, h⟩ := orPanic_done.mp h
    dsimp only at h
    rcases bindRes_done.mp h with ⟨pc1, -, h⟩ | ⟨e', h1, h2⟩
    · rcases bindRes_done.mp h with ⟨pc2, -, h⟩ | ⟨e', h1, h2⟩
      · cases h
      · cases h2
        split at h1
        · cases h1
        · split at h1
          · exact popNode_fails h1
          · cases h1
    · cases h2
      split at h1
      · split at h1
        · exact pushNode_fails h1
        · cases h1
      · split at h1
        · exact handleNodeToken_fails h1
        · cases h1

/-! ### The parsing loop -/

/-- The error for a token without rules. -/
def unexpErr (t : Token) : PErr := if t.type = eoiTokenType then .unexpectedEof else .unexpectedToken t

theorem unexpected_err {env : PEnv σ} {t : Token} {s : Int} {e : PErr} (h : unexpected env s t = .done (.error e)) : e = unexpErr t := by
  obtain ⟨_, -, h⟩ := orPanic_done.mp h
  cases h
  rfl

theorem nextRule_none {env : PEnv σ} {fuel : Nat} {pc pc' : PC σ} {tok : Option Token} {s : Int}
    (h : nextRule env fuel pc tok s = .done (pc', none)) : pc' = pc ∧ findRules env.g env.upper tok s = some [] := by
  rw [nextRule.eq_def] at h
  split at h
  · cases h
  · obtain ⟨rules, h1, h⟩ := orPanic_done.mp h
    split at h
    · cases h; exact ⟨rfl, h1⟩
    · cases h
    · rw [bindRun_done] at h
      obtain ⟨⟨pc0, toks, rules⟩, h4, h⟩ := h
      obtain ⟨r', -, h⟩ := orPanic_done.mp h
      cases h

/-- What errors of the loop come from: `R` holds for a context that tokens are read in. -/
inductive LoopErr (env : PEnv σ) (I : PC σ → Option Token → Prop) (J : PC σ → Prop) : PErr → Prop
  | rule {fuel pc pc1 tok node rest r e} : I pc tok → pc.stack = node :: rest → nextRule env fuel pc tok node.state = .done (pc1, some r) →
      applyRule env pc1 tok r = .done (.error e) → LoopErr env I J e
  | read {fuel pc pc' types e} : J pc ∨ I pc none → nextToken env fuel pc types = .done (pc', .error e) → LoopErr env I J e
  | token {pc t} : I pc (some t) → Unruled env t → LoopErr env I J (unexpErr t)
  | next {fuel pc pc' types t} : I pc none → nextToken env fuel pc types = .done (pc', .ok (some t)) → Unruled env t →
      LoopErr env I J (unexpErr t)

variable {env : PEnv σ} {I : PC σ → Option Token → Prop} {J : PC σ → Prop}

theorem inner_err (hinv : LoopInv env I J) (fuel : Nat) {pc : PC σ} {tok : Option Token} {e : PErr} (hI : I pc tok)
    (h : inner env fuel pc tok = .done (.error e)) : LoopErr env I J e := by
  induction fuel generalizing pc with
  | zero => simp [inner] at h
  | succ fuel ih =>
    rw [inner] at h
    cases hs : pc.stack with
    | nil => rw [hs] at h; cases h
    | cons node rest =>
      rw [hs] at h
      dsimp only at h
      rw [bindRun_done] at h
      obtain ⟨⟨pc1, r⟩, h1, h⟩ := h
      cases r with
      | none =>
        obtain ⟨rfl, h2⟩ := nextRule_none h1
        dsimp only at h
        cases tok with
        | some t =>
          rw [unexpected_err h]
          exact .token hI ⟨_, .inl h2⟩
        | none =>
          rw [noRule, bindRun_done] at h
          obtain ⟨⟨pc2, x⟩, h3, h⟩ := h
          rcases x with _ | (_ | t)
          · cases h
            exact .read (.inr hI) h3
          · cases h
          · rw [unexpected_err h]
            exact .next hI h3 ⟨_, .inr h2⟩
      | some rule =>
        dsimp only at h
        rcases bindRes_done.mp h with ⟨⟨pc2, b2⟩, h2, h⟩ | ⟨e', h2, h3⟩
        · have h3 := hinv.step hI hs h1 h2
          cases b2 with
          | true => simp only [if_true] at h; cases h
          | false => exact ih h3 h
        · cases h3
          exact .rule hI hs h1 h2

theorem outer_err (hinv : LoopInv env I J) (fuel : Nat) {pc : PC σ} {tok : Option Token} {b : Bool} {e : PErr} (hJ : pc.stack = [] ∨ J pc)
    (h : outer env fuel pc tok b = .done (.error e)) : LoopErr env I J e := by
  induction fuel generalizing pc tok b with
  | zero => simp [outer] at h
  | succ fuel ih =>
    rw [outer] at h
    cases hs : pc.stack with
    | nil => rw [hs] at h; cases h
    | cons node rest =>
      have hJ : J pc := by
        rcases hJ with h | h
        · rw [hs] at h; cases h
        · exact h
      rw [hs] at h
      dsimp only at h
      rw [bindRun_done] at h
      obtain ⟨⟨pc1, r⟩, h1, h⟩ := h
      cases r with
      | error e => cases h; exact .read (.inl hJ) h1
      | ok tok1 =>
        dsimp only at h
        have hI := hinv.token hJ hs h1
        rcases bindRes_done.mp h with ⟨⟨pc2, b2⟩, h2, h⟩ | ⟨e', h2, h3⟩
        · obtain ⟨h4, h5⟩ := inner_inv hinv fuel hI h2
          refine ih ?_ h
          cases b2 with
          | true => exact .inr h4
          | false => exact .inl (h5 rfl)
        · cases h3
          exact inner_err hinv fuel hI h2

/-- Where errors of a parse come from. -/
theorem parse_err (hinv : LoopInv env I J) {fuel : Nat} {src : σ} {pos : SrcPos} {e : PErr} (h : parse env fuel src pos = .done (.error e))
    (h0 : ∀ pc0, pushNode env { src := src } rootNode (some { type := anyToken, typeName := "", content := [], pos := pos }) =
      .done (.ok pc0) → J pc0) :
    pushNode env { src := src } rootNode (some { type := anyToken, typeName := "", content := [], pos := pos }) = .done (.error e) ∨
      LoopErr env I J e ∨ ∃ pc1 tok b, Phase I J b pc1 tok ∧ finish env fuel pc1 tok b = .done (.error e) := by
  rw [parse] at h
  rcases bindRes_done.mp h with ⟨pc0, h1, h⟩ | ⟨e', h1, h2⟩
  · rw [parseLoop] at h
    rcases bindRes_done.mp h with ⟨⟨pc1, tok, b⟩, h2, h⟩ | ⟨e', h2, h3⟩
    · obtain ⟨-, h4⟩ := outer_ok hinv (h0 _ h1) (pushNode_ne h1) h2
      exact .inr (.inr ⟨pc1, tok, b, h4, h⟩)
    · cases h3
      exact .inr (.inl (outer_err hinv fuel (.inr (h0 _ h1)) h2))
  · cases h2
    exact .inl h1

/-! ### Texts -/

variable {re : List Nat → Option Matcher} {ts : List GToken}

theorem fetchLoop_err {types : TokenTypeSet} {fuel : Nat} (ls : List Lexer) {q q' : SrcQueue} {first : Option LlxError} {e : PErr}
    (h : fetchLoop types fuel ls q first = .done (q', .error e)) : ∃ x, e = .lexer x := by
  induction ls generalizing q first with
  | nil =>
    rw [fetchLoop.eq_def] at h
    dsimp only at h
    split at h
    · split at h
      · cases h; exact ⟨_, rfl⟩
      · cases h
    · cases h
  | cons l ls ih =>
    rw [fetchLoop, bindRun_done] at h
    obtain ⟨⟨q1, r⟩, -, h⟩ := h
    rcases r with _ | (_ | t)
    · exact ih h
    · exact ih h
    · cases h

theorem pull_err (env : PEnv σ) {tenv : TEnv η} {n : Nat} {types : TokenTypeSet} {ls ls' : LState η} {e : PErr}
    (h : (pipelineEnv env tenv [] n).pull ls types = .done (ls', .error e)) : ∃ x, e = .lexer x := by
  change pullToken tenv n types [] ls = _ at h
  rw [pullToken, fetchToken, bindRun_done] at h
  obtain ⟨⟨q, r⟩, h1, h⟩ := h
  simp only [Run.done.injEq, Prod.mk.injEq] at h
  rw [h.2] at h1
  exact fetchLoop_err _ h1

/-- A token of the text or the end of the text. -/
def Good (re : List Nat → Option Matcher) (ts : List GToken) (l0 : SrcList.State Src) (t : Token) : Prop :=
  (t.type = eoiTokenType ∧ ∃ toks, Cuts re ts l0 toks []) ∨ (t.type ≠ eoiTokenType ∧ Occurs re ts l0 t)

/-- Sources are at the end of some tokens. -/
def Within (re : List Nat → Option Matcher) (ts : List GToken) (n : Nat) (l0 : SrcList.State Src) (ls : LState η) : Prop :=
  ∃ toks l, At n ls l ∧ Cuts re ts l0 toks l

theorem nextLoop_from (env : PEnv σ) {tenv : TEnv η} (hl : LexersOf re ts tenv.lexers) {n : Nat}
    {l0 : SrcList.State Src} {types : TokenTypeSet} (fuel : Nat) {pc pc' : PC (LState η)} {r : Except PErr (Option Token)}
    (ht : Within re ts (n + 1) l0 pc.src) (h : nextLoop (pipelineEnv env tenv [] (n + 1)) types fuel pc = .done (pc', r)) :
    Within re ts (n + 1) l0 pc'.src ∧ (∀ t, r = .ok (some t) → Good re ts l0 t) ∧
      ∀ e, r = .error e → (∃ x, e = .lexer x) ∧ Broken re ts l0 := by
  induction fuel generalizing pc with
  | zero => simp [nextLoop] at h
  | succ fuel ih =>
    rw [nextLoop, bindRun_done] at h
    obtain ⟨⟨src, res⟩, h1, h⟩ := h
    obtain ⟨toks, l, hat, hp⟩ := ht
    obtain ⟨ls', r', h2, h3⟩ := pull_groups env hl types hat
    rw [h1] at h2
    cases h2
    rcases h3 with ⟨rfl, -, rfl, h3⟩ | ⟨-, rfl, h3⟩ | ⟨s, rest, rfl, -, rfl, h3⟩ | ⟨s, p, rest, rfl, hlt, ⟨k, i, n1, t', h4, h5, rfl, h3⟩ | ⟨h2, h3, rfl | ⟨e, rfl, rfl⟩⟩⟩
    · simp only at h
      rw [if_neg (by simp [eoiToken, eoiTokenType, eofTokenType, Grammar.isSideToken, Grammar.isSideType])] at h
      cases h
      refine ⟨⟨toks, [], h3, hp⟩, ?_, by simp⟩
      rintro t ⟨⟩
      exact .inl ⟨rfl, toks, hp⟩
    · simp only at h
      rw [if_neg (by simp [Grammar.isSideToken])] at h
      cases h
      exact ⟨⟨toks, l, h3, hp⟩, by simp, by simp⟩
    · simp only at h
      rw [if_pos (by left; rfl)] at h
      exact ih (pc := { pc with src := src }) ⟨toks ++ [endOf s], rest, h3, cuts_snoc hp (.eof .nil)⟩ h
    · have hcut := cuts_snoc hp (.tok (rest := rest) hlt h4.1 h4.2.1 h5 .nil)
      simp only at h
      split at h
      · exact ih (pc := { pc with src := src }) ⟨_, _, h3, hcut⟩ h
      · cases h
        refine ⟨⟨_, _, h3, hcut⟩, ?_, by simp⟩
        rintro t ⟨⟩
        refine .inr ⟨?_, ?_, toks, [], _, hcut⟩
        · simp only [eoiTokenType]; omega
        · simp only [eofTokenType]; omega
    · simp only at h
      rw [if_neg (by simp [Grammar.isSideToken])] at h
      cases h
      exact ⟨⟨toks, _, h3, hp⟩, by simp, by simp⟩
    · cases h
      refine ⟨⟨toks, _, h3, hp⟩, by simp, ?_⟩
      rintro e' ⟨⟩
      exact ⟨pull_err env h1, toks, s, p, rest, hp, hlt, h2⟩

theorem nextToken_from (env : PEnv σ) {tenv : TEnv η} (hl : LexersOf re ts tenv.lexers) {n : Nat}
    {l0 : SrcList.State Src} {types : TokenTypeSet} {fuel : Nat} {pc pc' : PC (LState η)} {r : Except PErr (Option Token)}
    (ht : Within re ts (n + 1) l0 pc.src) (hg : ∀ t, some t ∈ pc.tokens → Good re ts l0 t)
    (h : nextToken (pipelineEnv env tenv [] (n + 1)) fuel pc types = .done (pc', r)) :
    (Within re ts (n + 1) l0 pc'.src ∧ ∀ t, some t ∈ pc'.tokens → Good re ts l0 t) ∧ (∀ t, r = .ok (some t) → Good re ts l0 t) ∧
      ∀ e, r = .error e → (∃ x, e = .lexer x) ∧ Broken re ts l0 := by
  rw [nextToken.eq_def] at h
  split at h
  · rename_i t toks hpt
    cases h
    rw [hpt] at hg
    refine ⟨⟨ht, fun t' ht' => hg t' (by simp [ht'])⟩, ?_, by simp⟩
    rintro t' ⟨⟩
    exact hg t' (by simp)
  · rename_i hpt
    obtain ⟨h1, h2⟩ := nextLoop_from env hl fuel ht h
    obtain ⟨src, rfl⟩ := nextLoop_spec fuel h
    refine ⟨⟨h1, ?_⟩, h2⟩
    intro t ht'
    rw [show _ = ([] : List (Option Token)) from hpt] at ht'
    cases ht'

theorem restLoop_err (env : PEnv σ) {tenv : TEnv η} (hl : LexersOf re ts tenv.lexers) {n : Nat} {l0 : SrcList.State Src} (fuel : Nat)
    {pc : PC (LState η)} (ht : Within re ts (n + 1) l0 pc.src) (hg : ∀ t, some t ∈ pc.tokens → Good re ts l0 t) (hfull : env.fullSource = true)
    {e : PErr} (h : restLoop (pipelineEnv env tenv [] (n + 1)) fuel pc = .done (.error e)) :
    Explains re ts env l0 e := by
  induction fuel generalizing pc with
  | zero => simp [restLoop] at h
  | succ fuel ih =>
    rw [restLoop, bindRun_done] at h
    obtain ⟨⟨pc1, r⟩, h1, h⟩ := h
    obtain ⟨⟨h2, h3⟩, h4, h5⟩ := nextToken_from env hl ht hg h1
    rcases r with _ | (_ | t)
    · cases h
      obtain ⟨⟨x, rfl⟩, h6⟩ := h5 _ rfl
      exact h6
    · cases h
    · dsimp only at h
      split at h
      · cases h
      · rename_i hne
        split at h
        · exact ih h2 h3 h
        · rename_i hs
          cases h
          rcases h4 _ rfl with ⟨h6, -⟩ | ⟨-, h6⟩
          · exact absurd h6 hne
          · exact ⟨h6, hfull, Bool.eq_false_iff.mpr hs⟩

/-- Delivered tokens are tokens of the text or its end. -/
theorem cut_good {env : PEnv σ} {n : Nat} {l0 : SrcList.State Src} {ls : LState η} {dl : List (Option Token)}
    (h : Cut re ts env n l0 ls dl) : Within re ts n l0 ls ∧ ∀ t, some t ∈ dl → Good re ts l0 t := by
  obtain ⟨toks, l, eois, hat, hc, hd, he, hend⟩ := h
  refine ⟨⟨toks, l, hat, hc⟩, ?_⟩
  intro t ht
  have ht' : t ∈ dl.reduceOption := List.reduceOption_mem_iff.2 ht
  rw [hd] at ht'
  rcases List.mem_append.1 ht' with h1 | h1
  · obtain ⟨h2, h3⟩ := List.mem_filter.1 h1
    obtain ⟨a, b, rfl⟩ := List.append_of_mem h2
    refine .inr ⟨cuts_types hc t h2, ?_, a, b, l, hc⟩
    simp only [keeps, Bool.and_eq_true, decide_eq_true_eq] at h3
    exact h3.1
  · obtain rfl := hend (List.ne_nil_of_mem h1)
    exact .inl ⟨by rw [he t h1]; rfl, toks, hc⟩

/-- A token is put back where it was. -/
theorem putBack_within (env : PEnv σ) {tenv : TEnv η} {n : Nat} {src : Src} {l0 : SrcList.State Src} (hl0 : l0 = [] ∨ ∃ p, l0 = [(src, p)])
    {pc pc' : PC (LState η)} {tok : Option Token} {b : Bool} (hn : src.content.length < n + 1) (ht : Within re ts (n + 1) l0 pc.src)
    (hg : ∀ t, tok = some t → b = false → Good re ts l0 t)
    (h : putBack (pipelineEnv env tenv [] (n + 1)) pc tok b = .done pc') : Within re ts (n + 1) l0 pc'.src := by
  rw [putBack.eq_def] at h
  split at h
  · cases h; exact ht
  · rename_i hb
    split at h
    · cases h
    · rename_i t
      split at h
      · cases h; exact ht
      · rename_i hne
        split at h
        · cases h; exact ht
        · obtain ⟨src', h1, h⟩ := orPanic_done.mp h
          cases h
          rcases hg t rfl (by simpa using hb) with ⟨h2, -⟩ | ⟨-, h2, a, c, l, h3⟩
          · exact absurd h2 hne
          · obtain ⟨l1, h4, h5⟩ := cuts_split h3
            cases h5 with
            | @tok s p k i m gt rest _ _ g1 g2 g3 g4 g5 =>
              rcases cuts_shape0 hl0 h4 with h | ⟨p', h⟩
              · cases h
              · cases h
                obtain ⟨toks, l', hat, hc⟩ := ht
                refine ⟨a, _, ?_, h4⟩
                rcases cuts_shape0 hl0 hc with rfl | ⟨p', rfl⟩
                · obtain ⟨q', h16, rfl⟩ := Option.map_eq_some_iff.mp h1
                  exact ⟨prepend_seek hat.1 (by omega) rfl h16, by simpa using hn⟩
                · exact unread_text env hat (by omega) rfl h1
            | eof g5 => exact absurd rfl h2

/-- Errors of parses of sources; if the whole source is checked there must be one source. -/
theorem parse_explains_at (env : PEnv σ) {tenv : TEnv η} (hl : LexersOf re ts tenv.lexers) {n : Nat} {src : Src} {l0 : SrcList.State Src}
    (hl0 : env.fullSource = true → (l0 = [] ∨ ∃ p, l0 = [(src, p)]) ∧ src.content.length < n + 1) {ls : LState η} (hat : At (n + 1) ls l0)
    {fuel : Nat} {pos : SrcPos} {e : PErr}
    (h : parse (pipelineEnv env tenv [] (n + 1)) fuel ls pos = .done (.error e)) : Explains re ts env l0 e := by
  have hmem : ∀ {pc : PC (LState η)} {rest : List (Option Token)}, replay pc.steps pc.delivered = some rest → ∀ x ∈ rest, x ∈ pc.delivered := by
    intro pc rest hr x hx
    rw [replay_consumed _ _ _ hr]
    exact List.mem_append_right _ hx
  have hun : ∀ t, Good re ts l0 t → Unruled env t → Explains re ts env l0 (unexpErr t) := by
    intro t h1 h2
    rcases h1 with ⟨h3, h4⟩ | ⟨h3, h4⟩
    · rw [unexpErr, if_pos h3]
      exact ⟨h4, t, h3, h2⟩
    · rw [unexpErr, if_neg h3]
      exact ⟨h4, h3, h2⟩
  rcases parse_err (kept_inv (env := pipelineEnv env tenv [] (n + 1)) (K := Cut re ts env (n + 1) l0) (fun h hk => nextLoop_cut env hl _ hk h)) h (fun pc0 h0 => by
      obtain ⟨_, _, _, rfl⟩ := pushNode_spec h0
      exact ⟨rfl, [], _, [], hat, .nil, by simp, by simp, by simp⟩) with h1 | h1 | ⟨pc1, tok, b, h1, h2⟩
  · obtain ⟨x, rfl, h2⟩ := pushNode_fails h1
    exact h2
  · cases h1 with
    | rule _ _ _ h1 =>
      obtain ⟨x, rfl, h2⟩ := applyRule_fails h1
      exact h2
    | @read _ pc1 _ _ _ h1 h2 =>
      have : ∃ rest, replay pc1.steps pc1.delivered = some rest ∧ (∀ t, some t ∈ pc1.tokens → some t ∈ rest) ∧
          Cut re ts env (n + 1) l0 pc1.src pc1.delivered := by
        rcases h1 with h1 | h1
        · exact ⟨_, h1.1, fun _ h => h, h1.2⟩
        · exact ⟨_, h1.1, fun _ h => by simp [h], h1.2⟩
      obtain ⟨rest, h3, h4, h5⟩ := this
      obtain ⟨h6, h7⟩ := cut_good h5
      obtain ⟨-, -, h8⟩ := nextToken_from env hl h6 (fun t ht => h7 t (hmem h3 _ (h4 t ht))) h2
      obtain ⟨⟨x, rfl⟩, h9⟩ := h8 _ rfl
      exact h9
    | token h1 h2 =>
      exact hun _ ((cut_good h1.2).2 _ (hmem h1.1 _ (by simp))) h2
    | next h1 h2 h3 =>
      obtain ⟨h6, h7⟩ := cut_good h1.2
      obtain ⟨-, h8, -⟩ := nextToken_from env hl h6 (fun t ht => h7 t (hmem h1.1 _ (by simp [ht]))) h2
      exact hun _ (h8 _ rfl) h3
  · have : ∃ rest, replay pc1.steps pc1.delivered = some rest ∧ (∀ t, some t ∈ pc1.tokens → some t ∈ rest) ∧
        (∀ t, tok = some t → b = false → some t ∈ rest) ∧ Cut re ts env (n + 1) l0 pc1.src pc1.delivered := by
      cases b with
      | true => exact ⟨_, h1.1, fun _ h => h, by simp, h1.2⟩
      | false => exact ⟨_, h1.1, fun _ h => by simp [h], by rintro t rfl -; simp, h1.2⟩
    obtain ⟨rest, h3, h4, h4', h5⟩ := this
    obtain ⟨h6, h7⟩ := cut_good h5
    rw [finish, bindRun_done] at h2
    obtain ⟨pc2, h8, h2⟩ := h2
    split at h2
    · rename_i hf
      obtain ⟨hl0, hn⟩ := hl0 hf.1
      have h9 := putBack_within env hl0 hn h6 (fun t ht hb => h7 t (hmem h3 _ (h4' t ht hb))) h8
      obtain ⟨s, rfl⟩ := putBack_spec h8
      exact restLoop_err env hl fuel h9 (fun t ht => h7 t (hmem h3 _ (h4 t ht))) hf.1 h2
    · cases h2

/-- Errors of parses of a source. -/
theorem parse_explains (env : PEnv σ) {tenv : TEnv η} (hl : LexersOf re ts tenv.lexers) {n : Nat} {src : Src} {l0 : SrcList.State Src}
    (hl0 : l0 = [] ∨ ∃ p, l0 = [(src, p)]) (hn : src.content.length < n + 1) {ls : LState η} (hq : Lexer.Holds ls.ps.src l0) {fuel : Nat} {pos : SrcPos} {e : PErr}
    (h : parse (pipelineEnv env tenv [] (n + 1)) fuel ls pos = .done (.error e)) : Explains re ts env l0 e :=
  parse_explains_at env hl (fun _ => ⟨hl0, hn⟩) ⟨hq, by rcases hl0 with rfl | ⟨p, rfl⟩ <;> simp [hn]⟩ h

end Verif.Proof
