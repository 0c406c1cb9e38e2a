/-
C36, C37: token hook layers and peeking.
-/
import Verif.Proof.Pipeline
import Verif.Props.Lexer
import Verif.Props.Samples

namespace Verif.Props

open Verif.Model Verif.Spec Verif.Proof

variable {η : Type}

/-! ### Samples -/

/-- One-character tokens: letters, digits, spaces. -/
def pipeRe : Regexp
  | [] => none
  | c :: _ =>
    let hit (k : Nat) : Int × Int := if charType c = k then (0, 1) else (-1, -1)
    some [(0, 1), hit 0, hit 1, hit 2]

/-- Lexer of sample tokens. -/
def pipeLexer : Lexer := Lexer.new pipeRe [⟨0, "n"⟩, ⟨1, "d"⟩, ⟨2, "s"⟩]

/-- Grammar with sample tokens only. -/
def pipeGrammar : Grammar := ⟨sampleTokens, [], ⟨[], [], []⟩⟩

/-- Sample pipeline data. -/
def pipeEnv : TEnv Nat := { g := pipeGrammar, lexers := [pipeLexer] }

/-- A source with the text. -/
def textSource (id : Nat) (s : String) : Src := ⟨id, "t", s.toList.map (·.toNat)⟩

/-- A queue with one source. -/
def textQueue (s : String) : SrcQueue := { q := emptyRing, source := some (textSource 1 s), pos := 0 }

/-- A token made by a hook. -/
def madeToken (type : Int) (s : String) : Token :=
  { type := type, typeName := "", content := s.toList.map (·.toNat), pos := ⟨none, 0⟩ }

/-- A layer with a hook for one type. -/
def oneHook (type : Nat) (h : TokenHook Nat) : TokenLayer Nat := List.replicate (type + 3) none ++ [some h]

/-- Doubles tokens. -/
def doubling : TokenHook Nat := fun st tok => .ret (st + 1) true [tok]

/-- Drops tokens, keeps the end of input. -/
def dropping : TokenHook Nat := fun st _ => .ret st false []

/-- Replaces a token with what follows it. -/
def peeking : TokenHook Nat := fun st _ => .peek fun
  | .ok (some a) => .peek fun
    | .ok (some b) => .ret st false [a, b]
    | _ => .ret st true []
  | _ => .ret st true []

/-- Looks at the next token, then inserts another source. -/
def including : TokenHook Nat := fun st _ => .peek fun _ => .call (.prepend (some (textSource 2 "z"))) (.ret st false [])

/-! ### C36 -/

/-- C36: whatever tokens are pulled from a stack of layers, the top layer takes tokens from the layers below one by one
(`ins`), hands each of them to its hooks, and emits the results in order, without losing, adding or reordering anything:
pending tokens, then results of all handled tokens are the tokens emitted so far and new pending ones. The tokens taken
from below are subject to the same theorem, and sources are below the last layer. -/
theorem C36_layers_pass_tokens {env : TEnv η} {fuel : Nat} {hooks : TokenLayer η} {layers : List (TokenLayer η)}
    {q : List Token} {qs : List (List Token)} {ps : PState η} {outs : List (TokenTypeSet × Option Token)} {ls' : LState η}
    (h : Pulls env fuel (hooks :: layers) ⟨q :: qs, ps⟩ outs ls') :
    ∃ (q' : List Token) (qs' : List (List Token)) (ins : List (TokenTypeSet × Option Token)) (handled : List Handled),
      ls'.queues = q' :: qs' ∧ Pulls env fuel layers ⟨qs, ps⟩ ins ⟨qs', ls'.ps⟩ ∧
      handled.map (·.token) = ins.map (·.2) ∧ (∀ h ∈ handled, HandledBy env fuel hooks h) ∧
      (∀ h ∈ handled, ∀ t ∈ h.extra, env.g.isValidType t.type = true) ∧
      q.map some ++ handled.flatMap Handled.out = outs.map (·.2) ++ q'.map some := by
  obtain ⟨q', qs', h1, ins, handled, hp⟩ := pulls_passed h rfl
  exact ⟨q', qs', ins, handled, h1, hp.pulls, hp.same, hp.by_layer, hp.valid, hp.out⟩

/-- C36: tokens are taken from sources under the last layer. -/
theorem C36_sources_below {env : TEnv η} {fuel : Nat} {types : TokenTypeSet} {ls ls' : LState η} {t : Option Token} :
    pullToken env fuel types [] ls = .done (ls', .ok t) ↔
      ls'.queues = ls.queues ∧ ls'.ps.st = ls.ps.st ∧ fetchToken env fuel ls.ps.src types = .done (ls'.ps.src, .ok t) := by
  obtain ⟨qs, ⟨src, st⟩⟩ := ls
  obtain ⟨qs', ⟨src', st'⟩⟩ := ls'
  simp only [pullToken]
  rw [bindRun_done]
  constructor
  · rintro ⟨⟨src1, r⟩, h1, h2⟩
    cases h2
    exact ⟨rfl, rfl, h1⟩
  · rintro ⟨rfl, rfl, h⟩
    exact ⟨_, h, rfl⟩

/-- C36: what the layer emits for a token is decided by the hook: the token is kept and followed by extra tokens, or is
replaced by extra tokens, but end of file and end of input are never dropped; tokens without a hook pass. -/
theorem C36_hook_decides {env : TEnv η} {fuel : Nat} {hooks : TokenLayer η} {h : Handled}
    (hb : HandledBy env fuel hooks h) :
    (h.token = none ∧ h.out = [none]) ∨
    ∃ tok, h.token = some tok ∧
      ((pickHook env hooks tok = some none ∧ h.out = [some tok]) ∨
        ∃ (hook : TokenHook η) (qs : List (List Token)) (ps : PState η) (tc : TC) (st : η) (r : Bool × List Token),
          pickHook env hooks tok = some (some hook) ∧
          (hook ps.st tok).run env fuel qs { src := ps.src } = .done (tc, st, .ok r) ∧
          h.out = (emitted tok r).map some) := by
  obtain ⟨tok, emit, extra⟩ := h
  obtain ⟨qs, ps, ps', hb⟩ := hb
  simp only at hb
  unfold handleToken at hb
  cases tok with
  | none =>
    cases hb
    exact .inl ⟨rfl, rfl⟩
  | some tok =>
    refine .inr ⟨tok, rfl, ?_⟩
    simp only at hb
    cases hpick : pickHook env hooks tok with
    | none => rw [hpick] at hb; cases hb
    | some hook =>
      rw [hpick] at hb
      simp only [orPanic] at hb
      cases hook with
      | none =>
        cases hb
        exact .inl ⟨rfl, rfl⟩
      | some hook =>
        obtain ⟨⟨tc, st, r⟩, h1, hb⟩ := bindRun_done.1 hb
        simp only at hb
        cases hres : tc.restore with
        | none => rw [hres] at hb; cases hb
        | some src =>
          rw [hres] at hb
          simp only at hb
          cases r with
          | error e => cases hb
          | ok r =>
            refine .inr ⟨hook, qs, ps, tc, st, r, rfl, h1, ?_⟩
            obtain ⟨e0, x0⟩ := r
            injection hb with hb
            injection hb with _ hb
            simp only [Except.map] at hb
            injection hb with hb
            by_cases hspec : e0 = false ∧ tok.type < 0
            · obtain ⟨rfl, hneg⟩ := hspec
              simp only [Bool.false_eq_true, not_false_eq_true, hneg, and_self, if_true] at hb
              cases x0 with
              | nil =>
                simp at hb
                obtain ⟨rfl, rfl⟩ := hb
                simp [Handled.out, emitted, hneg]
              | cons a x0 =>
                simp at hb
                obtain ⟨rfl, rfl⟩ := hb
                simp [Handled.out, emitted, hneg]
            · have : ¬ (¬ e0 = true ∧ tok.type < 0) := by
                simpa using hspec
              rw [if_neg this] at hb
              simp only [Prod.mk.injEq] at hb
              obtain ⟨rfl, rfl⟩ := hb
              cases e0 with
              | true => simp [Handled.out, emitted]
              | false =>
                have hn : ¬ tok.type < 0 := fun h => hspec ⟨rfl, h⟩
                simp [Handled.out, emitted, hn]

/-- Two layers: digits are doubled near the lexer, then letters are replaced with two following tokens, which are not
affected by hooks unless pending. -/
example : (match pullToken pipeEnv 10 allTokenTypes [oneHook 0 peeking, oneHook 1 doubling]
      ⟨[[], []], { src := textQueue "1a23", st := 0 }⟩ with
    | .done (ls, .ok t) => decide (t.map (·.content) = some [49] ∧ ls.queues.map (·.map (·.content)) = [[], [[49]]])
    | _ => false) = true := by decide +kernel

/-- Tokens pulled from two layers, the last one is the end of input a hook tries to drop. -/
example : ∃ outs ls', Pulls pipeEnv 10 [oneHook 0 dropping, List.replicate 4 (some dropping)]
    ⟨[[], []], { src := { q := emptyRing, source := none, pos := 0 }, st := 0 }⟩ outs ls' ∧
    outs.map (fun o => o.2.map (·.type)) = [some (-3), some (-3)] :=
  ⟨_, _, .pull (types := allTokenTypes) rfl (.pull (types := allTokenTypes) rfl (.nil _)), rfl⟩

/-! ### C37 -/

/-- Outcome of a handled token compared to the ideal hook call: variables, sources and emitted tokens are the same. -/
def SameOutcome (tok : Token) (a : PState η × Except PErr (Bool × List Token))
    (b : SrcQueue × η × Except PErr (Bool × List Token)) : Prop :=
  a.1.st = b.2.1 ∧ (∃ l, SrcQueue.Rep a.1.src l ∧ SrcQueue.Rep b.1 l) ∧
    a.2.map (fun r => (if r.1 then [tok] else []) ++ r.2) = b.2.2.map (emitted tok)

/-- C37, partial: a hook that peeks at upcoming tokens works as if it was given a separate copy of what is upcoming:
successive calls give pending tokens of lower layers, then tokens of sources, and after the hook returns the sources are
those it has made itself. Missing: hooks that change sources after peeking past the pending tokens (false,
`C37_changes_lost`), more than `2^31` sources. Pending tokens are not changed by hooks in the model. -/
theorem C37_peek_leaves_no_trace_partial (env : TEnv η) (fuel : Nat) (hooks : TokenLayer η) (qs : List (List Token))
    (ps : PState η) (tok : Token) (hook : TokenHook η) (hh : pickHook env hooks tok = some (some hook))
    (l : SrcList.State Src) (hr : SrcQueue.Rep ps.src l) (calls : Nat) (hl : l.length + calls ≤ 2 ^ 31)
    (hp : Polite calls qs.flatten.length (hook ps.st tok)) :
    RunRel (SameOutcome tok) (handleToken env fuel hooks qs ps (some tok))
      (ideal (fun src => fetchToken env fuel src allTokenTypes) (hook ps.st tok) qs.flatten ps.src ps.src) := by
  have := hookCall_ideal env fuel qs hp { src := ps.src } l hr hl rfl rfl
  rw [show (fun src => fetchToken env fuel src allTokenTypes) = fetchAny env fuel from rfl]
  simp only [List.drop_zero] at this
  unfold handleToken
  simp only [hh, orPanic]
  unfold hookCall at this
  generalize ideal (fetchAny env fuel) (hook ps.st tok) qs.flatten ps.src ps.src = b at *
  cases hrun : (hook ps.st tok).run env fuel qs { src := ps.src } with
  | panic => rw [hrun] at this; cases b <;> exact this
  | timeout => rw [hrun] at this; cases b <;> exact this
  | done x =>
    rw [hrun] at this
    simp only [Tree.bindRun] at this ⊢
    cases hres : x.1.restore with
    | none => rw [hres] at this; cases b <;> exact this
    | some src =>
      rw [hres] at this
      simp only [orPanic] at this ⊢
      cases b with
      | panic => exact this
      | timeout => exact this
      | done b =>
        obtain ⟨h1, h2⟩ := this
        simp only at h1 h2
        refine ⟨by rw [← h1], h2, ?_⟩
        rw [← h1]
        cases hx : x.2.2 with
        | error e => simp [Except.map]
        | ok r =>
          obtain ⟨e0, x0⟩ := r
          simp only [Except.map]
          congr 1
          by_cases hspec : ¬ e0 = true ∧ tok.type < 0
          · rw [if_pos hspec]
            obtain ⟨he, hneg⟩ := hspec
            have he : e0 = false := by simpa using he
            subst he
            cases x0 <;> simp [emitted, hneg]
          · rw [if_neg hspec]
            cases e0 with
            | true => simp [emitted]
            | false =>
              have hn : ¬ tok.type < 0 := fun h => hspec ⟨by simp, h⟩
              simp [emitted, hn]

/-- C37: queues holding the same sources give the same tokens. -/
theorem C37_same_tokens (env : TEnv η) (fuel : Nat) (types : TokenTypeSet) {q q' : SrcQueue} (h : Alike q q') :
    RunRel AlikeResult (fetchToken env fuel q types) (fetchToken env fuel q' types) :=
  alike_fetchLoop types fuel env.lexers h none

/-- C37 is false for hooks that change sources after peeking: the changes are lost. -/
theorem C37_changes_lost :
    (match handleToken pipeEnv 10 (oneHook 1 including) [] { src := textQueue "ab", st := 0 } (some (madeToken 1 "1")) with
      | .done (ps, .ok (false, [])) => decide (ps.src.source = some (textSource 1 "ab") ∧ ps.src.pos = 0)
      | _ => false) = true ∧
    (match ideal (fun src => fetchToken pipeEnv 10 src allTokenTypes) (including 0 (madeToken 1 "1")) [] (textQueue "ab")
        (textQueue "ab") with
      | .done (src, _, .ok (false, [])) => decide (src.source = some (textSource 2 "z"))
      | _ => false) = true := by decide +kernel

/-- Hypotheses of the theorem are met by a hook that peeks at two tokens, one of them is pending. -/
example : Polite 0 [[madeToken 1 "1"]].flatten.length (peeking 0 (madeToken 0 "a")) ∧
    (match handleToken pipeEnv 10 (oneHook 0 peeking) [[madeToken 1 "1"]] { src := textQueue "bc", st := 0 }
        (some (madeToken 0 "a")) with
      | .done (ps, .ok (false, [t, u])) => decide (t.content = [49] ∧ u.content = [98] ∧ ps.src.pos = 0)
      | _ => false) = true := by
  refine ⟨.pending fun r => ?_, by decide +kernel⟩
  cases r with
  | error e => exact .ret _ _ _
  | ok r =>
    cases r with
    | none => exact .ret _ _ _
    | some a =>
      refine .source fun r => ?_
      cases r with
      | error e => exact .ret _ _ _
      | ok r => cases r <;> exact .ret _ _ _

end Verif.Props
