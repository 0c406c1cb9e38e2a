/-
C84: the calculator never panics.
-/
import Verif.Proof.CalcKeeps
import Verif.Props.CalcText
import Verif.Props.CalcTextSamples

namespace Verif.Props

open Verif Verif.Model Verif.Model.Calc Verif.Spec Verif.Spec.Ebnf Verif.Spec.Calc Verif.Proof Verif.Proof.Calc
open Verif.Model.Tree (bindRun)
open Verif.Spec.Text (normalize)

variable {σ α : Type}

/-- C84, hooks of the calculator: whatever tokens there are, an error of a hook is about an argument that is defined twice or about a number
`strconv.ParseFloat` refuses, so no hook panics (a panic is the error `hookPanic`); the result of a successful parse is not nil. Tokens are what
the lexer captures, their order is arbitrary; arithmetic is arbitrary. -/
theorem C84_hooks {env : PEnv σ} (hg : env.g = grammar) (hlayers : env.layers ≤ 1) (hlex : FromLexer env)
    (hpull : ∀ src types src' x, env.pull src types ≠ .done (src', .error (.hook x))) (A : Arith α) (num : List Nat → Except Nat α) (fuel : Nat)
    (src : σ) (pos : SrcPos) :
    (∀ x, parse (withObjects (hooks A num) env) fuel src pos = .done (.error (.hook x)) → x = argDefinedError ∨ ∃ s, num s = .error x) ∧
    ∀ pc, parse (withObjects (hooks A num) env) fuel src pos = .done (.ok pc) →
      ∃ k e, pc.lastResult = some k ∧ (objectsAfter (hooks A num) pc.log).vals k = some (some e) := by
  have hh : Hooked (withObjects (hooks A num) env) A num :=
    ⟨hg, by show max 1 env.layers = 1; omega, rfl, fun _ => rfl, fun _ _ _ => rfl, fun _ _ _ _ => rfl, fun _ _ _ => rfl, fun _ _ => rfl,
      fun _ _ _ _ => rfl⟩
  have hf : Spec.Feeds (withObjects (hooks A num) env) Given := calc_feeds (env := withObjects (hooks A num) env) hg hlex
  exact ⟨fun x h => hooks_fair hh hf hpull h, fun pc h => result_there hh hf h⟩

/-- What is said about the answer to a text. -/
def AnswerCalm (num : List Nat → Except Nat α) : Run (RunContext α × Reply α) → Prop
  | .panic => False
  | .timeout => True
  | .done (c, x) => c ≠ [] ∧ ∀ y, x = .failed (.hook y) → Told num y

theorem answer_calm {A : Arith α} {num : List Nat → Except Nat α} {re : List Nat → Option Matcher} {lexers : List Lexer}
    (hl : LexersOf re Calc.tokens lexers) (hre : MatchersKnown re) {upper : List Nat → List Nat} {c : RunContext α} (hc : c ≠ [])
    {text : List Nat} {q : SrcQueue} (hq : Lexer.Holds q [(inputOf text, 0)]) {n k : Nat} (hn : (normalize text).length < n)
    {r : Except PErr (PC (LState Unit))} (h0 : parse (programEnv A num upper lexers n) k ⟨[], ⟨q, ()⟩⟩ q.sourcePos = .done r) (depth : Nat) :
    AnswerCalm num (answer A num depth c r) := by
  cases r with
  | error e =>
    refine ⟨hc, fun y hy => ?_⟩
    cases hy
    exact (program_hook hl hre hq hn h0).told
  | ok pc =>
    obtain ⟨toks, l, h1, h2⟩ := program_left hl hre hq hn h0
    obtain ⟨j, e, h3, h4⟩ := result_there (program_hooked A num upper lexers n) (program_feeds hl hre A num upper n) h0
    rcases cuts_shape h1 with rfl | ⟨p, rfl⟩
    · have hs : pc.src.ps.src.isEmpty = true := by
        have : pc.src.ps.src.source = none := by simpa using h2.rep.source
        simp [SrcQueue.isEmpty, this]
      simp only [answer, hs, h3, Option.bind_some, h4, not_true_eq_false, if_false]
      have := compute_keeps A depth hc e
      revert this
      cases compute A depth c e with
      | panic => exact fun h => h
      | timeout => exact fun _ => trivial
      | done r =>
        intro h
        refine ⟨?_, fun y hy => by cases hy⟩
        intro hr
        have h : r.1.length = c.length := h
        rw [hr] at h
        exact hc (List.length_eq_zero_iff.mp h.symm)
    · obtain ⟨d, h7, h8, h9⟩ := part_text h1 (Nat.zero_le _) hl.matchers
      obtain rfl : p = d := by omega
      have hs : pc.src.ps.src.source = some (inputOf text) := by simpa using h2.rep.source
      have hpos : pc.src.ps.src.pos = (p : Nat) := by simpa using h2.rep.pos
      have hsp : pc.src.ps.src.sourcePos = ⟨some (inputOf text), (p : Nat)⟩ := by
        simp [SrcQueue.sourcePos, SrcPos.new, hs, hpos]
      have he : pc.src.ps.src.isEmpty = false := by simp [SrcQueue.isEmpty, hs]
      simp only [answer, he, Bool.false_eq_true, not_false_eq_true, if_true, hsp, orPanic]
      rw [Go.slice_nat (by omega) (Nat.le_refl _)]
      exact ⟨hc, fun y hy => by cases hy⟩

theorem compute_calm (A : Arith α) (num : List Nat → Except Nat α) {re : List Nat → Option Matcher} {lexers : List Lexer}
    (hl : LexersOf re Calc.tokens lexers) (hre : MatchersKnown re) (upper : List Nat → List Nat) (text : List Nat) :
    ∃ N, ∀ depth c, c ≠ [] → ∃ r, AnswerCalm num r ∧ ∀ fuel, N ≤ fuel → computeText A num upper lexers fuel depth c text = r := by
  obtain ⟨q, q', e1, e2, hq⟩ := Conf.queue_holds (inputOf text)
  obtain ⟨r, N, hN⟩ := program_ends A num hl upper hq
  refine ⟨N, fun depth c hc => ⟨answer A num depth c r, ?_, fun fuel hk => ?_⟩⟩
  · exact answer_calm hl hre hc hq (n := N + (normalize text).length + 1) (k := N) (by omega) (hN _ _ (by omega) (by omega)) depth
  · have e3 := (C08_normalizeNls text).1
    have e2' : q.append (some ⟨0, "input", normalize text⟩) = some q' := e2
    simp only [computeText, e3, e1, e2', orPanic, hN fuel fuel hk hk, bindRun]

/-- C84, the whole calculator: whatever lines are typed, there is no panic, and errors of hooks that are shown are the expected ones. Arithmetic is
arbitrary, names may be `func`. Missing: fuel is not bounded by lines, calls deeper than `depth` are not computed (the stack of the real
program is bounded too). -/
theorem C84_session_partial (A : Arith α) (num : List Nat → Except Nat α) {re : List Nat → Option Matcher} {lexers : List Lexer}
    (hl : LexersOf re Calc.tokens lexers) (hre : MatchersKnown re) (upper : List Nat → List Nat) (depth : Nat) (lines : List (List Nat)) :
    ∃ N, ∀ fuel, N ≤ fuel → match repl A num upper lexers fuel depth {} lines with
      | .panic => False
      | .timeout => True
      | .done shown => ∀ x, .error (.failed (.hook x)) ∈ shown → x = argDefinedError ∨ ∃ s, num s = .error x := by
  have key : ∀ (lines : List (List Nat)) (s : Session α), s.context ≠ [] → ∃ N, ∀ fuel, N ≤ fuel →
      match repl A num upper lexers fuel depth s lines with
      | .panic => False
      | .timeout => True
      | .done shown => ∀ x, .error (.failed (.hook x)) ∈ shown → Told num x := by
    intro lines
    induction lines with
    | nil => exact fun s _ => ⟨0, fun _ _ => by simp [repl]⟩
    | cons line lines ih =>
      intro s hs
      by_cases hempty : line = []
      · exact ⟨0, fun _ _ => by simp [repl, hempty]⟩
      have next : ∀ (N : Nat) (s' : Session α) (sh : Shown α), s'.context ≠ [] → (∀ x, sh = .error (.failed (.hook x)) → Told num x) →
          (∀ fuel, N ≤ fuel → handleLine A num upper lexers fuel depth s line = .done (s', sh)) → ∃ N, ∀ fuel, N ≤ fuel →
            match repl A num upper lexers fuel depth s (line :: lines) with
            | .panic => False
            | .timeout => True
            | .done shown => ∀ x, .error (.failed (.hook x)) ∈ shown → Told num x := by
        intro N s' sh hs' hsh hN
        obtain ⟨M, hM⟩ := ih s' hs'
        refine ⟨max N M, fun fuel hk => ?_⟩
        have h1 := hM fuel (by omega)
        rw [repl, if_neg hempty, hN fuel (by omega)]
        simp only [bindRun]
        revert h1
        cases repl A num upper lexers fuel depth s' lines with
        | panic => exact fun h => h
        | timeout => exact fun h => h
        | done shown =>
          intro h1 x hx
          rcases List.mem_cons.mp hx with hx | hx
          · exact hsh x hx.symm
          · exact h1 x hx
      by_cases hhelp : line.tails.any (helpText.isPrefixOf ·) = true
      · exact next 0 { s with pending := none } .help hs (fun x h => by cases h) fun fuel _ => by rw [handleLine, if_pos hhelp]
      · generalize hin : (match s.pending with
          | some prev => prev ++ 10 :: line
          | none => line) = input
        obtain ⟨N, hN⟩ := compute_calm A num hl hre upper input
        obtain ⟨r, h1, h2⟩ := hN depth s.context hs
        have hhandle : ∀ fuel, N ≤ fuel → handleLine A num upper lexers fuel depth s line = bindRun r fun r =>
              match r with
              | (c, .result (.ok v)) => .done ({ pending := none, context := c }, .number v)
              | (c, .failed .unexpectedEof) => .done ({ pending := some input, context := c }, .nothing)
              | (c, e) => .done ({ pending := none, context := c }, .error e) := by
          intro fuel hk
          rw [← h2 fuel hk, handleLine, if_neg hhelp, ← hin]
          cases s.pending <;> rfl
        match r, h1, hhandle with
        | .timeout, _, hhandle =>
          refine ⟨N, fun fuel hk => ?_⟩
          rw [repl, if_neg hempty, hhandle fuel hk]
          trivial
        | .done (c, .result (.ok v)), h1, hhandle => exact next N _ _ h1.1 (fun x h => by cases h) hhandle
        | .done (c, .result (.error e)), h1, hhandle => exact next N _ _ h1.1 (fun x h => by cases h) hhandle
        | .done (c, .extra e), h1, hhandle => exact next N _ _ h1.1 (fun x h => by cases h) hhandle
        | .done (c, .failed .unexpectedEof), h1, hhandle => exact next N _ _ h1.1 (fun x h => by cases h) hhandle
        | .done (c, .failed (.hook y)), h1, hhandle => exact next N _ _ h1.1 (fun x h => by cases h; exact h1.2 _ rfl) hhandle
        | .done (c, .failed (.lexer y)), h1, hhandle => exact next N _ _ h1.1 (fun x h => by cases h) hhandle
        | .done (c, .failed (.wrongToken y)), h1, hhandle => exact next N _ _ h1.1 (fun x h => by cases h) hhandle
        | .done (c, .failed (.unexpectedToken y)), h1, hhandle => exact next N _ _ h1.1 (fun x h => by cases h) hhandle
        | .done (c, .failed (.remainingSource y)), h1, hhandle => exact next N _ _ h1.1 (fun x h => by cases h) hhandle
  exact key lines {} (by simp)

/-- Codes of errors of hooks that are shown. -/
def hookErrors : Run (List (Shown ℚ)) → Option (List (Option Nat))
  | .done l => some (l.map fun
    | .error (.failed (.hook x)) => some x
    | _ => none)
  | _ => none

/-- Both errors of hooks occur: an argument is defined twice, a number is refused. A line cut in the middle leaves nodes without inner ones. -/
example : hookErrors (repl ratArith decimal id calcLexers 40 5 {} (["f(x,x) = x", "1.5", "func(x)=x", "2^(", "-", ")"].map typed)) =
    some [some argDefinedError, some 0, none, none, none, none] := by decide +kernel

/-- Hypotheses of `C84_hooks` are met by the program. -/
example : (plainEnv id).layers ≤ 1 ∧ FromLexer (pipelineEnv (plainEnv id) { g := grammar, lexers := calcLexers : TEnv Unit } [] 5) ∧
    ∀ src types src' x, (pipelineEnv (plainEnv id) { g := grammar, lexers := calcLexers : TEnv Unit } [] 5).pull src types ≠
      .done (src', .error (.hook x)) :=
  ⟨by decide, plain_lexer calcLexers_of calcRe_known id 5, fun _ _ _ _ h => by
    obtain ⟨y, hy⟩ := pull_err (plainEnv id) (tenv := { g := grammar, lexers := calcLexers }) h
    cases hy⟩

end Verif.Props
