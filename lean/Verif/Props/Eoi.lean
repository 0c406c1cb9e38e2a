/-
C41: explicit end of input; C50: expected tokens named by errors.
-/
import Verif.Proof.Expected
import Verif.Props.FullSource

namespace Verif.Props

open Verif.Model Verif.Spec Verif.Spec.Ebnf Verif.Spec.Lex Verif.Proof

variable {σ η : Type}

/-! ### C41 -/

/-- C41, partial: when no bytes are left, a state expecting the end of input and some token of a type known to lexers
(e.g. when there are side types) gets the end of input, and its only rule is the one to be applied. Missing: states that
expect nothing but the end of input, for which it is false (below). -/
theorem C41_end_matched_partial (env : PEnv σ) (tenv : TEnv η) (defs : List (Regexp × List TokenType)) (n fuel : Nat)
    (hl : tenv.lexers = defs.map fun x => Lexer.new x.1 x.2) (hd : ∀ x ∈ defs, ReOk x.1)
    {m : Nat → Int → List Rule} (hm : Means env.g.tables m) {s : Nat} {gs : GState} (hs : env.g.tables.states[s]? = some gs)
    {r : Rule} (hr : m s (-3) = [r])
    (hreq : ∃ x ∈ defs, ∃ k t, groupType x.2 k = some t ∧ Requested gs.types t.1)
    (pc : PC (LState η)) (ht : pc.tokens = []) (ha : pc.applied = []) {l : SrcList.State Src}
    (hq : Lexer.Holds pc.src.ps.src l) (hb : ∀ x ∈ l, x.2 = x.1.content.length) (hf : l.length < fuel) :
    ∃ src, nextToken (pipelineEnv env tenv [] (n + 1)) fuel pc gs.types =
        .done ({ pc with src := src, delivered := pc.delivered ++ [some eoiToken] }, .ok (some eoiToken)) ∧
      nextRule (pipelineEnv env tenv [] (n + 1)) fuel { pc with src := src, delivered := pc.delivered ++ [some eoiToken] }
        (some eoiToken) s = .done ({ pc with src := src, delivered := pc.delivered ++ [some eoiToken] }, some r) := by
  obtain ⟨src, h⟩ := nextLoop_eoi (env := env) (n := n) hl hd hreq l hb fuel hf pc hq
  refine ⟨src, ?_, ?_⟩
  · rw [nextToken]
    simp only [ht]
    rw [h]
    simp only [ht]
  · rw [nextRule]
    simp only [ha]
    have h1 : findRules (pipelineEnv env tenv [] (n + 1)).g (pipelineEnv env tenv [] (n + 1)).upper (some eoiToken) s = some [r] := by
      rw [← hr]
      exact findRules_eoi hm hs (by rw [hr]; simp)
    rw [h1]
    rfl

/-- The cause of the failure below: when a state requests no type known to lexers, no token is fetched, not even the end
of input. -/
theorem C41_nothing_fetched (tenv : TEnv η) (defs : List (Regexp × List TokenType)) (n : Nat)
    (hl : tenv.lexers = defs.map fun x => Lexer.new x.1 x.2) (types : TokenTypeSet)
    (hreq : ¬ ∃ x ∈ defs, ∃ k t, groupType x.2 k = some t ∧ Requested types t.1) (ls : LState η)
    (hq : Lexer.Holds ls.ps.src []) : pullToken tenv (n + 1) types [] ls = .done (ls, .ok none) := by
  rw [pullToken, fetchToken, hl]
  have := (fetch_eoi_iff (fuel := n) (tts := types) defs hq.rep rfl).2 hreq
  rw [lexersOf] at this
  rw [this]
  rfl

/-- Letters, no side tokens. -/
def strictTokens : List GToken := [⟨[110], some [], 0, {}⟩, ⟨[120], none, 0, { literal := true }⟩]

/-- Compiles definitions and parses a text made of letters. -/
def strictParse (tokens : List GToken) (defs : List Chunk) (s : String) (fuel : Nat) : Outcome :=
  match compile id sampleFind tokens (defs.map some) (List.range defs.length) (List.range defs.length)
      (List.range defs.length) 100 with
  | .done (.ok g) =>
    match parse (pipelineEnv (streamEnv g) ({ g := g, lexers := [pipeLexer] } : TEnv Nat) [] fuel) fuel
        ⟨[], { src := textQueue s, st := 0 }⟩ ⟨none, 0⟩ with
    | .done (.ok _) => .accepted
    | .done (.error e) => .failed e
    | .panic => .panic
    | .timeout => .timeout
  | _ => .badGrammar

/-- C41 is false: `root = $n, $;` panics on the text `a`, which it describes. With a side type of tokens in the grammar
the text is accepted. -/
theorem C41_end_not_matched :
    strictParse strictTokens [cSeq [.token 0, .eoi]] "a" 60 = .panic ∧
    strictParse sampleTokens [cSeq [.token 0, .eoi]] "a" 60 = .accepted ∧
    strictParse sampleTokens [cSeq [.token 0, .eoi]] "a " 60 = .accepted := by decide +kernel

/-- The hypotheses are met: the last state of `root = $n, $` expects spaces (side tokens) and the end of input. -/
example : (match sampleCompile [cSeq [.token 0, .eoi]] with
    | .done (.ok g) => match g.tables.states[1]? with
      | some gs => decide (gs.types = 4 ∧ findRulesBy g.tables gs [-3] = some [⟨-3, -1, -1⟩])
      | none => false
    | _ => false) = true ∧
    (∃ x ∈ [(pipeRe, [⟨0, "n"⟩, ⟨1, "d"⟩, ⟨2, "s"⟩])], ∃ k t, groupType x.2 k = some t ∧ Requested 4 t.1) := by
  refine ⟨by decide +kernel, (pipeRe, [⟨0, "n"⟩, ⟨1, "d"⟩, ⟨2, "s"⟩]), by simp, 2, (2, "s"), by decide +kernel, ?_⟩
  show (4#64).getLsbD 2 = true
  decide

/-! ### C50 -/

/-- C50, partial: if only one rule exists for some key (not the end of input) of a state, then the token named by the
error is acceptable in this state (it is the least one), and naming it does not panic. Missing: states where all keys
have several rules and states expecting only the end of input and such keys, for which it is false. States with a
fallback rule (key -1) report no errors. -/
theorem C50_named_token_acceptable_partial {upper : List Nat → List Nat} {find : Nat → List Nat → List Nat} {ts : List GToken}
    {defs : List (Option Chunk)} {order1 order2 order3 : List Nat} {fuel : Nat} {g : Grammar}
    (hc : compile upper find ts defs order1 order2 order3 fuel = .done (.ok g)) (hwf : ∀ c, some c ∈ defs → WF c)
    {m : Nat → Int → List Rule} (hm : Means g.tables m) {s : Nat} {gs : GState} (hs : g.tables.states[s]? = some gs)
    (hlen : ∀ k, m s k ≠ [] → k < g.tokens.length) (hneg : ∀ k < 0, m s k ≠ [] → k = -3 ∧ (m s k).length = 1)
    (hex : ∃ k : Nat, (m s k).length = 1) :
    ∃ k : Nat, getExpectedToken g gs = some k ∧ m s k ≠ [] ∧ ∀ j : Nat, m s j ≠ [] → k ≤ j := by
  obtain ⟨keys, h1, h2⟩ := compiled_desc hc hwf hm hs
  exact expected_least h1 h2 hlen hneg hex

/-- `root = a | b; a = 'y', 'x'; b = 'y', '1'`. -/
def sampleVariants : List Chunk := [.variant [.node 1, .node 2], cSeq [cY, cX], cSeq [cY, .token 5]]

/-- C50 is false: the first state of the sample accepts only 'y', the error for `x` says that `$n` is expected (`x` is
even a token of this type). -/
theorem C50_wrong_token_named :
    sampleParse sampleVariants "x" 60 = .failed (.unexpectedToken ⟨0, "", [120], ⟨none, 0⟩⟩) ∧
    (match sampleCompile sampleVariants with
      | .done (.ok g) => match g.tables.states[0]? with
        | some gs => decide (getExpectedToken g gs = some 0 ∧ findRulesBy g.tables gs [0] = some [] ∧
            (findRulesBy g.tables gs [4]).map List.length = some 2)
        | none => false
      | _ => false) = true := by decide +kernel

/-- C50 is false: `root = $n, $` panics instead of reporting the digit of `a1`. -/
theorem C50_error_panics :
    sampleParse [cSeq [.token 0, .eoi]] "a1" 60 = .panic ∧
    pipeParse [cSeq [.token 0, .eoi]] [] "a1" 60 = .panic := by decide +kernel

/-- The hypotheses are met: `root = 'y' | '1' | a | $; a = 'x', 'x'`. -/
example : (match sampleCompile [.variant [cY, .token 5, .node 1, .eoi], cSeq [cX, cX]] with
    | .done (.ok g) => match g.tables.states[0]? with
      | some gs => decide (getExpectedToken g gs = some 3 ∧ (findRulesBy g.tables gs [3]).map List.length = some 1 ∧
        (findRulesBy g.tables gs [-3]).map List.length = some 1)
      | none => false
    | _ => false) = true := by decide +kernel

end Verif.Props
