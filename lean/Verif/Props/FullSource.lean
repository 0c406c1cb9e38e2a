/-
C35: the option `WithFullSource`.
-/
import Verif.Proof.Reread
import Verif.Proof.Ahead
import Verif.Props.Lookahead
import Verif.Props.Types
import Verif.Props.Errors

namespace Verif.Props

open Verif.Model Verif.Spec Verif.Spec.Ebnf Verif.Spec.Lex Verif.Proof

variable {σ η : Type}

/-- C35, partial: for any grammar, pipeline and hooks, when a parse with the option succeeds, nothing but side tokens is
left, or the first of tokens left is the one delivered when the root node ended. Missing: that token must have been read
again, which is false for tokens without a source (`C35_token_lost`). -/
theorem C35_one_token_left_partial (env : PEnv σ) (hf : env.fullSource = true) (fuel : Nat) (src : σ) (pos : SrcPos) (pc : PC σ)
    (h : parse env fuel src pos = .done (.ok pc)) :
    NothingLeft env.g pc.steps pc.delivered ∨
      ∃ t rest, replay pc.steps pc.delivered = some (some t :: rest) ∧ t.type ≠ eoiTokenType ∧
        env.g.isSideType t.type = false :=
  parse_left hf h

/-- C35, partial: nothing but side tokens is left by a successful parse with the option, for lexers built by `parser.New`
and any queue of sources. Missing: token hooks (false, `C35_token_lost`), grammars in which branches are overwritten during a
lookahead (see `SafeLookahead`, C31). States expect all side tokens (see C40 and below). -/
theorem C35_nothing_left_partial (env : PEnv σ) (tenv : TEnv η) (defs : List (Regexp × List TokenType)) (n fuel : Nat)
    (hl : tenv.lexers = defs.map fun x => Lexer.new x.1 x.2) (hd : ∀ x ∈ defs, ReOk x.1 ∧ CapturesAll x.1)
    (hs : ∀ st ∈ env.g.tables.states, ∀ n : Nat, n < 64 → env.g.isSideType n = true → st.types.getLsbD n = true)
    (hsafe : SafeLookahead env.g env.upper) (hf : env.fullSource = true) (ls : LState η) (l : SrcList.State Src)
    (hq : Lexer.Holds ls.ps.src l) (pos : SrcPos) (pc : PC (LState η))
    (h : parse (pipelineEnv env tenv [] n) fuel ls pos = .done (.ok pc)) : NothingLeft env.g pc.steps pc.delivered :=
  parse_nothing_left (env := pipelineEnv env tenv [] n) (lexers_reread env tenv n defs hl hd hs) hsafe hf ⟨l, hq⟩ h

/-- States of compiled grammars expect all side tokens. -/
theorem compiled_sides {upper : List Nat → List Nat} {find : Nat → List Nat → List Nat} {ts a b c : List GToken}
    {defs : List (Option Chunk)} {order1 order2 order3 : List Nat} {fuel : Nat} {g : Grammar}
    (hc : compile upper find ts defs order1 order2 order3 fuel = .done (.ok g)) (hwf : ∀ c, some c ∈ defs → WF c)
    (hlay : Layout ts a b c) :
    ∀ st ∈ g.tables.states, ∀ n : Nat, n < 64 → g.isSideType n = true → st.types.getLsbD n = true := by
  intro st hst n hn hside
  obtain ⟨ttypes, ft, pr, fs, pr', htt, -, -, -, hb, -, has, hg, htok⟩ := compile_steps hc
  have hwf' : ∀ c ∈ defs.filterMap id, WF c := by
    intro c hc
    obtain ⟨d, hd, h⟩ := List.mem_filterMap.mp hc
    simp only [id] at h; subst h
    exact hwf c hd
  obtain ⟨pr2, fs2, hb2, hgr, -⟩ := buildNodes_spec ft _ hwf' ok_empty
  rw [hb] at hb2; cases hb2
  obtain ⟨hre, -⟩ := assignStateTypes_spec fs has
  obtain ⟨hmeans, -⟩ := buildGrammar_means (hre.ok hgr.ok) hg
  obtain ⟨s, hs, rfl⟩ := List.getElem_of_mem hst
  refine (C40_types_exact hc hwf hlay hmeans (List.getElem?_eq_getElem hs) hn).2 (.inl ?_)
  rw [Grammar.isSideType, if_pos (by omega), htok] at hside
  simp only [Int.toNat_natCast] at hside
  cases ht : ts[n]? with
  | none => rw [ht] at hside; simp at hside
  | some t => rw [ht] at hside; exact ⟨t, rfl, by simpa using hside⟩

/-- C35, partial: the same for compiled grammars. -/
theorem C35_compiled_partial {upper : List Nat → List Nat} {find : Nat → List Nat → List Nat} {ts a b c : List GToken}
    {bodies : List (Option Chunk)} {order1 order2 order3 : List Nat} {k : Nat}
    (env : PEnv σ) (hc : compile upper find ts bodies order1 order2 order3 k = .done (.ok env.g))
    (hwf : ∀ c, some c ∈ bodies → WF c) (hlay : Layout ts a b c) (hsafe : SafeLookahead env.g env.upper)
    (tenv : TEnv η) (defs : List (Regexp × List TokenType)) (n fuel : Nat)
    (hl : tenv.lexers = defs.map fun x => Lexer.new x.1 x.2) (hd : ∀ x ∈ defs, ReOk x.1 ∧ CapturesAll x.1)
    (hf : env.fullSource = true) (ls : LState η) (l : SrcList.State Src) (hq : Lexer.Holds ls.ps.src l) (pos : SrcPos)
    (pc : PC (LState η)) (h : parse (pipelineEnv env tenv [] n) fuel ls pos = .done (.ok pc)) :
    NothingLeft env.g pc.steps pc.delivered :=
  C35_nothing_left_partial env tenv defs n fuel hl hd (compiled_sides hc hwf hlay) hsafe hf ls l hq pos pc h

/-- Replaces a token with a letter made by the hook (it has no source). -/
def lettering : TokenHook Nat := fun st _ => .ret st false [madeToken 0 "b"]

/-- `root = letter, [digit]`. -/
def sampleTail : List Chunk := [cSeq [.token 0, cOpt [.token 1]]]

/-- Parses a text using the lexer and hooks, result: final context. -/
def pipeRun (defs : List Chunk) (layers : List (TokenLayer Nat)) (s : String) (fuel : Nat) :
    Run (Except CompileErr (PRes (PC (LState Nat)))) :=
  match sampleCompile defs with
  | .done (.ok g) => .done (.ok (parse (pipelineEnv (streamEnv g) { g := g, lexers := [pipeLexer] } layers fuel) fuel
      ⟨layers.map fun _ => [], { src := textQueue s, st := 0 }⟩ ⟨none, 0⟩))
  | .done (.error e) => .done (.error e)
  | .panic => .panic
  | .timeout => .timeout

/-- C35 is false with token hooks: the letter made by the hook is not consumed, it is not put back either, and the parse
succeeds. The same text is rejected if the letter is a part of the source. -/
theorem C35_token_lost :
    pipeParse sampleTail [oneHook 1 lettering] "a1" 60 = .accepted ∧
    (match pipeRun sampleTail [oneHook 1 lettering] "a1" 60 with
      | .done (.ok (.done (.ok pc))) => decide (consumedBy pc.steps = [some ⟨0, "n", [97], ⟨some (textSource 1 "a1"), 0⟩⟩] ∧
          pc.delivered = [some ⟨0, "n", [97], ⟨some (textSource 1 "a1"), 0⟩⟩, some (madeToken 0 "b"), some eoiToken])
      | _ => false) = true ∧
    (match pipeParse sampleTail [] "ab" 60 with
      | .failed (.remainingSource t) => t.content
      | _ => []) = [98] := by decide +kernel

theorem pipeRe_ok : ReOk pipeRe ∧ CapturesAll pipeRe := by
  constructor
  · intro c s e gs h
    unfold pipeRe at h
    split at h
    · cases h
    · simp only [Option.some.injEq, List.cons.injEq, Prod.mk.injEq] at h
      obtain ⟨⟨rfl, rfl⟩, rfl⟩ := h
      refine ⟨by omega, by omega, by simp, ?_⟩
      intro g hg
      simp only [List.mem_cons, List.not_mem_nil, or_false] at hg
      rcases hg with rfl | rfl | rfl <;> split <;> simp
  · intro c e gs h he
    unfold pipeRe at h
    split at h
    · cases h
    · rename_i x l
      simp only [Option.some.injEq, List.cons.injEq, Prod.mk.injEq] at h
      obtain ⟨⟨-, h1⟩, rfl⟩ := h
      have : e = 1 := by omega
      subst this
      have h3 : charType x = 0 ∨ charType x = 1 ∨ charType x = 2 := by
        unfold charType
        split
        · exact .inl rfl
        · split
          · exact .inr (.inr rfl)
          · exact .inr (.inl rfl)
      refine ⟨charType x, ?_, ?_⟩
      · rcases h3 with h | h | h <;> simp [h]
      · intro j hj g hg
        rcases h3 with h | h | h <;> rw [h] at hj hg <;>
          (match j, hj with
            | 0, hj => simp [h] at hj hg; try (subst hg; simp [Captured])
            | 1, hj => simp [h] at hj hg; try (subst hg; simp [Captured])
            | 2, hj => simp [h] at hj hg; try (subst hg; simp [Captured])
            | j + 3, _ => simp at hg)

/-- The hypotheses are met: a compiled grammar with several rules for a token and safe lookaheads, successful parses. -/
example : ∃ g, sampleCompile sampleLookahead = .done (.ok g) ∧ SafeLookahead g id ∧ g.tables.multi ≠ [] ∧
    pipeParse sampleLookahead [] "abx " 60 = .accepted ∧ pipeParse sampleLookahead [] "a b y" 60 = .accepted := by
  have hc : (match sampleCompile sampleLookahead with
      | .done (.ok g) => calmCheck g ((List.range g.tables.states.length).drop 1) && decide (g.tables.multi ≠ [])
      | _ => false) = true := by decide +kernel
  split at hc
  · rename_i g hs
    rw [Bool.and_eq_true, decide_eq_true_eq] at hc
    obtain ⟨m, hm⟩ := compiled_means (bodies := sampleLookahead) hs (by simp [sampleLookahead, cSeq, cX, cY, WF, WFs])
    exact ⟨g, hs, C31_safe_if_calm hm (calm_of_check hm hc.1), hc.2, by decide +kernel, by decide +kernel⟩
  · cases hc

/-- The hypotheses are met: a compiled grammar without conflicts (see `safe_of_single`), a lexer of the required form, a reachable queue, a
successful parse with a token put back (the space after it is read again). -/
example : ReOk pipeRe ∧ CapturesAll pipeRe ∧ Lexer.Holds (textQueue "a ") [(textSource 1 "a ", 0)] ∧
    (match sampleCompile sampleTail with
      | .done (.ok g) => g.tables.multi
      | _ => [⟨0, 0, 0⟩]) = [] ∧
    pipeParse sampleTail [] "a " 60 = .accepted ∧ pipeParse sampleTail [] "a1 " 60 = .accepted := by
  refine ⟨pipeRe_ok.1, pipeRe_ok.2, ?_, by decide +kernel, by decide +kernel, by decide +kernel⟩
  obtain ⟨q, e, r⟩ := SrcQueue.new_rep
  obtain ⟨q1, e1, r1⟩ := r.append (textSource 1 "a ")
  have hq : q = ⟨emptyRing, none, 0⟩ := by
    have : SrcQueue.new = some ⟨emptyRing, none, 0⟩ := by decide +kernel
    rw [this] at e
    exact (Option.some.inj e).symm
  subst hq
  have h1 : SrcQueue.append ⟨emptyRing, none, 0⟩ (textSource 1 "a ") = some (textQueue "a ") := by decide +kernel
  rw [h1] at e1
  cases e1
  exact ⟨r1, ⟨by simp [Src.len], by simp, by simp⟩, by simp⟩

end Verif.Props
