/-
C30: parsing stops.
-/
import Verif.Proof.ParseHalts
import Verif.Proof.IdleLoops
import Verif.Proof.ChunkMoves
import Verif.Proof.Spin
import Verif.Props.FullSource

namespace Verif.Props

open Verif Verif.Model Verif.Spec Verif.Spec.Ebnf Verif.Proof

variable {σ η : Type}

/-- The result is the same for all large amounts of fuel (`k` for fetching of tokens, `n` for other loops), and it is not a timeout. -/
def Stops {α : Type} (f : Nat → Nat → Run α) : Prop := ∃ r, r ≠ .timeout ∧ ∃ N, ∀ k n, N ≤ k → N ≤ n → f k n = r

/-- C30, partial: a parse stops if no state of the grammar may be reached from itself without ordinary tokens (`NoIdleLoops`) and the
source of tokens ends: `I src n` means that at most `n` tokens are left, `I'` is the same after a token is put back at the end. Node hooks are any (total) functions, conflicts are
resolved in any number. Missing: other grammars, for some of them it is false (see below). -/
theorem C30_terminates_partial (env : PEnv σ) {pull : Nat → σ → TokenTypeSet → Run (σ × Except PErr (Option Token))}
    {I I' : σ → Nat → Prop} (hs : Supply pull I) (hs' : Supply pull I') (hpp : ∀ src n, I src n → ∃ n', I' src n')
    (hu : ∀ src n t src', I src n → t.type ≠ -3 → env.unread src t = some src' → ∃ n', I' src' n')
    {m : Nat → Int → List Rule} (hm : Means env.g.tables m) (hl : NoIdleLoops env.g m) {src : σ} {n : Nat} (hi : I src n) (pos : SrcPos) :
    Stops fun k n => parse { env with pull := pull k } n src pos := by
  obtain ⟨μ, hf⟩ := feeds_of_supply hs
  obtain ⟨μ', hf'⟩ := feeds_of_supply hs'
  obtain ⟨w, skip, hd⟩ := descends_of_noIdleLoops hm hl
  obtain ⟨r, hr, hne, -⟩ := parse_halts hf hf' (fun src ⟨n, h⟩ => hpp src n h) (fun src t src' ⟨n, h⟩ => hu src n t src' h)
    (means_ofStates hm) hd src ⟨n, hi⟩ pos
  exact ⟨r, hne, hr⟩

/-- C30, partial: the same for lexers and text sources (less than 2^31 of them). Missing: other grammars; token hooks. -/
theorem C30_text_partial (env : PEnv σ) (tenv : TEnv η) (hls : LexersOk tenv.lexers) {m : Nat → Int → List Rule}
    (hm : Means env.g.tables m) (hl : NoIdleLoops env.g m) (ls : LState η) {l : SrcList.State Src} (hq : Lexer.Holds ls.ps.src l)
    (hlen : l.length + 1 < 2 ^ 31) (pos : SrcPos) : Stops fun k n => parse (pipelineEnv env tenv [] k) n ls pos := by
  refine C30_terminates_partial (pipelineEnv env tenv [] 0) (pull := fun k ls types => pullToken tenv k types [] ls)
    (pipeline_supply tenv hls l.length) (pipeline_supply tenv hls (l.length + 1)) ?_ ?_ hm hl ⟨l, hq, le_refl _, rfl⟩ pos
  · rintro src n ⟨l', h1, h2, -⟩
    exact ⟨_, l', h1, by omega, rfl⟩
  · rintro src n t src' ⟨l', h1, h2, -⟩ - h
    obtain ⟨q, h3, rfl⟩ := Option.map_eq_some_iff.mp h
    obtain ⟨l2, h4, h5⟩ := unread_sources h1 (by omega) h3
    exact ⟨_, l2, h4, by omega, rfl⟩

/-- C30, partial: for a compiled grammar the condition is one on definitions of nodes (`Moves`), texts are any. Missing: definitions that are not
`Moves`, for some of them it is false (see below), unsafe dropping of states (C28), token hooks. -/
theorem C30_compiled_partial {upper : List Nat → List Nat} {find : Nat → List Nat → List Nat} {ts : List GToken}
    {bodies : List Chunk} {order1 order2 order3 : List Nat} {fuel : Nat} {g : Grammar}
    (h : Compiled upper find ts bodies order1 order2 order3 fuel g) {E : Nat → Bool} (hmv : Moves E bodies)
    (hsafe : SafeMachines bodies order2 order3 fuel) (env : PEnv σ) (henv : env.g = g) (tenv : TEnv η) (hls : LexersOk tenv.lexers)
    (ls : LState η) {l : SrcList.State Src} (hq : Lexer.Holds ls.ps.src l) (hlen : l.length + 1 < 2 ^ 31) (pos : SrcPos) :
    Stops fun k n => parse (pipelineEnv env tenv [] k) n ls pos := by
  subst henv
  obtain ⟨m, hm, hl⟩ := compiled_noIdleLoops h hmv hsafe
  exact C30_text_partial env tenv hls hm hl ls hq hlen pos

/-- C30, partial: a simple condition: no node may be empty, nothing that may be empty is repeated, no `$`. Left recursion is excluded by
compilation (see C57). -/
theorem C30_definite_partial {upper : List Nat → List Nat} {find : Nat → List Nat → List Nat} {ts : List GToken}
    {bodies : List Chunk} {order1 order2 order3 : List Nat} {fuel : Nat} {g : Grammar}
    (h : Compiled upper find ts bodies order1 order2 order3 fuel g) (hrec : ∀ i < bodies.length, ¬ LeftRecursive bodies i)
    (hne : ∀ c ∈ bodies, NoEoi c) (hnull : ∀ c ∈ bodies, nullable c = false) (hloop : ∀ c ∈ bodies, LoopsMove (fun _ => false) c)
    (hsafe : SafeMachines bodies order2 order3 fuel) (env : PEnv σ) (henv : env.g = g) (tenv : TEnv η) (hls : LexersOk tenv.lexers)
    (ls : LState η) {l : SrcList.State Src} (hq : Lexer.Holds ls.ps.src l) (hlen : l.length + 1 < 2 ^ 31) (pos : SrcPos) :
    Stops fun k n => parse (pipelineEnv env tenv [] k) n ls pos :=
  C30_compiled_partial h (moves_of_definite (fun c hc => (h.wf c hc).1) hne hnull hloop hrec) hsafe env henv tenv hls ls hq hlen pos

/-- C30, partial: the same for a list of tokens. -/
theorem C30_tokens_partial (g : Grammar) {m : Nat → Int → List Rule} (hm : Means g.tables m) (hl : NoIdleLoops g m)
    (ts : List Token) (hts : ∀ t ∈ ts, t.type ≠ -3) (pos : SrcPos) : Stops fun _ n => parse (streamEnv g) n ts pos := by
  have hs : Supply (fun _ => (streamEnv g).pull) (fun (l : List Token) n => l.length = n ∧ ∀ t ∈ l, t.type ≠ -3) := by
    rintro src n types ⟨rfl, hne⟩
    cases src with
    | nil =>
      refine ⟨_, 0, fun _ _ => rfl, by simp [streamEnv], ?_⟩
      intro src' res he
      cases he
      unfold FedAfter
      dsimp only
      rw [if_pos (by rfl)]
      exact ⟨rfl, by simp⟩
    | cons t ts =>
      refine ⟨_, 0, fun _ _ => rfl, by simp [streamEnv], ?_⟩
      intro src' res he
      cases he
      unfold FedAfter
      dsimp only
      rw [if_neg (hne t (by simp))]
      exact ⟨ts.length, by simp, rfl, fun t ht => hne t (by simp [ht])⟩
  refine C30_terminates_partial (streamEnv g) hs hs (fun src n h => ⟨n, h⟩) ?_ hm hl ⟨rfl, hts⟩ pos
  rintro src n t src' ⟨-, h⟩ hne he
  cases he
  exact ⟨_, rfl, by simpa using ⟨hne, h⟩⟩

/-- `root = {['x']}, 'y'`. -/
def sampleSpin : List Chunk := [cSeq [cRep [cOpt [cX]], cY]]

/-- `root = {n}; n = $`. -/
def sampleEnds : List Chunk := [cSeq [cRep [.node 1]], cSeq [.eoi]]

/-- C30 is false: compilation accepts the grammar `root = {['x']}, 'y'`, and the parse of the text `1` never stops. -/
theorem C30_endless_any : ∃ g, sampleCompile sampleSpin = .done (.ok g) ∧
    ∀ fuel, parse (streamEnv g) fuel (charTokens "1") ⟨none, 0⟩ = .timeout := by
  have hc : (match sampleCompile sampleSpin with
    | .done (.ok g) => decide (g.firsts[0]? = some 0) && (g.tables.states[0]?).isSome && g.tokens == sampleTokens &&
      ((charTokens "1")[0]?.all fun t => decide (findRules g id (some t) 0 = some [⟨-1, 0, -1⟩]))
    | _ => false) = true := by decide +kernel
  split at hc
  · rename_i g hg
    simp only [Bool.and_eq_true, decide_eq_true_eq, beq_iff_eq, Option.isSome_iff_exists] at hc
    obtain ⟨⟨⟨h1, gs, h2⟩, h3⟩, h4⟩ := hc
    refine ⟨g, hg, fun fuel => ?_⟩
    obtain ⟨t, ht⟩ : ∃ t, charTokens "1" = [t] := ⟨_, rfl⟩
    have htt : t.type = 1 := by
      have : (charTokens "1").map Token.type = [1] := by decide +kernel
      rw [ht] at this
      simpa using this
    rw [ht] at h4 ⊢
    simp only [List.getElem?_cons_zero, Option.all_some, decide_eq_true_eq] at h4
    have hside : g.isSideType 1 = false := by
      unfold Grammar.isSideType
      rw [h3]
      rfl
    unfold parse
    have hp : pushNode (streamEnv g) ({ src := [t] } : PC (List Token)) rootNode (some { type := anyToken, typeName := "", content := [], pos := ⟨none, 0⟩ }) =
        .done (.ok { src := [t], stack := [{ types := gs.types, index := 0, state := 0, hooks := [] }] }) := by
      simp only [pushNode, addNode, streamEnv, List.range_zero, makeHooks, rootNode, h1, orPanic, h2]
      rfl
    rw [hp]
    simp only [bindRes, Tree.bindRun, parseLoop]
    rcases fuel with _ | n
    · rfl
    · rw [outer]
      dsimp only
      rcases n with _ | n
      · rfl
      · have hn : nextToken (streamEnv g) (n + 1) ({ src := [t], stack := [{ types := gs.types, index := 0, state := 0, hooks := [] }] } : PC (List Token)) gs.types =
            .done ({ src := [], stack := [{ types := gs.types, index := 0, state := 0, hooks := [] }], delivered := [some t] }, .ok (some t)) := by
          simp only [nextToken, nextLoop, streamEnv, Tree.bindRun, Option.any_some, htt, eofTokenType, Grammar.isSideToken, hside]
          rfl
        rw [hn]
        simp only [Tree.bindRun]
        rw [inner_spins (env := streamEnv g) (s := 0) h2 h4 (n + 1) _ rfl ⟨_, _, rfl, rfl⟩]
        rfl
  · cases hc

/-- C30 is false: compilation accepts the grammar `root = {n}; n = $`, and the parse of the empty text never stops. -/
theorem C30_endless_end : ∃ g, sampleCompile sampleEnds = .done (.ok g) ∧
    ∀ fuel, parse (streamEnv g) fuel [] ⟨none, 0⟩ = .timeout := by
  have hc : (match sampleCompile sampleEnds with
    | .done (.ok g) => decide (g.firsts[0]? = some 0) && (g.tables.states[0]?).isSome && decide (g.firsts[1]? = some 1) &&
      (g.tables.states[1]?).isSome && decide (findRules g id (some eoiToken) 0 = some [⟨-3, 0, 1⟩]) &&
      decide (findRules g id (some eoiToken) 1 = some [⟨-3, -1, -1⟩])
    | _ => false) = true := by decide +kernel
  split at hc
  · rename_i g hg
    simp only [Bool.and_eq_true, decide_eq_true_eq, Option.isSome_iff_exists] at hc
    obtain ⟨⟨⟨⟨⟨h1, gs, h2⟩, h3⟩, gs', h4⟩, h5⟩, h6⟩ := hc
    refine ⟨g, hg, fun fuel => ?_⟩
    unfold parse
    have hp : pushNode (streamEnv g) ({ src := [] } : PC (List Token)) rootNode (some { type := anyToken, typeName := "", content := [], pos := ⟨none, 0⟩ }) =
        .done (.ok { src := [], stack := [{ types := gs.types, index := 0, state := 0, hooks := [] }] }) := by
      simp only [pushNode, addNode, streamEnv, List.range_zero, makeHooks, rootNode, h1, orPanic, h2]
      rfl
    rw [hp]
    simp only [bindRes, Tree.bindRun, parseLoop]
    rw [outer_ends (env := streamEnv g) rfl h2 h3 h4 h5 h6 (src := []) (fun _ => rfl) fuel _ none false rfl rfl rfl rfl rfl rfl rfl]
  · cases hc

/-- Both grammars have repeated groups that may be passed without ordinary tokens. -/
example : (∀ E, ¬ Moves E sampleSpin) ∧ ∀ E, ¬ Moves E sampleEnds := by
  constructor
  · intro E h
    have := h.loops _ (List.mem_singleton_self _)
    simp [cSeq, cRep, cOpt, cX, cY, LoopsMove, LoopsMoveAll, mayBeEmptySeq, mayBeEmpty] at this
  · intro E h
    have h1 := h.empty 1 _ rfl (Or.inr (by simp [cSeq, NoEoi, NoEois]))
    have := h.loops _ (List.mem_cons_self ..)
    simp [cSeq, cRep, LoopsMove, LoopsMoveAll, mayBeEmptySeq, mayBeEmpty, h1] at this

/-- All hypotheses hold for a sample grammar and a text: a conflict, optional and repeated parts, nested nodes. -/
example : ∃ g m, Compiled id sampleFind sampleTokens sampleConflict (List.range 4) (List.range 4) (List.range 4) 100 g ∧
    Moves (fun _ => false) sampleConflict ∧ SafeMachines sampleConflict (List.range 4) (List.range 4) 100 ∧
    Means g.tables m ∧ NoIdleLoops g m ∧ LexersOk [pipeLexer] ∧ ∃ l, Lexer.Holds (textQueue "abx c12 d3 y") l ∧ l.length + 1 < 2 ^ 31 := by
  have hwf : ∀ c ∈ sampleConflict, WF c ∧ IsBody c := by
    simp [sampleConflict, cSeq, cRep, cOpt, cX, cY, WF, WFs, IsBody]
  have hrefs : ∀ c ∈ sampleConflict, ∀ j ∈ refs c, j < 4 := by
    simp [sampleConflict, cSeq, cRep, cOpt, cX, cY, refs, refsAll]
  have hc : (match sampleCompile sampleConflict with
    | .done (.ok _) => true
    | _ => false) = true := by decide +kernel
  have hmv : Moves (fun _ => false) sampleConflict := by
    refine ⟨?_, by simp [sampleConflict, cSeq, cRep, cOpt, cX, cY, LoopsMove, LoopsMoveAll, mayBeEmptySeq, mayBeEmpty],
      fun i => 3 - i, ?_⟩
    · rintro (_ | _ | _ | _ | i) c hc <;>
        simp [sampleConflict] at hc <;> subst hc <;>
        simp [cSeq, cRep, cOpt, cX, cY, mayBeEmpty, mayBeEmptySeq, mayBeEmptyAny, NoEoi, NoEois]
    · rintro (_ | _ | _ | _ | i) c hc <;>
        simp [sampleConflict] at hc <;> subst hc <;>
        simp [cSeq, cRep, cOpt, cX, cY, leftNodes, leftNodesSeq, leftNodesAny, mayBeEmpty, mayBeEmptySeq, mayBeEmptyAny]
  have hsafe : SafeMachines sampleConflict (List.range 4) (List.range 4) 100 :=
    safe_of_check (fun c hc => (hwf c hc).1) (by decide +kernel)
  split at hc
  · rename_i g hg
    have hcomp : Compiled id sampleFind sampleTokens sampleConflict (List.range 4) (List.range 4) (List.range 4) 100 g :=
      ⟨hg, hwf, hrefs, List.Perm.refl _, List.Perm.refl _⟩
    obtain ⟨m, hm, hl⟩ := compiled_noIdleLoops hcomp hmv hsafe
    refine ⟨g, m, hcomp, hmv, hsafe, hm, hl, ?_, ?_⟩
    · intro l hl
      rw [List.mem_singleton] at hl
      exact ⟨_, _, pipeRe_ok.1, hl⟩
    · obtain ⟨q, e, r⟩ := SrcQueue.new_rep
      obtain ⟨q1, e1, r1⟩ := r.append (textSource 1 "abx c12 d3 y")
      have hq : q = ⟨emptyRing, none, 0⟩ := by
        have : SrcQueue.new = some ⟨emptyRing, none, 0⟩ := by decide +kernel
        rw [this] at e
        exact (Option.some.inj e).symm
      subst hq
      have h1 : SrcQueue.append ⟨emptyRing, none, 0⟩ (textSource 1 "abx c12 d3 y") = some (textQueue "abx c12 d3 y") := by decide +kernel
      rw [h1] at e1
      cases e1
      exact ⟨[(textSource 1 "abx c12 d3 y", 0)], ⟨r1, ⟨by simp [Src.len], by simp, by simp⟩, by simp⟩, by simp⟩
  · cases hc

/-- The simple condition holds for the same grammar. -/
example : (∀ c ∈ sampleConflict, NoEoi c) ∧ (∀ c ∈ sampleConflict, nullable c = false) ∧
    ∀ c ∈ sampleConflict, LoopsMove (fun _ => false) c := by
  refine ⟨?_, ?_, ?_⟩ <;>
    simp [sampleConflict, cSeq, cRep, cOpt, cX, cY, NoEoi, NoEois, nullable, nullableSeq, nullableAny, LoopsMove, LoopsMoveAll, mayBeEmptySeq,
      mayBeEmpty]

/-- A grammar with an empty node is covered as well: `root = {'x', [n]}, 'y'; n = ['1'], ['2']`. -/
def sampleEmpty : List Chunk := [cSeq [cRep [cX, cOpt [.node 1]], cY], cSeq [cOpt [.token 5], cOpt [.token 6]]]

example : Moves (fun i => i == 1) sampleEmpty ∧ sampleParse sampleEmpty "x1x2y" 60 = .accepted := by
  refine ⟨⟨?_, by simp [sampleEmpty, cSeq, cRep, cOpt, cX, cY, LoopsMove, LoopsMoveAll, mayBeEmptySeq, mayBeEmpty],
      fun i => 3 - i, ?_⟩, by decide +kernel⟩
  · rintro (_ | _ | i) c hc <;>
      simp [sampleEmpty] at hc <;> subst hc <;>
      simp [cSeq, cRep, cOpt, cX, cY, mayBeEmpty, mayBeEmptySeq, NoEoi, NoEois]
  · rintro (_ | _ | i) c hc <;>
      simp [sampleEmpty] at hc <;> subst hc <;>
      simp [cSeq, cRep, cOpt, cX, cY, leftNodes, leftNodesSeq, mayBeEmpty, mayBeEmptySeq]

end Verif.Props
