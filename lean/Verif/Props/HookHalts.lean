/-
C30 with token hooks: parsing stops.
-/
import Verif.Proof.HooksRest
import Verif.Props.ParseHalts

namespace Verif.Props

open Verif Verif.Model Verif.Spec Verif.Spec.Ebnf Verif.Proof

variable {σ η : Type}

/-- C30, partial: a parse with any number of token hook layers stops if hooks add finitely many tokens (`HooksBound`) and no state of the grammar may be
reached from itself without ordinary tokens. Node hooks and conflicts are any, hooks may peek any number of tokens, drop, replace and hold back tokens, and skip parts
of sources. Missing: other grammars, other hooks; it is false for them (see below). -/
theorem C30_hooks_partial (env : PEnv σ) (tenv : TEnv η) (hls : LexersOk tenv.lexers) {layers : List (TokenLayer η)} {φ : Nat → η → Nat} {K : Nat}
    (hb : HooksBound φ K layers) {m : Nat → Int → List Rule} (hm : Means env.g.tables m) (hl : NoIdleLoops env.g m) (st : η) (src : SrcQueue)
    {l : SrcList.State Src} (hq : Lexer.Holds src l) (hlen : l.length + 1 < 2 ^ 31) (pos : SrcPos) :
    Stops fun k n => parse (pipelineEnv env tenv layers k) n ⟨layers.map fun _ => [], ⟨src, st⟩⟩ pos := by
  have hs : Supply (fun k ls types => pullToken tenv k types layers ls) (HooksLeft φ K l.length layers) := by
    intro ls n types h
    obtain ⟨r, ⟨N, h1⟩, h2, h3⟩ := layers_halt hls types hb ls n h
    exact ⟨r, N, fun k hk => h1 k k hk hk, h2, fun ls' res he => (h3 _ he).1⟩
  obtain ⟨μ, hf⟩ := feeds_of_supply hs
  obtain ⟨w, skip, hd⟩ := descends_of_noIdleLoops hm hl
  have hr : RestFeeds (fun k ls types => pullToken tenv k types layers ls)
      (fun ls n => AnySources (l.length + 1) ls ∧ HooksAhead φ K (l.length + 1) layers ls n) := by
    rintro ls n types ⟨h1, h2⟩
    refine (layers_rest hls types hb ls n h1 h2).mono ?_
    rintro ⟨ls', res⟩ ⟨h3, h4, -⟩ t h5 h6
    obtain ⟨n', h7, h8⟩ := h4 t h5 h6
    exact ⟨n', h7, h3, h8⟩
  have hi : ∃ n, HooksLeft φ K l.length layers ⟨layers.map fun _ => [], ⟨src, st⟩⟩ n := by
    clear hb hs hf hr
    induction layers with
    | nil => exact ⟨_, l, hq, le_refl _, rfl⟩
    | cons hooks rest ih =>
      obtain ⟨n, h⟩ := ih
      exact ⟨_, HooksLeft.queue (hooks := hooks) h (xs := []) (es := []) (by simp) (by simp) (by simp)⟩
  have hpp : ∀ ls, (∃ n, HooksLeft φ K l.length layers ls n) → ∃ n, AnySources (l.length + 1) ls ∧ HooksAhead φ K (l.length + 1) layers ls n := by
    rintro ls ⟨n, h⟩
    obtain ⟨l', h1, h2⟩ := h.holds
    obtain ⟨n', h3⟩ := h.unread h1 (show l'.length ≤ l.length + 1 by omega)
    exact ⟨n', ⟨l', h1, by omega⟩, h3⟩
  have hu : ∀ ls t ls', (∃ n, HooksLeft φ K l.length layers ls n) → t.type ≠ -3 → (pipelineEnv env tenv layers 0).unread ls t = some ls' →
      ∃ n, AnySources (l.length + 1) ls' ∧ HooksAhead φ K (l.length + 1) layers ls' n := by
    rintro ls t ls' ⟨n, h⟩ - hu
    obtain ⟨q, h3, rfl⟩ := Option.map_eq_some_iff.mp hu
    obtain ⟨l', h1, h2⟩ := h.holds
    obtain ⟨l2, h4, h5⟩ := unread_sources h1 (by omega) h3
    obtain ⟨n', h6⟩ := h.unread h4 (show l2.length ≤ l.length + 1 by omega)
    exact ⟨n', ⟨l2, h4, by omega⟩, h6⟩
  obtain ⟨r, hr', hne, -⟩ := parse_halts_rest (env := pipelineEnv env tenv layers 0) (pull := fun k ls types => pullToken tenv k types layers ls) hf
    (fun pc ⟨n, h⟩ => restLoop_rest hr _ pc n h rfl) hpp hu (means_ofStates hm) hd _ hi pos
  exact ⟨r, hne, hr'⟩

/-- C30, partial: the same for a compiled grammar with a condition on definitions of nodes. Missing: the same as in `C30_hooks_partial` and
`C30_compiled_partial`. -/
theorem C30_hooks_compiled_partial {upper : List Nat → List Nat} {find : Nat → List Nat → List Nat} {ts : List GToken}
    {bodies : List Chunk} {order1 order2 order3 : List Nat} {fuel : Nat} {g : Grammar}
    (h : Compiled upper find ts bodies order1 order2 order3 fuel g) {E : Nat → Bool} (hmv : Moves E bodies)
    (hsafe : SafeMachines bodies order2 order3 fuel) (env : PEnv σ) (henv : env.g = g) (tenv : TEnv η) (hls : LexersOk tenv.lexers)
    {layers : List (TokenLayer η)} {φ : Nat → η → Nat} {K : Nat} (hb : HooksBound φ K layers) (st : η) (src : SrcQueue)
    {l : SrcList.State Src} (hq : Lexer.Holds src l) (hlen : l.length + 1 < 2 ^ 31) (pos : SrcPos) :
    Stops fun k n => parse (pipelineEnv env tenv layers k) n ⟨layers.map fun _ => [], ⟨src, st⟩⟩ pos := by
  subst henv
  obtain ⟨m, hm, hl⟩ := compiled_noIdleLoops h hmv hsafe
  exact C30_hooks_partial env tenv hls hb hm hl st src hq hlen pos

/-- Drops the token and goes back to it. -/
def again : TokenHook Nat := fun st _ => .call (.rewind 1) (.ret st false [])

theorem again_loops (g : Grammar) (hg : g.tokens = sampleTokens) (k n : Nat) :
    hookLoop (⟨g, [pipeLexer], []⟩ : TEnv Nat) k (oneHook 1 again) (pullToken ⟨g, [pipeLexer], []⟩ k 6 []) n [] ⟨[], ⟨textQueue "1", 0⟩⟩ = .timeout := by
  have hm : ¬ (6 : TokenTypeSet) &&& pipeLexer.typeMask = 0 := by decide +kernel
  induction n with
  | zero => rfl
  | succ n ih =>
    rw [hookLoop]
    simp only [pullToken, fetchToken, fetchLoop, Lexer.nextOf, if_neg hm]
    cases k with
    | zero => rfl
    | succ k =>
      have h1 : pipeLexer.fetch (textQueue "1") (6 : TokenTypeSet) = some (({ textQueue "1" with pos := 1 },
          .ok (some { type := 1, typeName := "d", content := [49], pos := ⟨some (textSource 1 "1"), 0⟩ })), true) := by decide +kernel
      have h2 : pickHook (⟨g, [pipeLexer], []⟩ : TEnv Nat) (oneHook 1 again)
          { type := 1, typeName := "d", content := [49], pos := ⟨some (textSource 1 "1"), 0⟩ } = some (some again) := by
        unfold pickHook Grammar.pcLiteral Grammar.literal
        simp only [hg]
        rfl
      have h3 : (QueueCall.rewind 1).run { textQueue "1" with pos := 1 } = some (textQueue "1") := by decide +kernel
      simp only [Lexer.nextOfLoop, h1, Tree.bindRun, handleToken, h2, orPanic, again, HookProg.run, h3, TC.restore, Except.map]
      exact ih

/-- C30 is false for other hooks: a hook that drops a token and goes back to it, `root = $d`, text `1`. -/
theorem C30_endless_hook : ∃ g, sampleCompile [cSeq [.token 1]] = .done (.ok g) ∧
    ∀ k n, parse (pipelineEnv (streamEnv g) ⟨g, [pipeLexer], []⟩ [oneHook 1 again] k) n ⟨[[]], ⟨textQueue "1", 0⟩⟩ ⟨none, 0⟩ = .timeout := by
  have hc : (match sampleCompile [cSeq [.token 1]] with
    | .done (.ok g) => decide (g.firsts[0]? = some 0) && ((g.tables.states[0]?).any fun gs => decide (gs.types = 6)) && decide (g.tokens = sampleTokens)
    | _ => false) = true := by decide +kernel
  split at hc
  · rename_i g hg
    simp only [Bool.and_eq_true, decide_eq_true_eq] at hc
    obtain ⟨⟨h1, h2⟩, h3⟩ := hc
    obtain ⟨gs, h4, h5⟩ : ∃ gs, g.tables.states[0]? = some gs ∧ gs.types = 6 := by
      cases h : g.tables.states[0]? with
      | none => rw [h] at h2; cases h2
      | some gs => rw [h] at h2; exact ⟨gs, rfl, of_decide_eq_true h2⟩
    refine ⟨g, hg, fun k n => ?_⟩
    unfold parse
    have hp : pushNode (pipelineEnv (streamEnv g) ⟨g, [pipeLexer], []⟩ [oneHook 1 again] k) ({ src := ⟨[[]], ⟨textQueue "1", 0⟩⟩ } : PC (LState Nat)) rootNode
        (some { type := anyToken, typeName := "", content := [], pos := ⟨none, 0⟩ }) =
        .done (.ok { src := ⟨[[]], ⟨textQueue "1", 0⟩⟩, stack := [{ types := gs.types, index := 0, state := 0, hooks := [] }] }) := by
      simp only [pushNode, addNode, pipelineEnv, streamEnv, List.range_zero, makeHooks, rootNode, h1, orPanic, h4]
      rfl
    rw [hp]
    simp only [bindRes, parseLoop]
    rcases n with _ | n
    · rfl
    · rw [outer]
      dsimp only
      have hn : nextToken (pipelineEnv (streamEnv g) ⟨g, [pipeLexer], []⟩ [oneHook 1 again] k) n
          ({ src := ⟨[[]], ⟨textQueue "1", 0⟩⟩, stack := [{ types := gs.types, index := 0, state := 0, hooks := [] }] } : PC (LState Nat)) gs.types = .timeout := by
        rcases n with _ | n
        · rfl
        · simp only [nextToken, nextLoop, pipelineEnv, pullToken, h5]
          have := again_loops g h3 k k
          simp only [pullToken] at this
          rw [this]
          rfl
      rw [hn]
      rfl
  · cases hc

/-- Doubles tokens. -/
def twice : TokenHook Nat := fun st tok => .ret st true [tok]

/-- Takes letters and counts them, gives as many letters at the end of input. -/
def later : TokenLayer Nat :=
  [some fun st _ => .ret 0 false (List.replicate st (madeToken 0 "b")), none, none, some fun st _ => .peek fun _ => .ret (st + 1) false []]

/-- What hooks of `later` owe. -/
def laterOwes (i st : Nat) : Nat := if i = 1 then st else 0

theorem later_bound : HooksBound laterOwes 1 [later, oneHook 1 twice] := by
  refine ⟨?_, ?_, trivial⟩
  · intro j h hj st t ht
    match j, hj with
    | 0, hj =>
      cases hj
      have ht : t.type = eoiTokenType := ht.mpr rfl
      refine ⟨fun j hj => ?_, ?_⟩
      · have hj : j ≠ 1 := hj
        simp [laterOwes, hj]
      · rw [if_pos ht]
        refine ⟨rfl, List.replicate st (madeToken 0 "b"), [], by simp, ?_, by simp, ?_, by simp⟩
        · intro x hx
          rw [List.eq_of_mem_replicate hx]
          decide
        · rw [List.length_replicate]
          exact le_refl _
    | 1, hj => cases hj
    | 2, hj => cases hj
    | 3, hj =>
      cases hj
      have ht : ¬ t.type = eoiTokenType := fun hc => by have := ht.mp hc; omega
      refine fun r _ => ⟨fun j hj => ?_, ?_⟩
      · have hj : j ≠ 1 := hj
        simp [laterOwes, hj]
      · rw [if_neg ht]
        exact ⟨by simp [laterOwes], by simp⟩
    | j + 4, hj => cases hj
  · intro j h hj st t ht
    have hj' : j = 4 ∧ h = twice := by
      match j, hj with
      | 0, hj => cases hj
      | 1, hj => cases hj
      | 2, hj => cases hj
      | 3, hj => cases hj
      | 4, hj => cases hj; exact ⟨rfl, rfl⟩
      | j + 5, hj => cases hj
    obtain ⟨rfl, rfl⟩ := hj'
    have ht : ¬ t.type = eoiTokenType := fun hc => by have := ht.mp hc; omega
    refine ⟨fun j _ => le_refl _, ?_⟩
    rw [if_neg ht]
    exact ⟨by simp [laterOwes], by simpa using ht⟩

/-- All hypotheses about hooks hold for two layers, and a text is accepted only together with them: `root = {$d}, {$n}`. -/
example : HooksBound laterOwes 1 [later, oneHook 1 twice] ∧
    pipeParse [cSeq [cRep [.token 1], cRep [.token 0]]] [later, oneHook 1 twice] "a1b2" 60 = .accepted ∧
    pipeParse [cSeq [cRep [.token 1], cRep [.token 0]]] [] "a1b2" 60 ≠ .accepted := by
  refine ⟨later_bound, by decide +kernel, by decide +kernel⟩

end Verif.Props
