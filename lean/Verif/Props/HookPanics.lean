/-
C73 with token hooks: parsing does not panic.
-/
import Verif.Proof.HooksPanic
import Verif.Props.NoPanic
import Verif.Props.HookHalts
import Verif.Props.Indent

namespace Verif.Props

open Verif Verif.Model Verif.Spec Verif.Spec.Ebnf Verif.Proof

variable {σ η : Type}

/-- C73, partial: a compiled grammar without `$` never panics when a text is parsed with any number of token hook layers if hooks do not panic by themselves
when peeking gives a token or an error (`HooksSafe`: they may do anything with tokens, even emit tokens of wrong types, and move in sources, but add no sources). Missing:
grammars with `$`, full source together with lookahead (false, `C73_full_source_panics`, `C73_end_panics`), hooks that add sources. -/
theorem C73_hooks_partial {upper : List Nat → List Nat} {find : Nat → List Nat → List Nat} {ts : List GToken}
    {bodies : List Chunk} {order1 order2 order3 : List Nat} {fuel : Nat} {g : Grammar}
    (h : Compiled upper find ts bodies order1 order2 order3 fuel g) (hne : ∀ c ∈ bodies, NoEoi c) (hroot : bodies ≠ [])
    (hbelow : ∀ c ∈ bodies, c.Below ts.length) (env : PEnv σ) (henv : env.g = g) (tenv : TEnv η) (htenv : tenv.g = g)
    (hls : ∀ l ∈ tenv.lexers, TypesBelow ts.length l) (hsome : ∃ l ∈ tenv.lexers, l.typeMask ≠ 0)
    {Q : η → Prop} {layers : List (TokenLayer η)} (hs : HooksSafe ts.length Q layers)
    (hfull : env.fullSource = true → ∀ s k, (tableOf g s k).length ≤ 1) (st : η) (hst : Q st) (src : SrcQueue) {l : SrcList.State Src}
    (hq : Lexer.Holds src l) (hlen : l.length + 1 < 2 ^ 31) (pos : SrcPos) (k n : Nat) :
    parse (pipelineEnv env tenv layers k) n ⟨layers.map fun _ => [], ⟨src, st⟩⟩ pos ≠ .panic := by
  subst henv
  obtain ⟨h1, h2⟩ := compiled_sound h hne hroot hbelow
  rw [← h2] at hls hs
  refine C73_no_panic_partial (env := pipelineEnv env tenv layers k) h1 (hooks_answers env tenv htenv hls hsome hs k l.length)
    (hooks_answers env tenv htenv hls hsome hs k (l.length + 1)) ?_ (hooks_takesBack env tenv layers k l.length (by omega)) ?_ n ?_ pos
  · rintro q ⟨⟨l', h3, h4⟩, h5, h6, h7⟩
    exact ⟨⟨l', h3, by omega⟩, h5, h6, h7⟩
  · rintro hf ⟨s, key, hc⟩
    have := hfull hf s key
    omega
  · refine ⟨⟨l, hq, le_refl _⟩, hst, by simp, ?_⟩
    intro q hq t ht
    obtain ⟨-, -, rfl⟩ := List.mem_map.mp hq
    cases ht

/-- C73, partial: together with C30: a parse of any text with token hook layers ends with a result or with an error. Missing: the same as in `C73_hooks_partial` and in
`C30_hooks_compiled_partial`. -/
theorem C73_hooks_ends_partial {upper : List Nat → List Nat} {find : Nat → List Nat → List Nat} {ts : List GToken}
    {bodies : List Chunk} {order1 order2 order3 : List Nat} {fuel : Nat} {g : Grammar}
    (h : Compiled upper find ts bodies order1 order2 order3 fuel g) (hne : ∀ c ∈ bodies, NoEoi c) (hroot : bodies ≠ [])
    (hbelow : ∀ c ∈ bodies, c.Below ts.length) {E : Nat → Bool} (hmv : Moves E bodies) (hsafe : SafeMachines bodies order2 order3 fuel)
    (env : PEnv σ) (henv : env.g = g) (tenv : TEnv η) (htenv : tenv.g = g) (hls : ∀ l ∈ tenv.lexers, TypesBelow ts.length l)
    (hsome : ∃ l ∈ tenv.lexers, l.typeMask ≠ 0) {Q : η → Prop} {layers : List (TokenLayer η)} (hs : HooksSafe ts.length Q layers)
    {φ : Nat → η → Nat} {K : Nat} (hb : HooksBound φ K layers)
    (hfull : env.fullSource = true → ∀ s k, (tableOf g s k).length ≤ 1) (st : η) (hst : Q st) (src : SrcQueue) {l : SrcList.State Src}
    (hq : Lexer.Holds src l) (hlen : l.length + 1 < 2 ^ 31) (pos : SrcPos) :
    ∃ r N, ∀ k n, N ≤ k → N ≤ n → parse (pipelineEnv env tenv layers k) n ⟨layers.map fun _ => [], ⟨src, st⟩⟩ pos = .done r := by
  obtain ⟨r, h1, N, h2⟩ := C30_hooks_compiled_partial h hmv hsafe env henv tenv (fun l hl => by
    obtain ⟨re, types, h3, h4, -⟩ := hls l hl
    exact ⟨re, types, h3, h4⟩) hb st src hq hlen pos
  have h3 := C73_hooks_partial h hne hroot hbelow env henv tenv htenv hls hsome hs hfull st hst src hq hlen pos N N
  have h4 := h2 N N (le_refl _) (le_refl _)
  dsimp only at h4
  rw [h4] at h3
  cases r with
  | panic => exact absurd rfl h3
  | timeout => exact absurd rfl h1
  | done r => exact ⟨r, N, h2⟩

/-- C73: layers made by the parser have places for all special tokens, and contain nothing but hooks given. -/
theorem C73_layer_made (g : Grammar) (extra made : List (List Nat)) (hs : THooks η) (layer : TokenLayer η)
    (h : newTokenLayer g extra hs = some (some (made, some layer))) :
    4 ≤ layer.length ∧ ∀ k, some k ∈ layer → k ∈ hs.tokens.map (·.2) ∨ k ∈ hs.literals.map (·.2) :=
  newTokenLayer_members h

/-- C73: standard layers "convert" and "indent" are safe in any number and order. -/
theorem C73_standard_layers (g : Grammar) (n : Nat) (layers : List (TokenLayer IndentState))
    (h : ∀ layer ∈ layers, ∃ extra made cs, (∃ l, indentSetup g cs = some (.ok l) ∧ newTokenLayer g extra l.hooks = some (some (made, some layer))) ∨
      ∃ hs, convertSetup g cs = .ok hs ∧ newTokenLayer g extra hs = some (some (made, some layer))) :
    HooksSafe n (fun _ => True) layers := by
  intro layer hl
  obtain ⟨extra, made, cs, ⟨l, h1, h2⟩ | ⟨hs, h1, h2⟩⟩ := h layer hl
  · obtain ⟨h3, h4⟩ := newTokenLayer_members h2
    refine ⟨h3, fun k hk => ?_⟩
    have : k = indentHandle l := by
      rcases h4 k hk with h5 | h5
      · simpa [IndentLayer.hooks] using h5
      · simp [IndentLayer.hooks] at h5
    subst this
    exact indent_safe l n
  · obtain ⟨h3, h4⟩ := newTokenLayer_members h2
    refine ⟨h3, fun k hk => ?_⟩
    unfold convertSetup at h1
    split at h1
    · cases h1
    · split at h1
      · cases h1
      · rename_i v hv hg
        cases h1
        have : ∃ o, k = convertHook o v := by
          rcases h4 k hk with h5 | h5
          · exact ⟨_, by simpa using h5⟩
          · simp at h5
        obtain ⟨o, rfl⟩ := this
        exact convert_safe o v n

/-- Peeks a token and panics if there is none. -/
def trusting : TokenHook Nat := fun st _ => .peek fun r =>
  match r with
  | .ok none => .crash
  | .ok (some t) => .call (.rewind 1) (.ret (st + 1) false [t, madeToken 70 "?"])
  | .error _ => .fail st 3

theorem trusting_safe (n : Nat) : HooksSafe n (fun _ => True) [later, oneHook 1 trusting] := by
  intro layer hl
  rw [List.mem_cons, List.mem_singleton] at hl
  rcases hl with rfl | rfl
  · refine ⟨by decide, fun h hh => ?_⟩
    simp only [later, List.mem_cons, List.not_mem_nil, Option.some.injEq, reduceCtorEq, false_or, or_false] at hh
    rcases hh with rfl | rfl
    · exact fun _ _ _ _ => trivial
    · exact fun _ _ _ _ _ _ => trivial
  · refine ⟨by decide, fun h hh => ?_⟩
    simp [oneHook] at hh
    subst hh
    intro st t _ _ r hr
    rcases r with e | (_ | t')
    · trivial
    · exact absurd rfl hr.1
    · exact ⟨trivial, trivial⟩

/-- The hypotheses are met by two layers of hooks that peek, move in sources and emit wrong tokens; the parse reports the wrong token. -/
example : HooksSafe sampleTokens.length (fun _ => True) [later, oneHook 1 trusting] ∧
    pipeParse [cSeq [cRep [.token 1], cRep [.token 0]]] [later, oneHook 1 trusting] "a1b2" 60 ≠ .accepted ∧
    pipeParse [cSeq [cRep [.token 1], cRep [.token 0]]] [later, oneHook 1 trusting] "a1b2" 60 ≠ .timeout ∧
    pipeParse [cSeq [cRep [.token 1], cRep [.token 0]]] [later, oneHook 1 trusting] "ab" 60 = .accepted := by
  exact ⟨trusting_safe _, by decide +kernel, by decide +kernel, by decide +kernel⟩

/-- Both conditions together. -/
example : HooksSafe sampleTokens.length (fun _ => True) [later, oneHook 1 twice] ∧ HooksBound laterOwes 1 [later, oneHook 1 twice] := by
  refine ⟨?_, later_bound⟩
  intro layer hl
  rw [List.mem_cons, List.mem_singleton] at hl
  rcases hl with rfl | rfl
  · exact trusting_safe _ later (by simp)
  · refine ⟨by decide, fun h hh => ?_⟩
    simp [oneHook] at hh
    subst hh
    exact fun _ _ _ _ => trivial

/-- The layer of the sample is a standard one. -/
example : ∃ l layer, indentSetup indentGrammar sampleIndent = some (.ok l) ∧
    newTokenLayer indentGrammar [] l.hooks = some (some ([], some layer)) ∧ HooksSafe indentGrammar.tokens.length (fun _ => True) [layer] := by
  have hc : (match indentSetup indentGrammar sampleIndent with
    | some (.ok l) =>
      match newTokenLayer indentGrammar [] l.hooks with
      | some (some ([], some layer)) => true
      | _ => false
    | _ => false) = true := by decide +kernel
  split at hc
  · next l h1 =>
    split at hc
    · next layer h2 =>
      refine ⟨l, layer, h1, h2, C73_standard_layers indentGrammar _ _ fun layer' hl => ?_⟩
      rw [List.mem_singleton] at hl
      subst hl
      exact ⟨[], [], sampleIndent, .inl ⟨l, h1, h2⟩⟩
    · cases hc
  · cases hc

end Verif.Props
