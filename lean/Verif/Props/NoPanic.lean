/-
C73: parsing does not panic.
-/
import Verif.Proof.NoPanicTables
import Verif.Props.ParseHalts
import Verif.Props.Eoi

namespace Verif.Props

open Verif Verif.Model Verif.Spec Verif.Spec.Ebnf Verif.Proof

variable {σ η : Type}

/-- C73, partial: a parse does not panic if rules of the tables lead to existing states and nodes and expected tokens may be named
(`SoundTables`), the source of tokens does not panic, gives tokens of known types, and a request for any token gets a token or an error
(`Answers`, `TakesBack`). Conflicts, node hooks and side tokens are any. If the whole source must be parsed and the grammar has
conflicts then requests made by lookahead must get tokens or errors, too. Missing: full source together with lookahead, sources that have nothing to
give; it is false for them (see below). -/
theorem C73_no_panic_partial {env : PEnv σ} {m : Table} {S S' : σ → Prop} {Given : Token → Prop} (hg : SoundTables env.g m)
    (ha : Answers env S Given) (ha' : Answers env S' Given) (hss : ∀ q, S q → S' q) (hu : TakesBack env S S' Given)
    (hahead : env.fullSource = true → (∃ s k, 1 < (m s k).length) → ∀ types, types ≠ 0 → CoversState env.g types → AlwaysAnswers env S types)
    (fuel : Nat) {q : σ} (hq : S q) (pos : SrcPos) : parse env fuel q pos ≠ .panic := by
  intro he
  have := parse_fine hg ha ha' hss hu hahead fuel hq pos
  rw [he] at this
  exact this

/-- C73, partial: a compiled grammar without `$` never panics when a text is parsed, whatever the text is, valid or not. Missing: grammars with `$`,
full source together with lookahead; it is false for them (see below). Token hooks are in `C73_hooks_partial`. -/
theorem C73_text_partial {upper : List Nat → List Nat} {find : Nat → List Nat → List Nat} {ts : List GToken}
    {bodies : List Chunk} {order1 order2 order3 : List Nat} {fuel : Nat} {g : Grammar}
    (h : Compiled upper find ts bodies order1 order2 order3 fuel g) (hne : ∀ c ∈ bodies, NoEoi c) (hroot : bodies ≠ [])
    (hbelow : ∀ c ∈ bodies, c.Below ts.length) (env : PEnv σ) (henv : env.g = g) (tenv : TEnv η)
    (hls : ∀ l ∈ tenv.lexers, TypesBelow ts.length l) (hsome : ∃ l ∈ tenv.lexers, l.typeMask ≠ 0)
    (hfull : env.fullSource = true → ∀ s k, (tableOf g s k).length ≤ 1) (ls : LState η) {l : SrcList.State Src} (hq : Lexer.Holds ls.ps.src l)
    (hlen : l.length + 1 < 2 ^ 31) (pos : SrcPos) (k n : Nat) : parse (pipelineEnv env tenv [] k) n ls pos ≠ .panic := by
  subst henv
  obtain ⟨h1, h2⟩ := compiled_sound h hne hroot hbelow
  rw [← h2] at hls
  refine C73_no_panic_partial (env := pipelineEnv env tenv [] k) h1 (pipeline_answers env tenv hls hsome k l.length)
    (pipeline_answers env tenv hls hsome k (l.length + 1)) ?_ (pipeline_takesBack env tenv k l.length (by omega)) ?_ n ⟨l, hq, le_refl _⟩ pos
  · rintro q ⟨l', h3, h4⟩
    exact ⟨l', h3, by omega⟩
  · rintro hf ⟨s, key, hc⟩
    have := hfull hf s key
    omega

/-- C73, partial: together with C30: a parse of any text ends with a result or with an error. Missing: the same as in `C73_text_partial` and in
`C30_compiled_partial`. -/
theorem C73_ends_partial {upper : List Nat → List Nat} {find : Nat → List Nat → List Nat} {ts : List GToken}
    {bodies : List Chunk} {order1 order2 order3 : List Nat} {fuel : Nat} {g : Grammar}
    (h : Compiled upper find ts bodies order1 order2 order3 fuel g) (hne : ∀ c ∈ bodies, NoEoi c) (hroot : bodies ≠ [])
    (hbelow : ∀ c ∈ bodies, c.Below ts.length) {E : Nat → Bool} (hmv : Moves E bodies) (hsafe : SafeMachines bodies order2 order3 fuel)
    (env : PEnv σ) (henv : env.g = g) (tenv : TEnv η) (hls : ∀ l ∈ tenv.lexers, TypesBelow ts.length l) (hsome : ∃ l ∈ tenv.lexers, l.typeMask ≠ 0)
    (hfull : env.fullSource = true → ∀ s k, (tableOf g s k).length ≤ 1) (ls : LState η) {l : SrcList.State Src} (hq : Lexer.Holds ls.ps.src l)
    (hlen : l.length + 1 < 2 ^ 31) (pos : SrcPos) :
    ∃ r N, ∀ k n, N ≤ k → N ≤ n → parse (pipelineEnv env tenv [] k) n ls pos = .done r := by
  obtain ⟨r, h1, N, h2⟩ := C30_compiled_partial h hmv hsafe env henv tenv (fun l hl => by
    obtain ⟨re, types, h3, h4, -⟩ := hls l hl
    exact ⟨re, types, h3, h4⟩) ls hq hlen pos
  have h3 := C73_text_partial h hne hroot hbelow env henv tenv hls hsome hfull ls hq hlen pos N N
  have h4 := h2 N N (le_refl _) (le_refl _)
  dsimp only at h4
  rw [h4] at h3
  cases r with
  | panic => exact absurd rfl h3
  | timeout => exact absurd rfl h1
  | done r => exact ⟨r, N, h2⟩

/-- `root = $n | ($n, $n)`. -/
def sampleOneOrTwo : List Chunk := [cSeq [.variant [.token 0, cSeq [.token 0, .token 0]]]]

/-- Parses a text using the lexer, with or without an error for the rest of the text. -/
def restParse (full : Bool) (defs : List Chunk) (s : String) (fuel : Nat) : Outcome :=
  match sampleCompile defs with
  | .done (.ok g) =>
    match parse (pipelineEnv { streamEnv g with fullSource := full } { g := g, lexers := [pipeLexer] } ([] : List (TokenLayer Nat)) fuel) fuel
        ⟨[], { src := textQueue s, st := 0 }⟩ ⟨none, 0⟩ with
    | .done (.ok _) => .accepted
    | .done (.error e) => .failed e
    | .panic => .panic
    | .timeout => .timeout
  | _ => .badGrammar

/-- C73 is false with lookahead and full source: for `root = $n | ($n, $n)` lookahead asks for letters, gets nil in place of the digit, and the check of
the rest of the text uses it. -/
theorem C73_full_source_panics : restParse true sampleOneOrTwo "a1" 60 = .panic ∧ restParse false sampleOneOrTwo "a1" 60 = .accepted ∧
    restParse true sampleOneOrTwo "a" 60 = .accepted ∧ restParse true sampleOneOrTwo "ab" 60 = .accepted := by decide +kernel

/-- C73 is false with the end of input in definitions: `root = $n, $`. -/
theorem C73_end_panics : restParse true [cSeq [.token 0, .eoi]] "a1" 60 = .panic ∧ restParse false [cSeq [.token 0, .eoi]] "a1" 60 = .panic := by
  decide +kernel

theorem pipeLexer_below : TypesBelow sampleTokens.length pipeLexer := by
  refine ⟨_, _, pipeRe_ok.1, rfl, fun k t ht => ?_⟩
  have : sampleTokens.length = 8 := by decide
  rw [this]
  match k, ht with
  | 0, ht => simp [Lex.groupType] at ht; subst ht; decide
  | 1, ht => simp [Lex.groupType] at ht; subst ht; decide
  | 2, ht => simp [Lex.groupType] at ht; subst ht; decide
  | k + 3, ht => simp [Lex.groupType] at ht

/-- The hypotheses are met by a grammar with conflicts, and by a text. -/
example : ∃ g, Compiled id sampleFind sampleTokens sampleConflict (List.range 4) (List.range 4) (List.range 4) 100 g ∧
    (∀ c ∈ sampleConflict, NoEoi c) ∧ sampleConflict ≠ [] ∧ (∀ c ∈ sampleConflict, c.Below sampleTokens.length) ∧
    (∃ s k, 1 < (tableOf g s k).length) ∧ (∀ l ∈ [pipeLexer], TypesBelow sampleTokens.length l) ∧ (∃ l ∈ [pipeLexer], l.typeMask ≠ 0) ∧
    ∃ l, Lexer.Holds (textQueue "abx c12 d3 y") l ∧ l.length + 1 < 2 ^ 31 := by
  have hwf : ∀ c ∈ sampleConflict, WF c ∧ IsBody c := by
    simp [sampleConflict, cSeq, cRep, cOpt, cX, cY, WF, WFs, IsBody]
  have hrefs : ∀ c ∈ sampleConflict, ∀ j ∈ refs c, j < 4 := by
    simp [sampleConflict, cSeq, cRep, cOpt, cX, cY, refs, refsAll]
  have hc : (match sampleCompile sampleConflict with
    | .done (.ok g) => g.tables.states.zipIdx.any fun s => (List.range 8).any fun k => decide (1 < (tableOf g s.2 k).length)
    | _ => false) = true := by decide +kernel
  split at hc
  · rename_i g hg
    refine ⟨g, ⟨hg, hwf, hrefs, List.Perm.refl _, List.Perm.refl _⟩, ?_, by simp [sampleConflict], ?_, ?_, ?_, ?_, ?_⟩
    · simp [sampleConflict, cSeq, cRep, cOpt, cX, cY, NoEoi, NoEois]
    · simp [sampleConflict, cSeq, cRep, cOpt, cX, cY, Chunk.Below, Chunk.BelowAll, sampleTokens]
    · rw [List.any_eq_true] at hc
      obtain ⟨s, -, hc⟩ := hc
      rw [List.any_eq_true] at hc
      obtain ⟨k, -, hc⟩ := hc
      exact ⟨s.2, k, by simpa using hc⟩
    · intro l hl
      rw [List.mem_singleton.mp hl]
      exact pipeLexer_below
    · exact ⟨pipeLexer, by simp, by decide⟩
    · obtain ⟨q, e, r⟩ := SrcQueue.new_rep
      obtain ⟨q1, e1, r1⟩ := r.append (textSource 1 "abx c12 d3 y")
      have hq : q = ⟨emptyRing, none, 0⟩ := by
        have : SrcQueue.new = some ⟨emptyRing, none, 0⟩ := by decide +kernel
        rw [this] at e
        exact (Option.some.inj e).symm
      subst hq
      have h1 : SrcQueue.append ⟨emptyRing, none, 0⟩ (textSource 1 "abx c12 d3 y") = some (textQueue "abx c12 d3 y") := by decide +kernel
      rw [h1] at e1
      cases e1
      exact ⟨[(textSource 1 "abx c12 d3 y", 0)], ⟨r1, ⟨by simp [Src.len], by simp, by simp⟩, by simp⟩, by simp⟩
  · cases hc

/-- Texts with errors of all kinds: an unexpected token, an unexpected end, a wrong character. -/
example : (restParse false sampleConflict "abx c12 d3 y" 100 = .accepted) ∧ (restParse false sampleConflict "1" 100 ≠ .panic) ∧
    (restParse false sampleConflict "" 100 ≠ .panic) ∧ (restParse false sampleConflict "ab!" 100 ≠ .panic) := by decide +kernel

end Verif.Props
