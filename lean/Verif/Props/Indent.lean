/-
C44: "indent" layer.
-/
import Verif.Proof.IndentSetup
import Verif.Props.Pipeline

namespace Verif.Props

open Verif.Model Verif.Spec Verif.Spec.Indent Verif.Spec.Layers Verif.Proof Verif.Proof.Indent

/-- C44: exactly correct configurations are accepted (unknown commands are skipped): there are commands "space", each having
at least one argument, exactly one "on-indent" and exactly one "on-dedent", each having exactly one argument, all types are
known and none of them is a special one. -/
theorem C44_setup (g : Grammar) (hn : g.tokenName [] = some anyToken) (cs : List LayerCommand) :
    (∃ l, indentSetup g cs = some (.ok l)) ↔ IndentOk g cs :=
  ⟨fun ⟨_, h⟩ => (setup_fwd hn h).1, setup_bwd hn⟩

theorem indent_parts {g : Grammar} (hn : PlainNames g) {cs : List LayerCommand} {l : IndentLayer}
    (h : indentSetup g cs = some (.ok l)) : l.g = g ∧ l.role = roleOf g cs ∧ PlainRoles l ∧ ∃ opened closed,
      l.g.makeToken l.indentType [] = some opened ∧ l.g.makeToken l.dedentType [] = some closed ∧
      EmitsToken g cs "on-indent" opened ∧ EmitsToken g cs "on-dedent" closed := by
  obtain ⟨ok, rfl, h2, h3, h4⟩ := setup_fwd hn.1 h
  obtain ⟨r1, r2⟩ := role_eq h4
  obtain ⟨ni, e1, ki, e2, e3⟩ := ok.onIndent
  obtain ⟨nd, f1, kd, f2, f3⟩ := ok.onDedent
  rw [h2] at e1; cases e1
  rw [h3] at f1; cases f1
  refine ⟨rfl, r1, r2, _, _, by rw [Grammar.makeToken, e2]; rfl, by rw [Grammar.makeToken, f2]; rfl, ⟨_, h2, e2, e3, rfl⟩, ⟨_, h3, f2, f3, rfl⟩⟩

/-- C44: when lower layers supply tokens of valid types and the end of input is the last one, the layer emits exactly what
the layout of lines requires, and reports an indentation error if the layout is wrong. The layer sees the same tokens when
it looks ahead (tokens are pending in the lower layer, so they do not depend on token types requested). -/
theorem C44_layout (g : Grammar) (hn : PlainNames g) (cs : List LayerCommand) (l : IndentLayer)
    (h : indentSetup g cs = some (.ok l)) (extra : List (List Nat)) :
    ∃ layer opened closed, newTokenLayer g extra l.hooks = some (some (extra, some layer)) ∧
      EmitsToken g cs "on-indent" opened ∧ EmitsToken g cs "on-dedent" closed ∧
      ∀ (env : TEnv IndentState) (fuel : Nat) (src : SrcQueue) (ts : List Token) (e : Token), env.g = g →
        (∀ t ∈ ts, g.isValidType t.type = true) → e.type = eoiTokenType →
        ∃ s', feedLayer env fuel layer ⟨src, {}⟩ (ts ++ [e]) = .done (⟨src, s'⟩,
          match layout (roleOf g cs) {} [] (ts ++ [e]) with
          | some marks => .ok (marks.map (Mark.token opened closed))
          | none => .error (.hook 1)) := by
  obtain ⟨rfl, hrole, hp, opened, closed, m1, m2, e1, e2⟩ := indent_parts hn h
  obtain ⟨layer, hl, hpick⟩ := indent_layer (l := l) extra hn
  refine ⟨layer, opened, closed, hl, e1, e2, ?_⟩
  intro env fuel src ts e henv hv he
  have hlast : ∀ us t, ts ++ [e] = us ++ [t] → t.type = eoiTokenType := by
    intro us t hut
    have := (List.append_inj' hut rfl).2
    cases this
    exact he
  have key := feed_layout hp m1 m2 (ts ++ [e]) {} {} [] [] ⟨by simp [levelsOf, Nested], fun _ => rfl, fun _ _ => rfl, by simp⟩
    (.start (by simp) (by simp) rfl rfl rfl) (fun us t hut => (role_eoi hp).2 (hlast us t hut))
  have hv' : ∀ t ∈ ts ++ [e], l.g.isValidType t.type = true := by
    intro t ht
    rcases List.mem_append.1 ht with ht | ht
    · exact hv t ht
    · rw [List.mem_singleton.1 ht, he]
      unfold Grammar.isValidType
      have e2 : eoiTokenType = -3 := rfl
      have e1 : anyToken = -1 := rfl
      exact decide_eq_true (by omega)
  rw [← hrole]
  cases hlay : layout l.role {} [] (ts ++ [e]) with
  | none =>
    rw [hlay] at key
    obtain ⟨s', hs'⟩ := feedLayer_feed (hpick env henv) hp fuel src (ts ++ [e]) {} hv' hlast key
    exact ⟨s', hs'⟩
  | some marks =>
    rw [hlay] at key
    obtain ⟨s1, out, k1, k2⟩ := key
    obtain ⟨s', hs'⟩ := feedLayer_feed (hpick env henv) hp fuel src (ts ++ [e]) {} hv' hlast k1
    refine ⟨s', ?_⟩
    rw [hs']
    simp only [List.nil_append] at k2
    simp only [Except.map, Except.mapError, k2]

/-- C44: the layer works with any sources and lower layers, looking ahead may show tokens that differ from those received
later. If no error is reported then tokens emitted are tokens received and on-indent and on-dedent tokens, the latter are
paired. Every received token is emitted in order, except that tokens without text (including the end of file) may overtake
spaces, and the end of input is emitted twice. -/
theorem C44_balanced_partial (g : Grammar) (hn : PlainNames g) (cs : List LayerCommand) (l : IndentLayer)
    (h : indentSetup g cs = some (.ok l)) (extra : List (List Nat)) :
    ∃ layer opened closed, newTokenLayer g extra l.hooks = some (some (extra, some layer)) ∧
      EmitsToken g cs "on-indent" opened ∧ EmitsToken g cs "on-dedent" closed ∧
      ∀ (env : TEnv IndentState) (fuel : Nat) (ts : List Token) (e : Token) (out : List Token) (s' : IndentState), env.g = g →
        (∀ t ∈ ts, g.isValidType t.type = true ∧ t.type ≠ eoiTokenType) → e.type = eoiTokenType →
        Handles env fuel layer {} (ts ++ [e]) out s' →
        ∃ marks, out = marks.map (Mark.token opened closed) ∧ Balanced marks ∧
          (originals marks).filter (¬ Textless ·) = ts.filter (¬ Textless ·) ++ [e, e] ∧
          (originals marks).filter (Textless ·) = ts.filter (Textless ·) := by
  obtain ⟨rfl, hrole, hp, opened, closed, m1, m2, e1, e2⟩ := indent_parts hn h
  obtain ⟨layer, hl, hpick⟩ := indent_layer (l := l) extra hn
  refine ⟨layer, opened, closed, hl, e1, e2, ?_⟩
  intro env fuel ts e out s' henv hv he hh
  obtain ⟨marks, k1, k2, k3, k4⟩ := handles_marks (hpick env henv) hp m1 m2 fuel e he ts {} s' out
    ⟨by simp [levelsOf, Nested], fun _ => rfl, fun _ _ => rfl, by simp⟩ hv hh
  have htext : ∀ t : Token, l.role t = .empty ↔ Textless t := by
    intro t
    constructor
    · intro hr
      have h1 : t.type ≠ eoiTokenType := fun hc => by rw [(role_eoi hp).2 hc] at hr; cases hr
      refine ⟨h1, ?_⟩
      by_contra hc
      exact (role_text hp h1 (by simpa using hc)).2 hr
    · rintro ⟨h1, h2⟩
      unfold IndentLayer.role
      rw [if_neg h1, if_pos (by simpa using h2)]
  refine ⟨marks, k1, k2, ?_, ?_⟩
  · simpa only [ne_eq, htext, List.nil_append] using k3
  · simpa only [htext] using k4

/-! Samples -/

/-- Types: name 0, space 1, in 2, de 3, comment 4. -/
def indentGrammar : Grammar where
  tokens := [⟨bytesOf "name", some [], 0, {}⟩, ⟨bytesOf "space", some [], 0, { side := true, noLiterals := true }⟩,
    ⟨bytesOf "in", none, 0, { external := true }⟩, ⟨bytesOf "de", none, 0, { external := true }⟩,
    ⟨bytesOf "comment", some [], 0, { side := true, noLiterals := true }⟩]
  firsts := []
  tables := ⟨[], [], []⟩

/-- `@indent space(space) on-indent(in) on-dedent(de);` -/
def sampleIndent : List LayerCommand := [
  ⟨bytesOf "space", [bytesOf "space"]⟩, ⟨bytesOf "on-indent", [bytesOf "in"]⟩, ⟨bytesOf "on-dedent", [bytesOf "de"]⟩]

/-- The layer of the sample. -/
def sampleIndentLayer : IndentLayer := ⟨indentGrammar, bytesOf "in", bytesOf "de", [.common, .space, .common, .common, .side]⟩

theorem indentGrammar_names : PlainNames indentGrammar := by
  constructor <;> decide +kernel

theorem sampleIndent_setup : (match indentSetup indentGrammar sampleIndent with
    | some (.ok l) => decide (l.g = indentGrammar ∧ l.indentType = bytesOf "in" ∧ l.dedentType = bytesOf "de" ∧
        l.roles = [.common, .space, .common, .common, .side])
    | _ => false) = true := by decide +kernel

example : ∃ l, indentSetup indentGrammar sampleIndent = some (.ok l) := by
  have := sampleIndent_setup
  split at this
  · next l h => exact ⟨l, h⟩
  · cases this

/-- One-character names and comments, spaces and line breaks together. -/
def indentRe : Regexp
  | [] => none
  | c :: cs =>
    if c = 10 ∨ c = 32 then
      let k : Int := ((c :: cs).takeWhile fun c => c = 10 ∨ c = 32).length
      some [(0, k), (-1, -1), (0, k), (-1, -1)]
    else if c = 35 then some [(0, 1), (-1, -1), (-1, -1), (0, 1)]
    else some [(0, 1), (0, 1), (-1, -1), (-1, -1)]

/-- Lexer and grammar of samples. -/
def indentEnv : TEnv IndentState :=
  { g := indentGrammar, lexers := [Lexer.new indentRe [⟨0, "name"⟩, ⟨1, "space"⟩, ⟨4, "comment"⟩]] }

/-- Types of tokens pulled from the layer working with the source. -/
def pullTypes (layers : List (TokenLayer IndentState)) : Nat → LState IndentState → List (Option Int)
  | 0, _ => []
  | n + 1, ls =>
    match pullToken indentEnv 50 allTokenTypes layers ls with
    | .done (ls, .ok (some t)) => some t.type :: pullTypes layers n ls
    | .done (ls, .ok none) => none :: pullTypes layers n ls
    | _ => [none]

/-- Types of the first `n` tokens of the source pulled from a parser with the sample layer; `none` is an error. -/
def indentTypes (n : Nat) (s : String) : List (Option Int) :=
  match indentSetup indentGrammar sampleIndent with
  | some (.ok l) =>
    match newTokenLayer indentGrammar [] l.hooks with
    | some (some (_, some layer)) => pullTypes [layer] n ⟨[[]], ⟨textQueue s, {}⟩⟩
    | _ => []
  | _ => []

/-- `a`, then a block with `b` and `c`, then `d`. -/
example : indentTypes 13 "a\n b\n c\nd" = [some 0, some 2, some 1, some 0, some 1, some 0, some 3, some 1, some 0,
    some (-2), some (-3), some (-3), some (-3)] := by decide +kernel

/-- Blocks are closed at the end. -/
example : indentTypes 13 "a\n b\n  c" = [some 0, some 2, some 1, some 0, some 2, some 1, some 0,
    some (-2), some 3, some 3, some (-3), some (-3), some 3] := by decide +kernel

/-- A line comment has any indentation. A comment followed by a name is an error. -/
example : indentTypes 4 "a\n  #\nb" = [some 0, some 1, some 4, some 1] ∧ indentTypes 3 "a\n#b" = [some 0, none] ∧
    indentTypes 5 "a\n  b\n c" = [some 0, some 2, some 1, some 0, none] := by decide +kernel

/-- Tokens of the sample: `a`, an indented line with `b`, an end of file. -/
def indentTokens : List Token := [⟨0, "name", [97], ⟨none, 0⟩⟩, ⟨1, "space", [10, 32], ⟨none, 0⟩⟩, ⟨0, "name", [98], ⟨none, 0⟩⟩,
  ⟨-2, "", [], ⟨none, 0⟩⟩]

/-- The end of input. -/
def indentEnd : Token := ⟨-3, "", [], ⟨none, 0⟩⟩

/-- There are executions the theorems are about. -/
example : ∃ l layer out s', indentSetup indentGrammar sampleIndent = some (.ok l) ∧
    newTokenLayer indentGrammar [] l.hooks = some (some ([], some layer)) ∧
    (∀ t ∈ indentTokens, indentGrammar.isValidType t.type = true ∧ t.type ≠ eoiTokenType) ∧
    Handles indentEnv 5 layer {} (indentTokens ++ [indentEnd]) out s' ∧
    out.map (·.type) = [0, 2, 1, 0, -2, 3, -3, -3] := by
  have hc : (match indentSetup indentGrammar sampleIndent with
    | some (.ok l) =>
      match newTokenLayer indentGrammar [] l.hooks with
      | some (some ([], some layer)) =>
        match feedLayer indentEnv 5 layer ⟨textQueue "", {}⟩ (indentTokens ++ [indentEnd]) with
        | .done (_, .ok out) => decide (out.map (·.type) = [0, 2, 1, 0, -2, 3, -3, -3])
        | _ => false
      | _ => false
    | _ => false) = true := by decide +kernel
  split at hc
  · next l h1 =>
    split at hc
    · next layer h2 =>
      split at hc
      · next ps out h3 =>
        exact ⟨l, layer, out, ps.st, h1, h2, by decide +kernel, feedLayer_handles _ _ h3, of_decide_eq_true hc⟩
      · cases hc
    · cases hc
  · cases hc

/-- C44: the layer violates the property: the end of input is emitted twice, and the end of file overtakes spaces: for a
source consisting of a name and a line break tokens are name, EoF, space, EoI, EoI. -/
theorem C44_order_violated : indentTypes 5 "a\n" = [some 0, some (-2), some 1, some (-3), some (-3)] := by decide +kernel

/-- C44: the stack of blocks is not cleared at the end of input. When a parser asks for a token after that, blocks are
closed again: on-dedent tokens without pairs. -/
theorem C44_closed_again_violated : indentTypes 10 "a\n b" = [some 0, some 2, some 1, some 0, some (-2), some 3, some (-3),
    some (-3), some 3, some (-3)] := by decide +kernel

/-- C44: documentation says that the first line must have no indentation, but the layer opens a block. -/
theorem C44_first_line_violated : indentTypes 4 " a" = [some 2, some 1, some 0, some (-2)] := by decide +kernel

/-- C44: a special token type given to "space" makes `Setup` panic. -/
theorem C44_setup_panics : (match indentSetup indentGrammar [⟨bytesOf "space", [bytesOf "-eof-"]⟩,
      ⟨bytesOf "on-indent", [bytesOf "in"]⟩, ⟨bytesOf "on-dedent", [bytesOf "de"]⟩] with
    | none => true
    | _ => false) = true := by decide +kernel

end Verif.Props
