/-
C52, C59: lexers made by `parser.New`.
-/
import Verif.Proof.ErrorTokens
import Verif.Proof.NewParser
import Verif.Props.FullSource
import Verif.Props.LangParse
import Verif.Props.ParseHalts

namespace Verif.Props

open Verif Verif.Model Verif.Model.LangDef Verif.Spec Verif.Spec.Ebnf Verif.Spec.Lex Verif.Spec.LangDef Verif.Proof Verif.Model.Lexer

variable {σ η : Type}

/-- The lexers of a parser for a grammar. -/
structure LexersOf (re : List Nat → Option Matcher) (ts : List GToken) (ls : List Lexer) : Prop where
  made : newLexers re ts = some (some ls)
  plain : PlainLiterals ts
  matchers : MatchersOk re

theorem LexersOf.groups {re : List Nat → Option Matcher} {ts : List GToken} {ls : List Lexer} (h : LexersOf re ts ls) :
    ls.length = maxGroup ts + 1 ∧ ∀ (k : Nat) (l : Lexer), ls[k]? = some l →
      ∃ ms, GroupLexer re ts (0 + k) ms ∧ l = new (joinedRegexp ms) (groupTypes ts (0 + k)) := by
  obtain ⟨r, h1, -, h2⟩ := newLexers_spec (re := re) h.plain
  rw [h.made] at h1
  cases h1
  obtain ⟨h3, h4⟩ := h2 ls rfl
  refine ⟨h3, fun k l hk => ?_⟩
  obtain ⟨ms, h5, h6⟩ := h4 k (by have := (List.getElem?_eq_some_iff.1 hk).1; omega)
  rw [hk] at h6
  cases h6
  rw [Nat.zero_add]
  exact ⟨ms, h5, rfl⟩

theorem LexersOf.covers {re : List Nat → Option Matcher} {ts : List GToken} {ls : List Lexer} (h : LexersOf re ts ls) {k i : Nat}
    (hi : InGroup ts k i) : k < ls.length := by
  obtain ⟨t, r, h1, h2, rfl⟩ := hi
  have hm := List.mem_of_getElem? h1
  have : t.flags.literal = false := by
    cases hf : t.flags.literal with
    | false => rfl
    | true =>
      have := h.plain t hm hf
      rw [h2] at this
      cases this
  have := maxGroup_ge ts t hm this
  have := h.groups.1
  omega

/-- C59: making lexers does not panic; it fails if and only if some expression is wrong. -/
theorem C59_lexers_made (re : List Nat → Option Matcher) {ts : List GToken} (hl : PlainLiterals ts) :
    ∃ r, newLexers re ts = some r ∧ (r = none ↔ ¬ AllValid re ts) := by
  obtain ⟨r, h1, h2, -⟩ := newLexers_spec (re := re) hl
  exact ⟨r, h1, h2⟩

/-- C59, which token is fetched: the one given by the first group having an expected type as its first type that matches
here. The token is the matched piece of the text, and the sources are moved to its end. -/
theorem C59_token_fetched {re : List Nat → Option Matcher} (env : TEnv η) (hl : LexersOf re env.g.tokens env.lexers)
    (tts : TokenTypeSet) {q : SrcQueue} {src : Src} {p : Nat} {rest : SrcList.State Src} (h : Holds q ((src, p) :: rest))
    (hp : p < src.content.length) (fuel : Nat) (hf : src.content.length - p < fuel) {k i n : Nat}
    (hg : Gives re env.g.tokens tts k (src.content.drop p) i n)
    (hk : ∀ k' < k, ∀ i' n', ¬ Gives re env.g.tokens tts k' (src.content.drop p) i' n') :
    ∃ q' t, env.g.tokens[i]? = some t ∧ fetchToken env fuel q tts =
        .done (q', .ok (some ⟨i, nameString t.name, (src.content.drop p).take n, ⟨some src, (p : Nat)⟩⟩)) ∧
      Holds q' ((src, p + n) :: rest) := by
  obtain ⟨hlen, hls⟩ := hl.groups
  obtain ⟨q', r, h1, ⟨k1, i1, n1, t, h2, h3, h4, h5, h6, h7⟩ | ⟨h2, -⟩⟩ := groups_fetch hl.matchers tts hp fuel hf env.lexers 0 hls h none (by simp)
  · rw [Nat.zero_add] at h4
    have hkk : k1 = k := by
      rcases Nat.lt_trichotomy k1 k with h8 | h8 | h8
      · exact absurd h4 (hk k1 h8 i1 n1)
      · exact h8
      · have := h3 k h8 i n
        rw [Nat.zero_add] at this
        exact absurd hg this
    subst hkk
    have hsame : i1 = i ∧ n1 = n := by
      obtain ⟨⟨hin, hm, ho⟩, -⟩ := hg
      obtain ⟨⟨hin1, hm1, ho1⟩, -⟩ := h4
      have hii : i1 = i := by
        rcases Nat.lt_trichotomy i1 i with h8 | h8 | h8
        · exact absurd hm1 (ho i1 h8 hin1 n1)
        · exact h8
        · exact absurd hm (ho1 i h8 hin n)
      subst hii
      refine ⟨rfl, ?_⟩
      obtain ⟨t1, r1, m1, a1, a2, a3, a4⟩ := hm
      obtain ⟨t2, r2, m2, b1, b2, b3, b4⟩ := hm1
      rw [a1] at b1; cases b1
      rw [a2] at b2; cases b2
      rw [a3] at b3; cases b3
      rw [a4] at b4; cases b4
      rfl
    obtain ⟨rfl, rfl⟩ := hsame
    exact ⟨q', t, h5, by rw [fetchToken, h1, h6], h7⟩
  · have := h2 k (hl.covers hg.1.1) i n
    rw [Nat.zero_add] at this
    exact absurd hg this

/-- C59, when nothing is fetched: if no group gives an expected token then there is no token and no error, and the sources
stay where they are. -/
theorem C59_nothing_fetched {re : List Nat → Option Matcher} (env : TEnv η) (hl : LexersOf re env.g.tokens env.lexers)
    (tts : TokenTypeSet) (ht : tts ≠ allTokenTypes) {q : SrcQueue} {src : Src} {p : Nat} {rest : SrcList.State Src}
    (h : Holds q ((src, p) :: rest)) (hp : p < src.content.length) (fuel : Nat) (hf : src.content.length - p < fuel)
    (hk : ∀ k i n, ¬ Gives re env.g.tokens tts k (src.content.drop p) i n) :
    ∃ q', fetchToken env fuel q tts = .done (q', .ok none) ∧ Holds q' ((src, p) :: rest) := by
  obtain ⟨hlen, hls⟩ := hl.groups
  obtain ⟨q', r, h1, ⟨k1, i1, n1, t, -, -, h4, -⟩ | ⟨-, h3, h4, -⟩⟩ := groups_fetch hl.matchers tts hp fuel hf env.lexers 0 hls h none (by simp)
  · rw [Nat.zero_add] at h4
    exact absurd h4 (hk k1 i1 n1)
  · exact ⟨q', by rw [fetchToken, h1, h4 ht], h3⟩

/-- C59, lexical errors: when any token is fine and no group gives one, the result is an error "wrong char" (101) for this
very place, and the sources stay where they are. -/
theorem C59_lexical_error {re : List Nat → Option Matcher} (env : TEnv η) (hl : LexersOf re env.g.tokens env.lexers)
    (hfit : TypesFit env.g.tokens) (hsome : ∃ k i, InGroup env.g.tokens k i) {q : SrcQueue} {src : Src} {p : Nat} {rest : SrcList.State Src}
    (h : Holds q ((src, p) :: rest)) (hp : p < src.content.length) (fuel : Nat) (hf : src.content.length - p < fuel)
    (hk : ∀ k i n, ¬ Gives re env.g.tokens allTokenTypes k (src.content.drop p) i n) :
    ∃ q' e, fetchToken env fuel q allTokenTypes = .done (q', .error (.lexer e)) ∧ Holds q' ((src, p) :: rest) ∧
      e.code = 101 ∧ e.sourceName = src.name ∧ (e.line, e.col) = src.lineCol p := by
  obtain ⟨hlen, hls⟩ := hl.groups
  obtain ⟨q', r, h1, ⟨k1, i1, n1, t, -, -, h4, -⟩ | ⟨-, h3, -, h4⟩⟩ :=
    groups_fetch hl.matchers allTokenTypes hp fuel hf env.lexers 0 hls h none (by simp)
  · rw [Nat.zero_add] at h4
    exact absurd h4 (hk k1 i1 n1)
  · rcases h4 rfl with ⟨-, -, h5⟩ | ⟨e, rfl, h6, h7, h8⟩
    · obtain ⟨k, i, hi⟩ := hsome
      have := h5 hfit k (hl.covers hi) i
      rw [Nat.zero_add] at this
      exact absurd hi this
    · exact ⟨q', e, by rw [fetchToken, h1], h3, h8 hfit, h6, h7⟩

/-- C59: the lexers have the form required by other theorems. -/
theorem C59_lexers_ok {re : List Nat → Option Matcher} {ts : List GToken} {ls : List Lexer} (h : LexersOf re ts ls) :
    LexersOk ls ∧ ∃ defs : List (Regexp × List TokenType), (ls = defs.map fun x => Lexer.new x.1 x.2) ∧
      ∀ x ∈ defs, ReOk x.1 ∧ CapturesAll x.1 := by
  obtain ⟨-, hls⟩ := h.groups
  have key : ∀ l ∈ ls, ∃ x : Regexp × List TokenType, (ReOk x.1 ∧ CapturesAll x.1) ∧ l = Lexer.new x.1 x.2 := by
    intro l hl
    obtain ⟨k, hk⟩ := List.mem_iff_getElem?.1 hl
    obtain ⟨ms, h1, rfl⟩ := hls k l hk
    exact ⟨(joinedRegexp ms, _), ⟨joined_reOk (h1.bounded h.matchers), joined_captures ms⟩, rfl⟩
  refine ⟨fun l hl => ?_, ?_⟩
  · obtain ⟨x, h1, h2⟩ := key l hl
    exact ⟨x.1, x.2, h1.1, h2⟩
  · clear hls h
    induction ls with
    | nil => exact ⟨[], rfl, by simp⟩
    | cons l ls ih =>
      obtain ⟨x, h1, h2⟩ := key l List.mem_cons_self
      obtain ⟨defs, h3, h4⟩ := ih fun y hy => key y (List.mem_cons_of_mem _ hy)
      refine ⟨x :: defs, by rw [h2, h3]; rfl, ?_⟩
      intro y hy
      rcases List.mem_cons.1 hy with rfl | hy
      · exact h1
      · exact h4 y hy

/-- C59: tables of tokens made from descriptions meet the conditions on token types. -/
theorem C59_described {upper : List Nat → List Nat} {find : List Nat → List Nat → List Nat} {okRe : List Nat → Bool}
    {order1 order2 order3 : List Nat} {fuel : Nat} {inp : List (Except LErr LTok)} {head : List HeadItem} {body : List BodyItem}
    {p : Parsed} (h : MadeFrom upper find okRe order1 order2 order3 fuel inp head body p) :
    PlainLiterals p.grammar.tokens ∧ TypesFit p.grammar.tokens := by
  obtain ⟨D, bodies, hcor, htok, -⟩ := C56_content_partial h
  obtain ⟨a, b, c, hlay, hlen⟩ := text_layout head body D
  rw [← htok] at hlay
  have hnum := hcor.number
  unfold maxTokenType at hnum
  constructor
  · intro t ht hl
    rw [hlay.eq] at ht
    simp only [List.mem_append] at ht
    rcases ht with (ht | ht) | ht
    · rw [(hlay.re t ht).2] at hl; cases hl
    · exact (hlay.ext t ht).1
    · exact (hlay.lit t ht).1
  · intro i t ht hr
    by_contra hge
    rw [hlay.eq, List.append_assoc, List.getElem?_append_right (by omega)] at ht
    rcases List.mem_append.1 (List.mem_of_getElem? ht) with ht | ht
    · exact hr (hlay.ext t ht).1
    · exact hr (hlay.lit t ht).1

/-- C35, partial: nothing but side tokens is left by a successful parse with the option, for the parser made by `New` for a
compiled grammar. Missing: as in `C35_nothing_left_partial`. -/
theorem C35_parser_partial {upper : List Nat → List Nat} {find : Nat → List Nat → List Nat} {ts a b c : List GToken}
    {bodies : List (Option Chunk)} {order1 order2 order3 : List Nat} {k : Nat}
    (env : PEnv σ) (hc : compile upper find ts bodies order1 order2 order3 k = .done (.ok env.g))
    (hwf : ∀ c, some c ∈ bodies → WF c) (hlay : Layout ts a b c) (hsafe : SafeLookahead env.g env.upper)
    (tenv : TEnv η) {re : List Nat → Option Matcher} (hl : LexersOf re ts tenv.lexers) (n fuel : Nat)
    (hf : env.fullSource = true) (ls : LState η) (l : SrcList.State Src) (hq : Lexer.Holds ls.ps.src l) (pos : SrcPos)
    (pc : PC (LState η)) (h : parse (pipelineEnv env tenv [] n) fuel ls pos = .done (.ok pc)) :
    NothingLeft env.g pc.steps pc.delivered := by
  obtain ⟨-, defs, h1, h2⟩ := C59_lexers_ok hl
  exact C35_compiled_partial env hc hwf hlay hsafe tenv defs n fuel h1 h2 hf ls l hq pos pc h

/-! ### Error tokens -/

/-- C52 is false for every grammar: tokens of error types are never reported as errors by lexers, all lexical errors are
about places where no expression matches. -/
theorem C52_never_reported {re : List Nat → Option Matcher} (env : TEnv η) (hl : LexersOf re env.g.tokens env.lexers)
    (hfit : TypesFit env.g.tokens) (tts : TokenTypeSet) {q q' : SrcQueue} {src : Src} {p : Nat} {rest : SrcList.State Src}
    (h : Holds q ((src, p) :: rest)) (hp : p < src.content.length) (fuel : Nat) (hf : src.content.length - p < fuel) {e : PErr}
    (he : fetchToken env fuel q tts = .done (q', .error e)) :
    (∃ le, e = .lexer le ∧ le.code = 101) ∧ ∀ k i n, ¬ Gives re env.g.tokens allTokenTypes k (src.content.drop p) i n := by
  obtain ⟨hlen, hls⟩ := hl.groups
  obtain ⟨q1, r, h1, ⟨k1, i1, n1, t, -, -, -, -, rfl, -⟩ | ⟨h2, h3, h4, h5⟩⟩ :=
    groups_fetch hl.matchers tts hp fuel hf env.lexers 0 hls h none (by simp)
  · rw [fetchToken, h1] at he
    cases he
  · rw [fetchToken, h1] at he
    cases he
    by_cases ht : tts = allTokenTypes
    · subst ht
      rcases h5 rfl with ⟨h6, -⟩ | ⟨le, h6, -, -, h7⟩
      · cases h6
      · cases h6
        refine ⟨⟨le, rfl, h7 hfit⟩, fun k i n hg => ?_⟩
        have := h2 k (hl.covers hg.1.1) i n
        rw [Nat.zero_add] at this
        exact this hg
    · have := h4 ht
      cases this

/-- C52, what holds for described grammars: a parse consumes a token of an error type only as a side token (if the type is
both) or as a literal. Missing: the documented claim that such a token is an error; conditions are those of
`C56_accepted_is_described_partial`. -/
theorem C52_consumed_partial {upper : List Nat → List Nat} {find : List Nat → List Nat → List Nat} {okRe : List Nat → Bool}
    {order1 order2 order3 : List Nat} {fuel : Nat} {inp : List (Except LErr LTok)} {head : List HeadItem} {body : List BodyItem}
    {p : Parsed} (h : MadeFrom upper find okRe order1 order2 order3 fuel inp head body p) {bodies : List Chunk}
    (hb : Denoted body p.grammar.tokens bodies) (hloop : ∀ c ∈ bodies, LoopOk true c) (hsafe : SafeMachines bodies order2 order3 fuel)
    (env : PEnv σ) (henv : env.g = p.grammar) (hlook : SafeLookahead env.g env.upper) (fuel' : Nat) (src : σ) (pos : SrcPos) (pc : PC σ)
    (hp : parse env fuel' src pos = .done (.ok pc)) :
    ∀ t ∈ (consumedBy pc.steps).reduceOption, 0 ≤ t.type → (∃ tt, env.g.tokens[t.type.toNat]? = some tt ∧ tt.flags.error = true) →
      env.g.isSideType t.type = true ∨ ∃ k, IsLiteral env.g env.upper t k := by
  obtain ⟨items, h1, w, h2, h3⟩ := C56_accepted_is_described_partial h hb hloop hsafe env henv hlook fuel' src pos pc hp
  obtain ⟨D, -, hcor, htok, hn, -⟩ := C56_content_partial h
  rw [← h1]
  intro t ht h0 ⟨tt, htt, herr⟩
  rw [henv] at htt ⊢
  have herr' := table_error (t := tt) (by rw [← htok]; exact List.mem_of_getElem? htt) herr
  have hsym : ∀ i u, TextWords p body i u → ∀ k, Sym.tok k ∈ u → t.type ≠ k := by
    rintro i u ⟨m, es, -, hnode, v, hv, hsp⟩ k hk heq
    obtain ⟨j, hj, hju⟩ := List.getElem_of_mem hk
    have hjv : j < v.length := by rw [hsp.length_eq]; exact hj
    have hget := hsp.get hjv hj
    rw [List.get_eq_getElem, List.get_eq_getElem, hju] at hget
    have htype : p.grammar.tokens[k]? = some tt := by rw [← htt, heq]; simp
    have hmem : v[j] ∈ v := List.getElem_mem hjv
    revert hget hmem
    generalize v[j] = x
    intro hget hmem
    cases x with
    | node n => simp [Named.sym] at hget
    | eoi => simp [Named.sym] at hget
    | type n =>
      obtain ⟨k', hk', he⟩ := Option.map_eq_some_iff.1 hget
      cases he
      obtain ⟨hlt, hpk, -⟩ := List.findIdx?_eq_some_iff_getElem.1 hk'
      rw [List.getElem?_eq_getElem hlt] at htype
      rw [Option.some.inj htype] at hpk
      simp only [decide_eq_true_eq] at hpk
      have := (hcor.types m es hnode n (wordsSeq_types es v hv n hmem)).2.2
      rw [← hpk.1, herr'.2] at this
      cases this
    | literal n =>
      obtain ⟨k', hk', he⟩ := Option.map_eq_some_iff.1 hget
      cases he
      obtain ⟨hlt, hpk, -⟩ := List.findIdx?_eq_some_iff_getElem.1 hk'
      rw [List.getElem?_eq_getElem hlt] at htype
      rw [Option.some.inj htype] at hpk
      simp only [decide_eq_true_eq] at hpk
      rw [herr'.1] at hpk
      cases hpk.2
  rcases leaf_symbol h3 t ht with h4 | ⟨x, h4, h5⟩
  · exact .inl h4
  · right
    cases x with
    | node i => exact h4.elim
    | eoi =>
      have : t.type = eoiTokenType := h4
      rw [this] at h0
      exact absurd h0 (by decide)
    | tok k =>
      rcases h4 with h4 | ⟨h4, -⟩
      · exact ⟨k, h4⟩
      · rcases h5 with h5 | ⟨i, u, h6, h5⟩
        · exact absurd h4 (hsym _ w h2 k h5)
        · exact absurd h4 (hsym i u h6 k h5)

/-! ### Samples -/

/-- An expression without special characters. -/
def prefixRe (r : List Nat) : Option Matcher :=
  if r = [] then none else some fun text => if text.take r.length = r then some r.length else none

/-- Group 0: `$n = /ab/; $m = /a/;`, group 1: `$x = /abc/; $e = /!/;` where `$e` is an error type; literal '!'. -/
def groupTokens : List GToken :=
  [⟨bytesOf "n", some (bytesOf "ab"), 0, {}⟩, ⟨bytesOf "m", some (bytesOf "a"), 0, {}⟩, ⟨bytesOf "x", some (bytesOf "abc"), 1, {}⟩,
    ⟨bytesOf "e", some (bytesOf "!"), 1, { error := true }⟩, ⟨bytesOf "!", none, 0, { literal := true }⟩]

theorem prefixRe_ok : MatchersOk prefixRe := by
  intro r m h text n hn
  unfold prefixRe at h
  split at h
  · cases h
  · cases h
    simp only at hn
    split at hn
    · rename_i he
      cases hn
      have := congrArg List.length he
      rw [List.length_take] at this
      omega
    · cases hn

theorem groupTokens_plain : PlainLiterals groupTokens := by
  intro t ht
  simp only [groupTokens, List.mem_cons, List.not_mem_nil, or_false] at ht
  rcases ht with rfl | rfl | rfl | rfl | rfl <;> simp

/-- The lexers of the sample. -/
def groupLexers : List Lexer := ((newLexers prefixRe groupTokens).getD none).getD []

theorem groupLexers_of : LexersOf prefixRe groupTokens groupLexers := by
  refine ⟨?_, groupTokens_plain, prefixRe_ok⟩
  have h : ((newLexers prefixRe groupTokens).getD none).isSome = true := by decide +kernel
  obtain ⟨r, hr, -⟩ := C59_lexers_made prefixRe groupTokens_plain
  unfold groupLexers
  rw [hr] at h ⊢
  obtain ⟨ls, hls⟩ := Option.isSome_iff_exists.1 h
  simp only [Option.getD_some] at hls
  rw [hls]
  rfl

/-- What is fetched from the beginning of a text: type and text of the token, or code of the error. -/
def groupFetch (tts : TokenTypeSet) (s : String) : Option (Int × List Nat × Nat) :=
  match fetchToken ({ g := ⟨groupTokens, [], ⟨[], [], []⟩⟩, lexers := groupLexers } : TEnv Nat) 20 (textQueue s) tts with
  | .done (_, .ok (some t)) => some (t.type, t.content, 0)
  | .done (_, .error (.lexer e)) => some (0, [], e.code)
  | _ => none

/-- The first type of the first group wins, though other types match more; a type that is not expected hides the following
types of its group, but not those of other groups; error tokens are fetched as any others. -/
example : groupFetch allTokenTypes "abc" = some (0, bytesOf "ab", 0) ∧ groupFetch (0b100) "abc" = some (2, bytesOf "abc", 0) ∧
    groupFetch (0b110) "abc" = some (2, bytesOf "abc", 0) ∧ groupFetch (0b10) "abc" = none := by decide +kernel

example : groupFetch (0b10) "ac" = some (1, bytesOf "a", 0) ∧ groupFetch allTokenTypes "!a" = some (3, bytesOf "!", 0) ∧
    groupFetch (0b111) "!a" = none ∧ groupFetch allTokenTypes "?" = some (0, [], 101) := by decide +kernel

/-- The hypotheses of theorems about fetching are met. -/
example : LexersOf prefixRe groupTokens groupLexers ∧ TypesFit groupTokens ∧
    Gives prefixRe groupTokens allTokenTypes 0 (bytesOf "abc") 0 2 ∧
    (∀ k i n, ¬ Gives prefixRe groupTokens allTokenTypes k (bytesOf "?") i n) := by
  refine ⟨groupLexers_of, ?_, ⟨⟨⟨_, _, rfl, rfl, rfl⟩, ⟨_, _, _, rfl, rfl, if_neg (by decide +kernel), by decide +kernel⟩, by omega⟩, by omega, by decide⟩, ?_⟩
  · intro i t ht _
    have := (List.getElem?_eq_some_iff.1 ht).1
    have : groupTokens.length = 5 := rfl
    omega
  · rintro k i n ⟨⟨-, ⟨t, r, m, h1, h2, h3, h4⟩, -⟩, -, -⟩
    have hm : t ∈ groupTokens := List.mem_of_getElem? h1
    simp only [groupTokens, List.mem_cons, List.not_mem_nil, or_false] at hm
    have hno : ∀ r ∈ [bytesOf "ab", bytesOf "a", bytesOf "abc", bytesOf "!"], ∀ m, prefixRe r = some m → m (bytesOf "?") = none := by
      intro r hr m hm
      unfold prefixRe at hm
      split at hm
      · cases hm
      · cases hm
        simp only
        rw [if_neg]
        revert r
        decide +kernel
    rcases hm with rfl | rfl | rfl | rfl | rfl <;> simp only [Option.some.injEq, reduceCtorEq] at h2 <;> subst h2 <;>
      rw [hno _ (by simp) m h3] at h4 <;> cases h4

/-- Compiles a definition of a root node and parses a text with lexers made for the grammar. -/
def groupParse (root : Chunk) (s : String) : Outcome :=
  match compile id (fun j l => if (groupTokens[j]?).bind (·.re) = some l then l else []) groupTokens [some root] [0] [0] [0] 100 with
  | .done (.ok g) =>
    match parse (pipelineEnv (streamEnv g) ({ g := g, lexers := groupLexers } : TEnv Nat) [] 60) 60
        ⟨[], { src := textQueue s, st := 0 }⟩ ⟨none, 0⟩ with
    | .done (.ok _) => .accepted
    | .done (.error e) => .failed e
    | .panic => .panic
    | .timeout => .timeout
  | _ => .badGrammar

/-- The hypotheses of `C59_described` and `C52_consumed_partial` are met. -/
example : ∃ p, MadeFrom id descFind (fun _ => true) [0] [0] [0] 100 descSample descHead descBody p ∧
    Denoted descBody p.grammar.tokens descBodies ∧ (∀ c ∈ descBodies, LoopOk true c) ∧ SafeMachines descBodies [0] [0] 100 ∧
    SafeLookahead p.grammar id ∧ ∃ pc, parse (streamEnv p.grammar) 100 descInput ⟨none, 0⟩ = .done (.ok pc) := descSample_meets

/-- The hypotheses of `C35_parser_partial` are met: a parse with lexers made for a compiled grammar without conflicts
(see `safe_of_single`). -/
example : (match compile id (fun j l => if (groupTokens[j]?).bind (·.re) = some l then l else []) groupTokens
      [some (cSeq [.token 4, cRep [.token 0]])] [0] [0] [0] 100 with
    | .done (.ok g) => decide (g.tables.multi = [])
    | _ => false) = true ∧ Layout groupTokens (groupTokens.take 4) [] (groupTokens.drop 4) ∧
    groupParse (cSeq [.token 4, cRep [.token 0]]) "!abab" = .accepted := by
  refine ⟨by decide +kernel, ⟨rfl, ?_, by simp, ?_⟩, by decide +kernel⟩
  · intro t ht
    simp only [groupTokens, List.take, List.mem_cons, List.not_mem_nil, or_false] at ht
    rcases ht with rfl | rfl | rfl | rfl <;> simp
  · intro t ht
    simp only [groupTokens, List.drop, List.mem_cons, List.not_mem_nil, or_false] at ht
    subst ht
    simp

/-- C52 is false: a text made of an error token is accepted if there is a literal with the same text; otherwise the token is
an unexpected one, which is not a lexical error. -/
theorem C52_violated : groupParse (cSeq [.token 4]) "!" = .accepted ∧
    (match groupParse (cSeq [.token 0]) "!" with
      | .failed (.lexer _) => false
      | .failed _ => true
      | _ => false) = true ∧
    groupParse (cSeq [.token 0]) "ab" = .accepted := by decide +kernel

end Verif.Props
