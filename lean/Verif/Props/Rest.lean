/-
C82: where a parse leaves the sources.
-/
import Verif.Proof.CutsEnd
import Verif.Props.TextIff
import Verif.Spec.Series

namespace Verif.Props

open Verif Verif.Model Verif.Spec Verif.Proof

variable {σ η : Type} {re : List Nat → Option Matcher} {ts : List GToken}

/-- Text of tokens. -/
theorem cuts_contents {src : Src} {p : Nat} {toks : List Token} {l : SrcList.State Src} (h : Cuts re ts [(src, p)] toks l)
    (hle : p ≤ src.content.length) (hm : MatchersOk re) :
    ∃ d, (l = [(src, p + d)] ∨ l = [] ∧ p + d = src.content.length) ∧ p + d ≤ src.content.length ∧
      toks.flatMap (·.content) = (src.content.drop p).take d := by
  induction toks generalizing p with
  | nil => cases h; exact ⟨0, .inl rfl, hle, by simp⟩
  | cons t toks ih =>
    cases h with
    | @tok _ _ k i n t' _ _ _ h1 h2 h3 h4 h5 =>
      have hn : n ≤ (src.content.drop p).length := by
        obtain ⟨-, ⟨t1, r1, m1, -, -, h6, h7⟩, -⟩ := h2
        exact hm _ _ h6 _ _ h7
      have hn' := hn
      rw [List.length_drop] at hn'
      obtain ⟨d, h6, h7, h8⟩ := ih h5 (by omega)
      refine ⟨n + d, by rw [← Nat.add_assoc]; exact h6, by omega, ?_⟩
      rw [List.flatMap_cons, h8, List.take_add, List.drop_drop]
    | eof h5 =>
      obtain ⟨rfl, rfl⟩ := cuts_nil h5
      exact ⟨0, .inr ⟨rfl, rfl⟩, by omega, by simp [endOf]⟩

/-- One parse. -/
theorem parse_rest (env : PEnv σ) (hm : env.g.tables.multi = []) (hfull : env.fullSource = false) {tenv : TEnv η}
    (hl : LexersOf re ts tenv.lexers) {n : Nat} {src : Src} (hn : src.content.length < n) {l0 : SrcList.State Src}
    (hl0 : l0 = [] ∨ ∃ p, l0 = [(src, p)]) {ls : LState η} (hq : Lexer.Holds ls.ps.src l0) {fuel : Nat} {pos : SrcPos} {pc : PC (LState η)}
    (h : parse (pipelineEnv env tenv [] n) fuel ls pos = .done (.ok pc))
    (hne : ∀ t ∈ (consumedBy pc.steps).reduceOption, t.type ≠ eoiTokenType) :
    ∃ toks l, Cuts re ts l0 toks l ∧ Lexer.Holds pc.src.ps.src l ∧ (consumedBy pc.steps).reduceOption = toks.filter (keeps env.g env.passSides) := by
  obtain ⟨n, rfl⟩ : ∃ k, n = k + 1 := ⟨n - 1, by omega⟩
  have hat : At (n + 1) ls l0 := ⟨hq, by rcases hl0 with rfl | ⟨p, rfl⟩ <;> simp [hn]⟩
  obtain ⟨pc1, tok, b, -, h2, h3⟩ := parse_inv (loopInv_and (kept_inv (env := pipelineEnv env tenv [] (n + 1)) (K := Cut re ts env (n + 1) l0)
    (fun h hk => nextLoop_cut env hl _ hk h)) (quiet_inv hm)) h (fun pc0 h0 => by
      obtain ⟨_, _, _, rfl⟩ := pushNode_spec h0
      exact ⟨⟨rfl, [], _, [], hat, .nil, by simp, by simp, by simp⟩, rfl, rfl⟩)
  refine cut_end env hfull hl0 (tok := tok) (b := b) ?_ ?_ h3 hne
  · cases b with
    | true => exact h2.1.2
    | false => exact h2.1.2
  · cases b with
    | true =>
      obtain ⟨⟨h6, -⟩, h8, -⟩ := h2
      rw [h8] at h6
      exact h6
    | false =>
      obtain ⟨⟨h6, -⟩, h8, -⟩ := h2
      rw [h8] at h6
      exact h6

theorem cuts_append {l l' l'' : SrcList.State Src} {a b : List Token} (h : Cuts re ts l a l') (h' : Cuts re ts l' b l'') :
    Cuts re ts l (a ++ b) l'' := by
  induction h with
  | nil => exact h'
  | tok h1 h2 h3 h4 _ ih => exact .tok h1 h2 h3 h4 (ih h')
  | eof _ ih => exact .eof (ih h')

/-- C82, parses one after another: all tokens they consume are cut from the beginning of the text, and the queue is left right after the text
of these tokens; nothing is skipped and nothing is read twice. -/
theorem C82_rest_partial (env : PEnv σ) (hm : env.g.tables.multi = []) (hfull : env.fullSource = false) {tenv : TEnv η}
    (hl : LexersOf re ts tenv.lexers) {n : Nat} {src : Src} (hn : src.content.length < n) {q0 q : SrcQueue} (hq0 : SrcQueue.new = some q0)
    (hq : q0.append (some src) = some q) {fuel : Nat} {css : List (List Token)} {q' : SrcQueue} (h : Series env tenv n fuel q css q') :
    ∃ toks l p, Cuts re ts [(src, 0)] toks l ∧ toks.flatMap (·.content) = src.content.take p ∧ AtPlace q' src p ∧
      css.flatten = toks.filter fun t => decide (t.type ≠ eofTokenType) && (env.passSides || !env.g.isSideType t.type) := by
  have hstart : Lexer.Holds q [(src, 0)] := by
    obtain ⟨q1, e, r⟩ := SrcQueue.new_rep
    obtain rfl : q1 = q0 := by rw [hq0] at e; exact (Option.some.inj e).symm
    obtain ⟨q2, e1, r1⟩ := r.append src
    obtain rfl : q2 = q := by rw [hq] at e1; exact (Option.some.inj e1).symm
    exact ⟨r1, ⟨by simp, by simp, by simp⟩, by simp⟩
  have key : ∀ {q css q'} {l0 : SrcList.State Src}, Series env tenv n fuel q css q' → (l0 = [] ∨ ∃ p, l0 = [(src, p)]) → Lexer.Holds q l0 →
      ∃ toks l, Cuts re ts l0 toks l ∧ Lexer.Holds q' l ∧ css.flatten = toks.filter (keeps env.g env.passSides) := by
    intro q css q' l0 h
    induction h generalizing l0 with
    | nil => exact fun _ hq => ⟨[], _, .nil, hq, rfl⟩
    | cons h1 h2 _ ih =>
      intro hl0 hq
      obtain ⟨toks, l, h3, h4, h5⟩ := parse_rest env hm hfull hl hn hl0 hq h1 h2
      obtain ⟨toks', l', h6, h7, h8⟩ := ih (cuts_shape0 hl0 h3) h4
      exact ⟨toks ++ toks', l', cuts_append h3 h6, h7, by rw [List.flatten_cons, List.filter_append, h5, h8]⟩
  obtain ⟨toks, l, h1, h2, h3⟩ := key h (.inr ⟨0, rfl⟩) hstart
  obtain ⟨d, h4, h5, h6⟩ := cuts_contents h1 (Nat.zero_le _) hl.matchers
  rw [Nat.zero_add] at h4 h5
  refine ⟨toks, l, d, h1, by simpa using h6, ?_, h3⟩
  rcases h4 with rfl | ⟨rfl, h4⟩
  · exact .inl ⟨by simpa using h2.rep.source, by simpa using h2.rep.pos, h5⟩
  · exact .inr ⟨by simpa using h2.rep.source, h4⟩

/-- The parser that does not check the whole source. -/
def partEnv (g : Grammar) : PEnv (List Token) := { pickyEnv g with fullSource := false }

/-- Places after parses one after another, with numbers of consumed tokens and of consumed ends of input. -/
def placesOf (g : Grammar) : Nat → SrcQueue → List (Nat × Nat × Option Int)
  | 0, _ => []
  | k + 1, q => match parse (pipelineEnv (partEnv g) ({ g := g, lexers := textLexers } : TEnv Nat) [] 20) 100 ⟨[], { src := q, st := 0 }⟩ q.sourcePos with
    | .done (.ok pc) => ((consumedBy pc.steps).reduceOption.length, ((consumedBy pc.steps).reduceOption.filter (·.type = eoiTokenType)).length,
        pc.src.ps.src.source.map fun _ => pc.src.ps.src.pos) :: placesOf g k pc.src.ps.src
    | _ => []

theorem places_series {g : Grammar} {k : Nat} {q : SrcQueue} {l : List (Nat × Nat × Option Int)} (h : placesOf g k q = l) (hl : ∀ x ∈ l, x.2.1 = 0) :
    ∃ css q', Series (partEnv g) ({ g := g, lexers := textLexers } : TEnv Nat) 20 100 q css q' ∧ css.map List.length = l.map (·.1) ∧
      ∀ x, l.getLast? = some x → (q'.source.map fun _ => q'.pos) = x.2.2 := by
  induction k generalizing q l with
  | zero => cases h; exact ⟨[], q, .nil, rfl, by simp [placesOf]⟩
  | succ k ih =>
    rw [placesOf] at h
    split at h
    · rename_i pc hp
      subst h
      obtain ⟨h1, h2⟩ := List.forall_mem_cons.mp hl
      obtain ⟨css, q', h3, h4, h5⟩ := ih rfl h2
      refine ⟨_ :: css, q', .cons hp ?_ h3, by rw [List.map_cons, List.map_cons, h4], ?_⟩
      · intro t ht he
        have := List.length_eq_zero_iff.mp h1
        rw [List.filter_eq_nil_iff] at this
        exact this t ht (by simpa using he)
      · intro x hx
        cases hp' : placesOf g k pc.src.ps.src with
        | nil =>
          rw [hp'] at hx h4
          cases hx
          cases css with
          | nil => cases h3; rfl
          | cons _ _ => cases h4
        | cons y l =>
          rw [hp', List.getLast?_cons_cons] at hx
          exact h5 x (by rw [hp']; exact hx)
    · subst h
      exact ⟨[], q, .nil, rfl, by simp⟩

/-- Compiled sample grammars. -/
def restCompile (c : Chunk) : Option Grammar :=
  match compile id sampleFind textTokens [some c] [0] [0] [0] 100 with
  | .done (.ok g) => some g
  | _ => none

theorem textQueue_new {s : String} (hs : s ∈ ["x y x", "x x"]) :
    ∃ q0, SrcQueue.new = some q0 ∧ q0.append (some (textSource 1 s)) = some (textQueue s) := by
  have h : SrcQueue.new = some ⟨emptyRing, none, 0⟩ := by decide +kernel
  have h' : ∀ s ∈ ["x y x", "x x"], (⟨emptyRing, none, 0⟩ : SrcQueue).append (some (textSource 1 s)) = some (textQueue s) := by decide +kernel
  exact ⟨_, h, h' s hs⟩

/-- `root = 'x', ['y']`: hypotheses are met by two parses of `x y x`. After the first parse the queue is before the space or the second `x`, the second
parse comes to the end. -/
example : ∃ g q0 q css q', restCompile (cSeq [cX, cOpt [cY]]) = some g ∧ g.tables.multi = [] ∧ SrcQueue.new = some q0 ∧
    q0.append (some (textSource 1 "x y x")) = some q ∧ LexersOf charRe textTokens textLexers ∧
    Series (partEnv g) ({ g := g, lexers := textLexers } : TEnv Nat) 20 100 q css q' ∧ css.map List.length = [2, 1] ∧
    (q'.source.map fun _ => q'.pos) = none := by
  have h : (restCompile (cSeq [cX, cOpt [cY]])).map (fun g => (g.tables.multi.length, placesOf g 2 (textQueue "x y x"))) =
    some (0, [(2, 0, some 3), (1, 0, none)]) := by decide +kernel
  obtain ⟨g, h1, h2⟩ := Option.map_eq_some_iff.mp h
  rw [Prod.mk.injEq] at h2
  obtain ⟨css, q', h3, h4, h5⟩ := places_series h2.2 (by simp)
  obtain ⟨q0, h6, h7⟩ := textQueue_new (s := "x y x") (by simp)
  exact ⟨g, q0, _, css, q', h1, List.length_eq_zero_iff.mp h2.1, h6, h7, textLexers_of.1, h3, h4, h5 _ rfl⟩

/-- C82 is false for grammars with lookahead: `root = 'x' | ('x', 'y')`, the text is `x x`. The token read ahead is lost: only one token is
consumed, but the queue is at the end of the text. -/
theorem C82_token_is_lost : ∃ g q0 q css q', restCompile (.variant [cX, cSeq [cX, cY]]) = some g ∧ SrcQueue.new = some q0 ∧
    q0.append (some (textSource 1 "x x")) = some q ∧ Series (partEnv g) ({ g := g, lexers := textLexers } : TEnv Nat) 20 100 q css q' ∧
    css.map List.length = [1] ∧ (q'.source.map fun _ => q'.pos) = some 3 := by
  have h : (restCompile (.variant [cX, cSeq [cX, cY]])).map (fun g => placesOf g 1 (textQueue "x x")) = some [(1, 0, some 3)] := by decide +kernel
  obtain ⟨g, h1, h2⟩ := Option.map_eq_some_iff.mp h
  obtain ⟨css, q', h3, h4, h5⟩ := places_series h2 (by simp)
  obtain ⟨q0, h6, h7⟩ := textQueue_new (s := "x x") (by simp)
  exact ⟨g, q0, _, css, q', h1, h6, h7, h3, h4, h5 _ rfl⟩

end Verif.Props
