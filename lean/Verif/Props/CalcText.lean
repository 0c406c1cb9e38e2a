/-
C81: the calculator, from texts to results.
-/
import Verif.Proof.CalcCalm
import Verif.Proof.CalcStop
import Verif.Proof.Captured
import Verif.Proof.CutsEnd
import Verif.Proof.Failing
import Verif.Props.Calc
import Verif.Props.ConfFile
import Verif.Spec.CalcText

namespace Verif.Props

open Verif Verif.Model Verif.Model.Calc Verif.Spec Verif.Spec.Ebnf Verif.Spec.Calc Verif.Proof Verif.Proof.Calc
open Verif.Model.Tree (bindRun)
open Verif.Spec.Text (normalize)

variable {α : Type}

/-! Tables -/

theorem calc_noEoi : ∀ c ∈ bodies, NoEoi c := by
  simp [bodies, nameTok, numberTok, lParen, rParen, comma, equals, minus, plus, times, divide, caret, NoEoi, NoEois]

theorem calc_below : ∀ c ∈ bodies, c.Below Calc.tokens.length := by
  simp [bodies, nameTok, numberTok, lParen, rParen, comma, equals, minus, plus, times, divide, caret, Chunk.Below, Chunk.BelowAll, Calc.tokens]

/-- Height of a node. -/
def calcRank (i : Nat) : Nat := [5, 4, 0, 0, 3, 2, 1, 0].getD i 0

/-- No node may be empty. -/
theorem calc_moves : Moves (fun _ => false) bodies := by
  refine ⟨?_, ?_, calcRank, ?_⟩
  · intro i c hc h
    have hm := List.mem_of_getElem? hc
    rcases h with h | h
    · have : ∀ c ∈ bodies, mayBeEmpty (fun _ => false) c = false := by decide
      rw [this c hm] at h
      cases h
    · exact absurd (calc_noEoi c hm) h
  · simp [bodies, nameTok, numberTok, lParen, rParen, comma, equals, minus, plus, times, divide, caret, LoopsMove, LoopsMoveAll, mayBeEmptySeq,
      mayBeEmpty, mayBeEmptyAny]
  · intro i c hc
    have hi : i < 8 := by
      have := (List.getElem?_eq_some_iff.mp hc).1
      simpa [bodies] using this
    rcases i with _ | _ | _ | _ | _ | _ | _ | _ | i
    case succ.succ.succ.succ.succ.succ.succ.succ => omega
    all_goals
      (simp only [bodies, List.getElem?_cons_zero, List.getElem?_cons_succ, Option.some.injEq] at hc; subst hc;
       simp [nameTok, numberTok, lParen, rParen, comma, equals, minus, plus, times, divide, caret, leftNodes, leftNodesSeq, leftNodesAny, mayBeEmpty,
         mayBeEmptySeq, mayBeEmptyAny, calcRank])

/-! Lexers -/

theorem groupTypes_calc : groupTypes Calc.tokens 0 = [⟨0, "space"⟩, ⟨1, "number"⟩, ⟨2, "name"⟩, ⟨3, "op"⟩] ∧
    groupTypes Calc.tokens 1 = [⟨4, "minus"⟩] := by
  decide +kernel

theorem calc_typesBelow {re : List Nat → Option Matcher} {lexers : List Lexer} (h : LexersOf re Calc.tokens lexers) :
    ∀ l ∈ lexers, TypesBelow Calc.tokens.length l := by
  intro l hm
  obtain ⟨h1, h2⟩ := h.groups
  have h0 : maxGroup Calc.tokens = 1 := by decide
  rw [h0] at h1
  obtain ⟨k, hk⟩ := List.getElem?_of_mem hm
  obtain ⟨ms, h3, rfl⟩ := h2 k l hk
  have hk2 : k < 2 := by
    have := (List.getElem?_eq_some_iff.mp hk).1
    omega
  refine ⟨_, _, joined_reOk (h3.bounded h.matchers), rfl, ?_⟩
  intro i t ht
  have h14 : Calc.tokens.length = 14 := by decide
  rw [h14]
  obtain ⟨g0, g1⟩ := groupTypes_calc
  have key : ∀ x ∈ groupTypes Calc.tokens (0 + k), x.type < 14 := by
    rcases k with _ | _ | k
    · rw [g0]; decide
    · rw [g1]; decide
    · omega
  unfold Lex.groupType at ht
  split at ht
  · rename_i x hx
    have := key x (List.mem_of_getElem? hx)
    split at ht
    · cases ht
      show x.type.toNat < 14
      omega
    · cases ht
  · cases ht

theorem calc_mask {re : List Nat → Option Matcher} {lexers : List Lexer} (h : LexersOf re Calc.tokens lexers) : ∃ l ∈ lexers, l.typeMask ≠ 0 := by
  obtain ⟨h1, h2⟩ := h.groups
  match lexers, h1 with
  | l :: _, _ =>
    obtain ⟨ms, h3, h4⟩ := h2 0 l rfl
    refine ⟨l, List.mem_cons_self .., ?_⟩
    rw [h4, groupTypes_calc.1]
    simp only [Lexer.new]
    decide

theorem calc_types {i : Nat} {gt : GToken} (h : Calc.tokens[i]? = some gt) (hr : gt.re ≠ none) :
    i < 5 ∧ nameString gt.name = ["space", "number", "name", "op", "minus"].getD i "" := by
  have hi : i < 14 := by
    have := (List.getElem?_eq_some_iff.mp h).1
    simpa [Calc.tokens] using this
  have : ∀ i < 14, (Calc.tokens[i]?).all (fun gt => decide (gt.re ≠ none → i < 5 ∧ nameString gt.name = ["space", "number", "name", "op", "minus"].getD i "")) = true := by
    decide +kernel
  have h1 := this i hi
  rw [h] at h1
  simp only [Option.all_some, decide_eq_true_eq] at h1
  exact h1 hr

/-- Captured tokens of the calculator. -/
theorem captured_lexed {re : List Nat → Option Matcher} (hre : MatchersKnown re) {t : Token} (h : Captured re Calc.tokens t) :
    Lexed t ∨ t.type = 0 ∨ t.type = eofTokenType ∨ t.type = eoiTokenType := by
  rcases h with h | h | ⟨i, gt, text, n, h1, h2, h3, h4, h5⟩
  · exact .inr (.inr (.inr h))
  · exact .inr (.inr (.inl h))
  · obtain ⟨hi, hname⟩ := calc_types h2 (by
      obtain ⟨t', r, m, e1, e2, -⟩ := h4
      rw [h2] at e1; cases e1
      rw [e2]; simp)
    rw [hname] at h3
    rcases i with _ | _ | _ | _ | _ | i
    · exact .inr (.inl h1)
    · exact .inl (.inl ⟨h1, h3, by rw [h5]; exact hre.number _ _ h4⟩)
    · exact .inl (.inr (.inl ⟨h1, h3, by rw [h5]; exact hre.name _ _ h4⟩))
    · exact .inl (.inr (.inr (.inl ⟨h1, h3, by rw [h5]; exact hre.op _ _ h4⟩)))
    · exact .inl (.inr (.inr (.inr ⟨h1, h3, by rw [h5]; exact hre.minus _ _ h4⟩)))
    · omega

/-- The parser without hooks. -/
def plainEnv (upper : List Nat → List Nat) : PEnv Unit :=
  { g := grammar, upper := upper, pull := fun _ _ => .panic, unread := fun _ _ => none }

theorem program_eq (A : Arith α) (num : List Nat → Except Nat α) (upper : List Nat → List Nat) (lexers : List Lexer) (n : Nat) :
    programEnv A num upper lexers n = withObjects (hooks A num) (pipelineEnv (plainEnv upper) { g := grammar, lexers := lexers } [] n) := rfl

theorem plain_lexer {re : List Nat → Option Matcher} {lexers : List Lexer} (hl : LexersOf re Calc.tokens lexers) (hre : MatchersKnown re)
    (upper : List Nat → List Nat) (n : Nat) : FromLexer (pipelineEnv (plainEnv upper) { g := grammar, lexers := lexers : TEnv Unit } [] n) :=
  ⟨rfl, fun _ _ _ _ h => captured_lexed hre (pull_captured (plainEnv upper) (tenv := { g := grammar, lexers := lexers }) hl h)⟩

/-- The parse always ends with the same result. -/
theorem program_ends (A : Arith α) (num : List Nat → Except Nat α) {re : List Nat → Option Matcher} {lexers : List Lexer}
    (hl : LexersOf re Calc.tokens lexers) (upper : List Nat → List Nat) {src : Src} {q : SrcQueue} (hq : Lexer.Holds q [(src, 0)]) :
    ∃ r N, ∀ n k, N ≤ n → N ≤ k → parse (programEnv A num upper lexers n) k ⟨[], ⟨q, ()⟩⟩ q.sourcePos = .done r :=
  C73_hooks_ends_partial calc_compiled calc_noEoi (by simp [bodies]) calc_below calc_moves calc_safeMachines
    (withObjects (hooks A num) (plainEnv upper)) rfl
    { g := grammar, lexers := lexers } rfl (calc_typesBelow hl) (calc_mask hl) (Q := fun _ => True) (layers := []) (by intro l hl; cases hl)
    (φ := fun _ _ => 0) (K := 1) trivial (by intro h; cases h) () trivial q hq (by simp) q.sourcePos

theorem words_kept {re : List Nat → Option Matcher} {l l' : SrcList.State Src} {toks : List Token} (h : Cuts re Calc.tokens l toks l') :
    toks.filter (keeps grammar false) = wordsOf toks := by
  refine List.filter_congr fun t ht => ?_
  have : t.type = eofTokenType ∨ ∃ i : Nat, i < 14 ∧ t.type = (i : Int) := by
    induction h with
    | nil => cases ht
    | tok _ _ _ h4 _ ih =>
      rcases List.mem_cons.mp ht with rfl | ht
      · refine .inr ⟨_, ?_, rfl⟩
        have := (List.getElem?_eq_some_iff.mp h4).1
        simpa [Calc.tokens] using this
      · exact ih ht
    | eof _ ih =>
      rcases List.mem_cons.mp ht with rfl | ht
      · exact .inl rfl
      · exact ih ht
  rcases this with h | ⟨i, h1, h2⟩
  · simp [keeps, h]
  · have key : ∀ i < 14, grammar.isSideType ((i : Nat) : Int) = decide (i = 0) := by decide
    simp only [keeps, h2, Bool.false_or, key i h1]
    by_cases h0 : i = 0 <;> simp [h0]

/-- Hooks of the program are hooks of the calculator. -/
theorem program_hooked (A : Arith α) (num : List Nat → Except Nat α) (upper : List Nat → List Nat) (lexers : List Lexer) (n : Nat) :
    Hooked (programEnv A num upper lexers n) A num :=
  ⟨rfl, rfl, rfl, fun _ => rfl, fun _ _ _ => rfl, fun _ _ _ _ => rfl, fun _ _ _ => rfl, fun _ _ => rfl, fun _ _ _ _ => rfl⟩

theorem program_feeds {re : List Nat → Option Matcher} {lexers : List Lexer} (hl : LexersOf re Calc.tokens lexers) (hre : MatchersKnown re)
    (A : Arith α) (num : List Nat → Except Nat α) (upper : List Nat → List Nat) (n : Nat) : Spec.Feeds (programEnv A num upper lexers n) Given :=
  calc_feeds rfl (env := withObjects (hooks A num) (pipelineEnv (plainEnv upper) { g := grammar, lexers := lexers } [] n))
    (plain_lexer hl hre upper n)

/-- Where a successful parse stops. -/
theorem program_left {A : Arith α} {num : List Nat → Except Nat α} {re : List Nat → Option Matcher} {lexers : List Lexer}
    (hl : LexersOf re Calc.tokens lexers) (hre : MatchersKnown re) {upper : List Nat → List Nat} {src : Src} {q : SrcQueue}
    (hq : Lexer.Holds q [(src, 0)]) {n k : Nat} (hn : src.content.length < n) {pc : PC (LState Unit)}
    (h0 : parse (programEnv A num upper lexers n) k ⟨[], ⟨q, ()⟩⟩ q.sourcePos = .done (.ok pc)) :
    ∃ toks l, Cuts re Calc.tokens [(src, 0)] toks l ∧ Lexer.Holds pc.src.ps.src l := by
  obtain ⟨n, rfl⟩ : ∃ m, n = m + 1 := ⟨n - 1, by omega⟩
  have hfeeds := program_feeds hl hre A num upper (n + 1)
  rw [program_eq] at h0 hfeeds
  obtain ⟨items, h3, ⟨w, h4, h5⟩, h6, -⟩ := accepted_tree calc_compiled calc_loops calc_safeMachines calc_distinct _ rfl hfeeds (calc_safe _) h0
  have hleaves := leaves_lexed h5 (word_noEoi h4) h6
  have hfeed : Feed (programEnv A num upper lexers (n + 1))
      (Cut re Calc.tokens (withObjects (hooks A num) (plainEnv upper)) (n + 1) [(src, 0)]) (fun _ t => Given t) :=
    ⟨fun hk hn => nextLoop_cut (withObjects (hooks A num) (plainEnv upper)) (tenv := { g := grammar, lexers := lexers }) hl _ hk hn,
      fun _ _ hn => (nextLoop_fed hfeeds _ hn).1⟩
  obtain ⟨pc1, tok, b, g1, g2, g3⟩ := calc_stops rfl hfeeds hfeed (fun _ _ h => h) h0
    ⟨[], _, [], ⟨hq, by simpa using hn⟩, .nil, by simp, by simp, by simp⟩
  obtain ⟨toks, l, g4, g5, -⟩ := cut_end (withObjects (hooks A num) (plainEnv upper)) rfl (tenv := { g := grammar, lexers := lexers }) (.inr ⟨0, rfl⟩) g1 g2 g3 (by
    intro t ht
    rw [← h3] at ht
    have := hleaves t ht
    rcases this with h | h | h | h <;> rw [h.1] <;> decide)
  exact ⟨toks, l, g4, g5⟩

/-- What is known about a successful parse. -/
theorem program_read {A : Arith α} (hA : Lawful A) {num : List Nat → Except Nat α} {re : List Nat → Option Matcher} {lexers : List Lexer}
    (hl : LexersOf re Calc.tokens lexers) (hre : MatchersKnown re) {upper : List Nat → List Nat} {src : Src} {q : SrcQueue}
    (hq : Lexer.Holds q [(src, 0)]) {n k : Nat} (hn : src.content.length < n) {pc : PC (LState Unit)}
    (h0 : parse (programEnv A num upper lexers n) k ⟨[], ⟨q, ()⟩⟩ q.sourcePos = .done (.ok pc)) :
    ∃ toks l cmd e, Cuts re Calc.tokens [(src, 0)] toks l ∧ Lexer.Holds pc.src.ps.src l ∧ IsCmd num cmd (wordsOf toks) ∧
      pc.lastResult.bind (objectsAfter (hooks A num) pc.log).vals = some e ∧
      (funcText ∉ Cmd.names cmd → ∃ e', e = some e' ∧ ReprCmd A e' cmd) := by
  obtain ⟨n, rfl⟩ : ∃ m, n = m + 1 := ⟨n - 1, by omega⟩
  have hlex := plain_lexer hl hre upper (n + 1)
  rw [program_eq] at h0
  have hlex' : FromLexer (withObjects (hooks A num) (pipelineEnv (plainEnv upper) { g := grammar, lexers := lexers } [] (n + 1))) := hlex
  have hfeeds := calc_feeds rfl hlex'
  obtain ⟨items, h3, ⟨w, h4, h5⟩, h6, h7⟩ := accepted_tree calc_compiled calc_loops calc_safeMachines calc_distinct _ rfl hfeeds (calc_safe _) h0
  have hleaves := leaves_lexed h5 (word_noEoi h4) h6
  obtain ⟨kk, r', e1, e2, -⟩ := fold_of_closed h7
  obtain ⟨cmd, h8, h9⟩ := read_cmd hA ⟨_, _, _, _, _, pc, kk, rfl, hlex, h0, e1, e2, rfl⟩
  have hfeed : Feed (programEnv A num upper lexers (n + 1))
      (Cut re Calc.tokens (withObjects (hooks A num) (plainEnv upper)) (n + 1) [(src, 0)]) (fun _ t => Given t) :=
    ⟨fun hk hn => nextLoop_cut (withObjects (hooks A num) (plainEnv upper)) (tenv := { g := grammar, lexers := lexers }) hl _ hk hn,
      fun _ _ hn => (nextLoop_fed hfeeds _ hn).1⟩
  obtain ⟨pc1, tok, b, g1, g2, g3⟩ := calc_stops rfl hfeeds hfeed (fun _ _ h => h) h0
    ⟨[], _, [], ⟨hq, by simpa using hn⟩, .nil, by simp, by simp, by simp⟩
  obtain ⟨toks, l, g4, g5, g6⟩ := cut_end (withObjects (hooks A num) (plainEnv upper)) rfl (tenv := { g := grammar, lexers := lexers }) (.inr ⟨0, rfl⟩) g1 g2 g3 (by
    intro t ht
    rw [← h3] at ht
    have := hleaves t ht
    rcases this with h | h | h | h <;> rw [h.1] <;> decide)
  have g6 : (consumedBy pc.steps).reduceOption = toks.filter (keeps grammar false) := g6
  rw [words_kept g4] at g6
  rw [g6] at h8
  exact ⟨toks, l, cmd, r', g4, g5, h8, by rw [e1, Option.bind_some, e2], h9⟩

/-! Results -/

theorem part_text {re : List Nat → Option Matcher} {ts : List GToken} {src : Src} {p p' : Nat} {toks : List Token}
    (h : Cuts re ts [(src, p)] toks [(src, p')]) (hle : p ≤ src.content.length) (hm : MatchersOk re) :
    ∃ d, p' = p + d ∧ p + d ≤ src.content.length ∧ toks.flatMap (·.content) = (src.content.drop p).take d := by
  induction toks generalizing p with
  | nil => cases h; exact ⟨0, rfl, hle, by simp⟩
  | cons t toks ih =>
    cases h with
    | @tok _ _ k i n t' _ _ _ h1 h2 h3 h4 h5 =>
      have hn : n ≤ (src.content.drop p).length := by
        obtain ⟨-, ⟨t1, r1, m1, -, -, h6, h7⟩, -⟩ := h2
        exact hm _ _ h6 _ _ h7
      have hn' := hn
      rw [List.length_drop] at hn'
      obtain ⟨d, h6, h7, h8⟩ := ih h5 (by omega)
      refine ⟨n + d, by omega, by omega, ?_⟩
      rw [List.flatMap_cons, h8, List.take_add, List.drop_drop]
    | eof h5 => cases (cuts_nil h5).2

theorem words_end {toks : List Token} {src : Src} : wordsOf (toks ++ [endOf src]) = wordsOf toks := by
  simp [wordsOf, endOf]

theorem prefix_normalize (text w : List Nat) : 10 ∉ w → w <+: normalize text → w <+: text := by
  fun_induction normalize text generalizing w with
  | case1 => exact fun _ h => h
  | case2 t ih =>
    intro hw h
    cases w with
    | nil => simp
    | cons x w =>
      rw [List.cons_prefix_cons] at h
      simp [h.1] at hw
  | case3 t _ ih =>
    intro hw h
    cases w with
    | nil => simp
    | cons x w =>
      rw [List.cons_prefix_cons] at h
      simp [h.1] at hw
  | case4 b t _ _ ih =>
    intro hw h
    cases w with
    | nil => simp
    | cons x w =>
      rw [List.cons_prefix_cons] at h ⊢
      exact ⟨h.1, ih w (fun hm => hw (by simp [hm])) h.2⟩

theorem infix_normalize (text w : List Nat) (hw : 10 ∉ w) : w <:+: normalize text → w <:+: text := by
  fun_induction normalize text with
  | case1 => exact id
  | case2 t ih =>
    intro h
    rw [List.infix_cons_iff] at h
    rcases h with h | h
    · exact (prefix_normalize (13 :: 10 :: t) w hw (by rw [normalize]; exact h)).isInfix
    · exact (ih h).trans ⟨[13, 10], [], by simp⟩
  | case3 t ht ih =>
    intro h
    rw [List.infix_cons_iff] at h
    rcases h with h | h
    · exact (prefix_normalize (13 :: t) w hw (by rw [normalize]; exact h; exact ht)).isInfix
    · exact (ih h).trans ⟨[13], [], by simp⟩
  | case4 b t h1 h2 ih =>
    intro h
    rw [List.infix_cons_iff] at h
    rcases h with h | h
    · exact (prefix_normalize (b :: t) w hw (by rw [normalize]; exact h; exact h1; exact h2)).isInfix
    · exact (ih h).trans ⟨[b], [], by simp⟩

theorem infix_joined {w a b : List Nat} (hw : 10 ∉ w) (h : w <:+: a ++ 10 :: b) : w <:+: a ∨ w <:+: b := by
  induction a with
  | nil =>
    rw [List.nil_append, List.infix_cons_iff] at h
    rcases h with h | h
    · cases w with
      | nil => exact .inl (by simp)
      | cons x w =>
        rw [List.cons_prefix_cons] at h
        simp [h.1] at hw
    · exact .inr h
  | cons y a ih =>
    rw [List.cons_append, List.infix_cons_iff] at h
    rcases h with h | h
    · refine .inl (List.IsPrefix.isInfix ?_)
      have : w <+: (y :: a) ++ 10 :: b := h
      rcases Nat.le_total w.length (y :: a).length with hlen | hlen
      · exact List.prefix_of_prefix_length_le this (List.prefix_append ..) hlen
      · obtain ⟨r, rfl⟩ := List.prefix_of_prefix_length_le (List.prefix_append (y :: a) (10 :: b)) this hlen
        have h := (List.prefix_append_right_inj _).mp this
        cases r with
        | nil => simp
        | cons x r =>
          rw [List.cons_prefix_cons] at h
          simp [h.1] at hw
    · rcases ih h with h | h
      · exact .inl (h.trans ⟨[y], [], by simp⟩)
      · exact .inr h

/-- Contents of tokens are parts of the text. -/
theorem cuts_parts {re : List Nat → Option Matcher} {ts : List GToken} {src : Src} {p : Nat} {toks : List Token} {l : SrcList.State Src}
    (h : Cuts re ts [(src, p)] toks l) : ∀ t ∈ toks, t.content = [] ∨ t.content <:+: src.content := by
  induction toks generalizing p with
  | nil => simp
  | cons t toks ih =>
    cases h with
    | tok _ _ _ _ h5 =>
      exact List.forall_mem_cons.mpr ⟨.inr ((List.take_prefix ..).isInfix.trans (List.drop_suffix ..).isInfix), ih h5⟩
    | eof h5 =>
      obtain ⟨rfl, -⟩ := cuts_nil h5
      simp [endOf]

theorem no_func {re : List Nat → Option Matcher} {text : List Nat} {toks : List Token} {l : SrcList.State Src}
    (hf : ¬ PartOf funcText text) (h : Cuts re Calc.tokens [(inputOf text, 0)] toks l) : ∀ t ∈ wordsOf toks, t.content ≠ funcText := by
  intro t ht e
  have := cuts_parts h t (List.mem_of_mem_filter ht)
  rw [e] at this
  rcases this with h | h
  · simp [funcText] at h
  · exact hf (infix_normalize _ _ (by decide) h)

/-- Errors of hooks are about tokens of the text. -/
theorem program_hook {A : Arith α} {num : List Nat → Except Nat α} {re : List Nat → Option Matcher} {lexers : List Lexer}
    (hl : LexersOf re Calc.tokens lexers) (hre : MatchersKnown re) {upper : List Nat → List Nat} {text : List Nat} {q : SrcQueue}
    (hq : Lexer.Holds q [(inputOf text, 0)]) {n k x : Nat} (hn : (normalize text).length < n)
    (h0 : parse (programEnv A num upper lexers n) k ⟨[], ⟨q, ()⟩⟩ q.sourcePos = .done (.error (.hook x))) :
    Fair num (Good re Calc.tokens [(inputOf text, 0)]) x := by
  obtain ⟨n, rfl⟩ : ∃ m, n = m + 1 := ⟨n - 1, by omega⟩
  refine hooks_fair_at (program_hooked A num upper lexers (n + 1)) (program_feeds hl hre A num upper (n + 1))
    (kept_inv (K := Cut re Calc.tokens (withObjects (hooks A num) (plainEnv upper)) (n + 1) [(inputOf text, 0)])
      (fun h hk => nextLoop_cut (withObjects (hooks A num) (plainEnv upper)) (tenv := { g := grammar, lexers := lexers }) hl _ hk h))
    (fun pc t h => (cut_good h.2).2 t (by rw [replay_consumed _ _ _ h.1]; simp))
    (fun _ _ _ _ h => by
      obtain ⟨y, hy⟩ := pull_err (withObjects (hooks A num) (plainEnv upper)) (tenv := { g := grammar, lexers := lexers }) h
      cases hy)
    (fun pc0 h1 => ?_) h0
  obtain ⟨_, _, _, rfl⟩ := pushNode_spec h1
  exact ⟨rfl, [], _, [], ⟨hq, by simpa [inputOf] using hn⟩, .nil, by simp, by simp, by simp⟩

/-- Errors have reasons. -/
theorem program_reason {A : Arith α} {num : List Nat → Except Nat α} {re : List Nat → Option Matcher} {lexers : List Lexer}
    (hl : LexersOf re Calc.tokens lexers) (hre : MatchersKnown re) {upper : List Nat → List Nat} {text : List Nat} {q : SrcQueue}
    (hq : Lexer.Holds q [(inputOf text, 0)]) {n k : Nat} (hn : (normalize text).length < n) {e : PErr}
    (h0 : parse (programEnv A num upper lexers n) k ⟨[], ⟨q, ()⟩⟩ q.sourcePos = .done (.error e)) : Reason re num text e := by
  obtain ⟨n, rfl⟩ : ∃ m, n = m + 1 := ⟨n - 1, by omega⟩
  have h1 := parse_explains (withObjects (hooks A num) (plainEnv upper)) (tenv := { g := grammar, lexers := lexers }) hl (.inr ⟨0, rfl⟩)
    (src := inputOf text) hn (ls := ⟨[], ⟨q, ()⟩⟩) hq h0
  cases e with
  | lexer e => exact h1
  | hook x =>
    obtain ⟨t, h2, h3, h4⟩ := program_hook hl hre hq hn h0
    have hocc : t.type ≠ eoiTokenType → Occurs re Calc.tokens [(inputOf text, 0)] t := fun hne => by
      rcases h2 with h | h
      · exact absurd h.1 hne
      · exact h.2
    rcases h3 with h | h | h | h <;> rcases h4 with g | g <;> first
      | exact absurd (h.2.1.symm.trans g.1) (by decide)
      | exact ⟨t, hocc (by rw [h.1]; decide), .inl ⟨h.1, g.2⟩⟩
      | exact ⟨t, hocc (by rw [h.1]; decide), .inr ⟨h.1, g.2⟩⟩
  | wrongToken t => exact h1
  | unexpectedEof => exact h1.1
  | unexpectedToken t => exact h1.1
  | remainingSource t => exact absurd h1.2.1 (by simp [plainEnv, withObjects])

/-- Results of a parse are answered as described. -/
theorem answer_read {A : Arith α} (hA : Lawful A) {num : List Nat → Except Nat α} {re : List Nat → Option Matcher} {lexers : List Lexer}
    (hl : LexersOf re Calc.tokens lexers) (hre : MatchersKnown re) {upper : List Nat → List Nat} {m : Memory α} {c : RunContext α}
    (hc : Proof.Calc.Holds A m c) {text : List Nat} (hf : ¬ PartOf funcText text) {q : SrcQueue} (hq : Lexer.Holds q [(inputOf text, 0)])
    {n k : Nat} (hn : (normalize text).length < n) {r : Except PErr (PC (LState Unit))}
    (h0 : parse (programEnv A num upper lexers n) k ⟨[], ⟨q, ()⟩⟩ q.sourcePos = .done r) (depth : Nat) :
    ∃ o, Answers re num A depth m text o ∧ match o with
      | none => answer A num depth c r = .timeout
      | some (m', x) => ∃ c', Proof.Calc.Holds A m' c' ∧ answer A num depth c r = .done (c', x) := by
  cases r with
  | error e => exact ⟨_, .failed e (program_reason hl hre hq hn h0), c, hc, rfl⟩
  | ok pc =>
    obtain ⟨toks, l, cmd, e, h1, h2, h3, h4, h5⟩ := program_read hA hl hre hq hn h0
    obtain ⟨e', rfl, h6⟩ := h5 (cmd_names h3 (no_func hf h1))
    rcases cuts_shape h1 with rfl | ⟨p, rfl⟩
    · obtain ⟨body, rfl, -, -, h8⟩ := whole_text h1 (Nat.zero_le _) hl.matchers grammar
      rw [words_end] at h3
      refine ⟨_, .result h1 (by simpa [inputOf] using h8) h3, ?_⟩
      have hs : pc.src.ps.src.isEmpty = true := by
        have : pc.src.ps.src.source = none := by simpa using h2.rep.source
        simp [SrcQueue.isEmpty, this]
      have hans : answer A num depth c (.ok pc) = bindRun (compute A depth c e') fun r => .done (r.1, .result r.2) := by
        simp only [answer, hs, h4, not_true_eq_false, if_false]
      have hp := perform_cmd hA hc depth h6
      rw [hans]
      revert hp
      cases perform A depth m cmd with
      | none =>
        intro hp
        show bindRun _ _ = _
        cases hcmp : compute A depth c e' with
        | timeout => rfl
        | panic => rw [hcmp] at hp; exact hp.elim
        | done x => rw [hcmp] at hp; exact hp.elim
      | some r =>
        intro hp
        show ∃ c', _ ∧ bindRun _ _ = _
        cases hcmp : compute A depth c e' with
        | timeout => rw [hcmp] at hp; exact hp.elim
        | panic => rw [hcmp] at hp; exact hp.elim
        | done x =>
          rw [hcmp] at hp
          obtain ⟨hp1, hp2⟩ := hp
          exact ⟨x.1, hp1, by simp [bindRun, hp2]⟩
    · obtain ⟨d, h7, h8, h9⟩ := part_text h1 (Nat.zero_le _) hl.matchers
      obtain rfl : p = d := by omega
      refine ⟨_, .extra h1 (by simpa [inputOf] using h9) h3, c, hc, ?_⟩
      have hs : pc.src.ps.src.source = some (inputOf text) := by simpa using h2.rep.source
      have hpos : pc.src.ps.src.pos = (p : Nat) := by simpa using h2.rep.pos
      have hsp : pc.src.ps.src.sourcePos = ⟨some (inputOf text), (p : Nat)⟩ := by
        simp [SrcQueue.sourcePos, SrcPos.new, hs, hpos]
      have he : pc.src.ps.src.isEmpty = false := by simp [SrcQueue.isEmpty, hs]
      simp only [answer, he, Bool.false_eq_true, not_false_eq_true, if_true, hsp, orPanic]
      rw [Go.slice_nat (by omega) (Nat.le_refl _)]
      simp [inputOf]

/-- C81, a text given to the calculator: its answer is an error of the parser, or the rest of the text after a command, or the result of
a command that is the whole text. -/
theorem C81_compute_partial {A : Arith α} (hA : Lawful A) {num : List Nat → Except Nat α} {re : List Nat → Option Matcher} {lexers : List Lexer}
    (hl : LexersOf re Calc.tokens lexers) (hre : MatchersKnown re) (upper : List Nat → List Nat) {text : List Nat} (hf : ¬ PartOf funcText text) :
    ∃ N, ∀ depth m c, Proof.Calc.Holds A m c → ∃ o, Answers re num A depth m text o ∧ match o with
      | none => ∀ fuel, N ≤ fuel → computeText A num upper lexers fuel depth c text = .timeout
      | some (m', x) => ∃ c', Proof.Calc.Holds A m' c' ∧ ∀ fuel, N ≤ fuel → computeText A num upper lexers fuel depth c text = .done (c', x) := by
  obtain ⟨q, q', e1, e2, hq⟩ := Conf.queue_holds (inputOf text)
  obtain ⟨r, N, hN⟩ := program_ends A num hl upper hq
  have hcomp : ∀ depth c fuel, N ≤ fuel → computeText A num upper lexers fuel depth c text = answer A num depth c r := by
    intro depth c fuel hk
    have e3 := (C08_normalizeNls text).1
    have e2' : q.append (some ⟨0, "input", normalize text⟩) = some q' := e2
    simp only [computeText, e3, e1, e2', orPanic, hN fuel fuel hk hk, bindRun]
  refine ⟨N, fun depth m c hc => ?_⟩
  obtain ⟨o, h1, h2⟩ := answer_read hA hl hre hc hf hq (n := N + (normalize text).length + 1) (k := N) (by omega) (hN _ _ (by omega) (by omega)) depth
  refine ⟨o, h1, ?_⟩
  cases o with
  | none => exact fun fuel hk => (hcomp depth c fuel hk).trans h2
  | some x =>
    obtain ⟨c', h3, h4⟩ := h2
    exact ⟨c', h3, fun fuel hk => (hcomp depth c fuel hk).trans h4⟩

/-! Sessions -/

theorem partOf_iff {line : List Nat} : line.tails.any (helpText.isPrefixOf ·) = true ↔ PartOf helpText line := by
  rw [List.any_eq_true]
  constructor
  · rintro ⟨s, h1, h2⟩
    exact (List.isPrefixOf_iff_prefix.mp h2).isInfix.trans ((List.mem_tails ..).mp h1).isInfix
  · rintro ⟨s, t, rfl⟩
    exact ⟨helpText ++ t, (List.mem_tails ..).mpr ⟨s, by simp⟩, List.isPrefixOf_iff_prefix.mpr ⟨t, rfl⟩⟩

/-- C81, lines given to the calculator: numbers that are shown are results of commands, in their order, with the memory commands before them
have left. -/
theorem C81_session_partial {A : Arith α} (hA : Lawful A) {num : List Nat → Except Nat α} {re : List Nat → Option Matcher} {lexers : List Lexer}
    (hl : LexersOf re Calc.tokens lexers) (hre : MatchersKnown re) (upper : List Nat → List Nat) (depth : Nat) (lines : List (List Nat))
    (hf : ∀ line ∈ lines, ¬ PartOf funcText line) :
    ∃ o, Talks re num A depth {} none lines o ∧ ∃ N, ∀ fuel, N ≤ fuel →
      repl A num upper lexers fuel depth {} lines = match o with
        | none => .timeout
        | some shown => .done shown := by
  have key : ∀ (lines : List (List Nat)) (pending : Option (List Nat)) m c, Proof.Calc.Holds A m c →
      (∀ text, pending = some text → ¬ PartOf funcText text) → (∀ line ∈ lines, ¬ PartOf funcText line) →
      ∃ o, Talks re num A depth m pending lines o ∧ ∃ N, ∀ fuel, N ≤ fuel →
        repl A num upper lexers fuel depth ⟨pending, c⟩ lines = match o with
          | none => .timeout
          | some shown => .done shown := by
    intro lines
    induction lines with
    | nil => exact fun _ m c _ _ _ => ⟨_, .nothing, 0, fun _ _ => rfl⟩
    | cons line lines ih =>
      intro pending m c hc hp hf
      obtain ⟨hf0, hf1⟩ := List.forall_mem_cons.mp hf
      have hnone : ∀ text, (none : Option (List Nat)) = some text → ¬ PartOf funcText text := by simp
      by_cases hempty : line = []
      · subst hempty
        exact ⟨_, .stop, 0, fun _ _ => by simp [repl]⟩
      by_cases hhelp : PartOf helpText line
      · obtain ⟨o, h1, N, h2⟩ := ih none m c hc hnone hf1
        refine ⟨_, .help hhelp h1, N, fun fuel hk => ?_⟩
        have h3 := h2 fuel hk
        rw [repl, if_neg hempty, handleLine, if_pos (partOf_iff.mpr hhelp)]
        show bindRun (repl A num upper lexers fuel depth ⟨none, c⟩ lines) _ = _
        rw [h3]
        cases o <;> rfl
      · generalize hin : pending.elim line (· ++ 10 :: line) = input
        have hfin : ¬ PartOf funcText input := by
          subst hin
          cases pending with
          | none => exact hf0
          | some prev =>
            intro h
            rcases infix_joined (by decide) h with h | h
            · exact hp prev rfl h
            · exact hf0 h
        have hhandle : ∀ fuel, handleLine A num upper lexers fuel depth ⟨pending, c⟩ line =
            bindRun (computeText A num upper lexers fuel depth c input) fun r =>
              match r with
              | (c, .result (.ok v)) => .done ({ pending := none, context := c }, .number v)
              | (c, .failed .unexpectedEof) => .done ({ pending := some input, context := c }, .nothing)
              | (c, e) => .done ({ pending := none, context := c }, .error e) := by
          intro fuel
          rw [handleLine, if_neg (fun h => hhelp (partOf_iff.mp h))]
          subst hin
          cases pending <;> rfl
        obtain ⟨N, hN⟩ := C81_compute_partial hA hl hre upper hfin
        obtain ⟨o, h1, h2⟩ := hN depth m c hc
        cases o with
        | none =>
          refine ⟨none, .deep hempty hhelp (by rw [hin]; exact h1), N, fun fuel hk => ?_⟩
          rw [repl, if_neg hempty, hhandle, h2 fuel hk]
          rfl
        | some x =>
          obtain ⟨m', x⟩ := x
          obtain ⟨c', hc', h3⟩ := h2
          have next : ∀ (p' : Option (List Nat)) (sh : Shown α), (∀ text, p' = some text → ¬ PartOf funcText text) →
              (match (c', x) with
                | (c, .result (.ok v)) => Run.done (({ pending := none, context := c } : Session α), Shown.number v)
                | (c, .failed .unexpectedEof) => .done ({ pending := some input, context := c }, .nothing)
                | (c, e) => .done ({ pending := none, context := c }, .error e)) = .done (⟨p', c'⟩, sh) →
              ∃ o, Talks re num A depth m' p' lines o ∧ ∃ N, ∀ fuel, N ≤ fuel →
                repl A num upper lexers fuel depth ⟨pending, c⟩ (line :: lines) = match o.map (sh :: ·) with
                  | none => .timeout
                  | some shown => .done shown := by
            intro p' sh hp' he
            obtain ⟨o, h4, M, h5⟩ := ih p' m' c' hc' hp' hf1
            refine ⟨o, h4, max N M, fun fuel hk => ?_⟩
            rw [repl, if_neg hempty, hhandle, h3 fuel (by omega)]
            show bindRun (match (c', x) with
                | (c, .result (.ok v)) => Run.done (({ pending := none, context := c } : Session α), Shown.number v)
                | (c, .failed .unexpectedEof) => .done ({ pending := some input, context := c }, .nothing)
                | (c, e) => .done ({ pending := none, context := c }, .error e)) _ = _
            rw [he]
            show bindRun (repl A num upper lexers fuel depth ⟨p', c'⟩ lines) _ = _
            rw [h5 fuel (by omega)]
            cases o <;> rfl
          by_cases hv : ∃ v, x = .result (.ok v)
          · obtain ⟨v, rfl⟩ := hv
            obtain ⟨o, h4, N', h5⟩ := next none (.number v) hnone rfl
            exact ⟨_, .number hempty hhelp (by rw [hin]; exact h1) h4, N', h5⟩
          by_cases he : x = .failed .unexpectedEof
          · subst he
            obtain ⟨o, h4, N', h5⟩ := next (some input) .nothing (by rintro text ⟨⟩; exact hfin) rfl
            exact ⟨_, .more hempty hhelp (by rw [hin]; exact h1) (by rw [hin]; exact h4), N', h5⟩
          · obtain ⟨o, h4, N', h5⟩ := next none (.error x) hnone (by
              match x, hv, he with
              | .result (.ok v), hv, _ => exact absurd ⟨v, rfl⟩ hv
              | .failed .unexpectedEof, _, he => exact absurd rfl he
              | .result (.error _), _, _ => rfl
              | .extra _, _, _ => rfl
              | .failed (.lexer _), _, _ => rfl
              | .failed (.hook _), _, _ => rfl
              | .failed (.wrongToken _), _, _ => rfl
              | .failed (.unexpectedToken _), _, _ => rfl
              | .failed (.remainingSource _), _, _ => rfl)
            exact ⟨_, .error hempty hhelp (by rw [hin]; exact h1) (fun v e => hv ⟨v, e⟩) he h4, N', h5⟩
  exact key lines none {} [{}] ⟨fun _ => none, rfl, fun _ => trivial⟩ (by simp) hf

end Verif.Props
