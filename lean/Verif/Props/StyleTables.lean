/-
C75: the grammar of the style checker.
-/
import Verif.Model.StyleGrammar
import Verif.Props.SoundOn
import Verif.Props.HookPanics
import Verif.Props.NewParser
import Verif.Proof.Names

namespace Verif.Props.Style

open Verif Verif.Model Verif.Model.Style Verif.Spec Verif.Spec.Ebnf Verif.Proof Verif.Props

/-- The compiled description is the generated grammar. -/
theorem style_compiled : Compiled id find tokens bodies (List.range 8) (List.range 8) (List.range 8) 100 grammar := by
  refine ⟨by decide +kernel, ?_, ?_, List.Perm.refl _, List.Perm.refl _⟩
  · simp [bodies, nameTok, numberTok, comma, semicolon, typedefLit, structLit, lBrace, rBrace, lBracket, rBracket, sizes, WF, WFs, IsBody]
  · simp [bodies, nameTok, numberTok, comma, semicolon, typedefLit, structLit, lBrace, rBrace, lBracket, rBracket, sizes, refs, refsAll]

theorem style_loops : ∀ c ∈ bodies, LoopOk true c := by
  simp [bodies, nameTok, numberTok, comma, semicolon, typedefLit, structLit, lBrace, rBrace, lBracket, rBracket, sizes, LoopOk, LoopOkSeq, LoopOkAny]

theorem style_safeMachines : SafeMachines bodies (List.range 8) (List.range 8) 100 :=
  safe_of_check (fun c hc => (style_compiled.wf c hc).1) (by decide +kernel)

theorem style_distinct : DistinctLiterals grammar := distinct_of (by decide +kernel)

theorem style_noEoi : ∀ c ∈ bodies, NoEoi c := by
  simp [bodies, nameTok, numberTok, comma, semicolon, typedefLit, structLit, lBrace, rBrace, lBracket, rBracket, sizes, NoEoi, NoEois]

theorem style_below : ∀ c ∈ bodies, c.Below tokens.length := by
  simp [bodies, nameTok, numberTok, comma, semicolon, typedefLit, structLit, lBrace, rBrace, lBracket, rBracket, sizes, Chunk.Below, Chunk.BelowAll,
    tokens]

/-- Height of a node. -/
def rank (i : Nat) : Nat := if i = 0 then 3 else if i = 1 then 2 else if i = 3 then 1 else 0

theorem style_moves : Moves (fun _ => false) bodies := by
  refine ⟨?_, ?_, rank, ?_⟩
  · intro i c hc h
    have hm := List.mem_of_getElem? hc
    have he := style_noEoi c hm
    have : ∀ c ∈ bodies, mayBeEmpty (fun _ => false) c = false := by decide
    rw [this c hm] at h
    rcases h with h | h
    · cases h
    · exact absurd he h
  · simp [bodies, nameTok, numberTok, comma, semicolon, typedefLit, structLit, lBrace, rBrace, lBracket, rBracket, sizes, LoopsMove, LoopsMoveAll,
      mayBeEmptySeq, mayBeEmpty, mayBeEmptyAny]
  · intro i c hc
    have hi : i < 8 := by
      have := (List.getElem?_eq_some_iff.mp hc).1
      simpa [bodies] using this
    rcases i with _ | _ | _ | _ | _ | _ | _ | _ | i
    case succ.succ.succ.succ.succ.succ.succ.succ => omega
    all_goals
      (simp only [bodies, List.getElem?_cons_zero, List.getElem?_cons_succ, Option.some.injEq] at hc; subst hc;
       simp [nameTok, numberTok, comma, semicolon, typedefLit, structLit, lBrace, rBrace, lBracket, rBracket, sizes, leftNodes, leftNodesSeq, leftNodesAny,
        mayBeEmpty, mayBeEmptySeq, mayBeEmptyAny, rank])

theorem layer_made : newTokenLayer grammar [] tokenHooks = some (some ([], some layer)) := by rfl

theorem style_hooksSafe (n : Nat) : HooksSafe n (fun _ => True) [layer] := by
  intro l hl
  rw [List.mem_singleton] at hl
  subst hl
  refine ⟨by decide, fun h hh => ?_⟩
  simp [layer] at hh
  subst hh
  intro st t _ _
  unfold Style.handleToken
  split <;> trivial

theorem style_hooksBound : HooksBound (fun _ (_ : Unit) => 0) 1 [layer] := by
  refine ⟨fun j h hh => ?_, trivial⟩
  have hj : j = 2 ∧ h = Style.handleToken := by
    rcases j with _ | _ | _ | _ | j <;> simp [layer] at hh
    exact ⟨rfl, hh.symm⟩
  obtain ⟨rfl, rfl⟩ := hj
  intro st t ht
  have ht : ¬ t.type = eoiTokenType := by rw [ht]; decide
  by_cases c : t.pos.pos = 0 ∧ t.typeName = spaceType
  · simp only [Style.handleToken, c, and_self, if_true, Sure]
    exact ⟨fun _ _ => le_refl _, by rw [if_neg ht]; simp [eoiTokenType]⟩
  · simp only [Style.handleToken, c, if_false, Sure]
    exact ⟨fun _ _ => le_refl _, by simp [ht]⟩

/-! Lexers -/

theorem style_lexers {re : List Nat → Option Matcher} {lexers : List Lexer} (h : LexersOf re tokens lexers) :
    ∃ ms, ms ≠ [] ∧ Lex.ReOk (joinedRegexp ms) ∧ lexers = [Lexer.new (joinedRegexp ms) (groupTypes tokens 0)] := by
  obtain ⟨h1, h2⟩ := h.groups
  have h0 : maxGroup tokens = 0 := by decide
  rw [h0] at h1
  match lexers, h1 with
  | [l], _ =>
    obtain ⟨ms, h3, h4⟩ := h2 0 l rfl
    refine ⟨ms, ?_, joined_reOk (h3.bounded h.matchers), by rw [h4]⟩
    intro e
    have h5 := h3.at.1
    rw [e] at h5
    revert h5
    decide

theorem groupTypes_style : groupTypes tokens 0 = [⟨0, "indent"⟩, ⟨1, "space"⟩, ⟨2, "comment"⟩, ⟨3, "number"⟩, ⟨4, "name"⟩, ⟨5, "op"⟩] := by
  decide +kernel

theorem style_typesBelow {re : List Nat → Option Matcher} {lexers : List Lexer} (h : LexersOf re tokens lexers) :
    ∀ l ∈ lexers, TypesBelow tokens.length l := by
  obtain ⟨ms, -, h2, rfl⟩ := style_lexers h
  intro l hl
  rw [List.mem_singleton] at hl
  subst hl
  refine ⟨_, _, h2, rfl, ?_⟩
  rw [groupTypes_style]
  intro k t ht
  have hk : k < 6 := by
    by_contra hk
    have : ([⟨0, "indent"⟩, ⟨1, "space"⟩, ⟨2, "comment"⟩, ⟨3, "number"⟩, ⟨4, "name"⟩, ⟨5, "op"⟩] : List TokenType)[k]? = none :=
      List.getElem?_eq_none (by simp; omega)
    rw [Lex.groupType, this] at ht
    cases ht
  have h14 : tokens.length = 14 := by decide
  rw [h14]
  rcases k with _ | _ | _ | _ | _ | _ | k
  case succ.succ.succ.succ.succ.succ => omega
  all_goals (simp [Lex.groupType] at ht; subst ht; decide)

theorem style_mask {re : List Nat → Option Matcher} {lexers : List Lexer} (h : LexersOf re tokens lexers) : ∃ l ∈ lexers, l.typeMask ≠ 0 := by
  obtain ⟨ms, -, -, rfl⟩ := style_lexers h
  refine ⟨_, List.mem_singleton.mpr rfl, ?_⟩
  rw [groupTypes_style]
  simp only [Lexer.new]
  decide

theorem style_names {re : List Nat → Option Matcher} {lexers : List Lexer} (h : LexersOf re tokens lexers) : NamesOk (· ≠ "var-def") lexers := by
  obtain ⟨ms, -, -, rfl⟩ := style_lexers h
  refine ⟨by decide, ?_⟩
  intro l hl
  rw [List.mem_singleton] at hl
  subst hl
  rw [groupTypes_style]
  simp only [Lexer.new]
  decide

/-! Tokens given to the parser -/

/-- Queued tokens are not named as definitions of variables. -/
def Plain (ls : LState Unit) : Prop := ∀ q ∈ ls.queues, ∀ t ∈ q, t.typeName ≠ "var-def"

theorem handle_plain {env : TEnv Unit} {k : Nat} {qs : List (List Token)} {ps ps' : PState Unit} {tok : Option Token}
    (ht : ∀ t, tok = some t → t.typeName ≠ "var-def") {r : Except PErr (Bool × List Token)}
    (h : Model.handleToken env k layer qs ps tok = .done (ps', r)) : ∀ e x, r = .ok (e, x) → ∀ t ∈ x, t.typeName ≠ "var-def" := by
  intro e x hr
  subst hr
  cases tok with
  | none => cases h; intro t ht; cases ht
  | some tok =>
    rw [Model.handleToken] at h
    obtain ⟨o, h1, h⟩ := orPanic_done.mp h
    cases o with
    | none => cases h; intro t ht; cases ht
    | some hk =>
      have hk : hk = Style.handleToken := by
        obtain ⟨j, hj⟩ := pick_mem h1
        have hm := List.mem_of_getElem? hj.1
        simpa [layer] using hm
      subst hk
      dsimp only at h
      rw [bindRun_done] at h
      obtain ⟨⟨tc, st, r⟩, h2, h⟩ := h
      obtain ⟨src, -, h⟩ := orPanic_done.mp h
      have hr : ∃ e x, r = .ok (e, x) ∧ ∀ t ∈ x, t.typeName ≠ "var-def" := by
        unfold Style.handleToken at h2
        split at h2
        · cases h2
          exact ⟨_, _, rfl, by simp [indentType]⟩
        · cases h2
          exact ⟨_, _, rfl, by simp⟩
      obtain ⟨e', x', rfl, hx⟩ := hr
      simp only [Except.map, Run.done.injEq, Prod.mk.injEq, Except.ok.injEq] at h
      have h := h.2
      intro t hm
      split at h
      · split at h
        · cases h; exact hx t hm
        · cases h
          rcases List.mem_append.mp hm with hm | hm
          · exact hx t hm
          · rw [List.mem_singleton.mp hm]; exact ht _ rfl
      · cases h; exact hx t hm

theorem hookLoop_plain {env : TEnv Unit} (hn : NamesOk (· ≠ "var-def") env.lexers) {types : TokenTypeSet} {k : Nat} (fuel : Nat) {q : List Token}
    (hq : ∀ t ∈ q, t.typeName ≠ "var-def") {ls ls' : LState Unit} (hs : Plain ls) {r : Except PErr (Option Token)}
    (h : hookLoop env k layer (pullToken env k types []) fuel q ls = .done (ls', r)) :
    Plain ls' ∧ ∀ t, r = .ok (some t) → t.typeName ≠ "var-def" := by
  induction fuel generalizing q ls with
  | zero => cases h
  | succ fuel ih =>
    rw [hookLoop, bindRun_done] at h
    obtain ⟨⟨ls1, r1⟩, h1, h⟩ := h
    rw [pullToken, bindRun_done] at h1
    obtain ⟨⟨src, r2⟩, h2, h1⟩ := h1
    cases h1
    have put : ∀ (q : List Token) (ps : PState Unit), (∀ t ∈ q, t.typeName ≠ "var-def") → Plain ⟨q :: ls.queues, ps⟩ := by
      intro q ps hq q' hq'
      rcases List.mem_cons.mp hq' with rfl | hq'
      · exact hq
      · exact hs q' hq'
    cases r2 with
    | error e => cases h; exact ⟨put _ _ hq, by simp⟩
    | ok result =>
      have hres : ∀ t, result = some t → t.typeName ≠ "var-def" := by
        rintro t rfl
        exact fetchLoop_named hn h2
      dsimp only at h
      rw [bindRun_done] at h
      obtain ⟨⟨ps, r3⟩, h3, h⟩ := h
      have hx := handle_plain hres h3
      cases r3 with
      | error e => cases h; exact ⟨put _ _ hq, by simp⟩
      | ok x =>
        obtain ⟨emit, extra⟩ := x
        have hx := hx _ _ rfl
        dsimp only at h
        cases ha : appendExtra env.g q extra with
        | error e =>
          rw [ha] at h; cases h
          refine ⟨put _ _ ?_, by simp⟩
          intro t ht
          rcases List.mem_append.mp ht with ht | ht
          · exact hq t ht
          · exact hx t ((List.takeWhile_prefix _).subset ht)
        | ok q' =>
          rw [ha] at h
          obtain ⟨rfl, -⟩ := appendExtra_ok extra q q' ha
          have hq' : ∀ t ∈ q ++ extra, t.typeName ≠ "var-def" := by
            intro t ht
            rcases List.mem_append.mp ht with ht | ht
            · exact hq t ht
            · exact hx t ht
          cases emit with
          | true => cases h; exact ⟨put _ _ hq', fun t ht => hres t (by cases ht; rfl)⟩
          | false =>
            dsimp only at h
            rw [if_neg (by simp)] at h
            split at h
            · rename_i t q2 e
              rw [e] at hq'
              cases h
              exact ⟨put _ _ fun t ht => hq' t (List.mem_cons_of_mem _ ht), fun t' ht => by cases ht; exact hq' _ (List.mem_cons_self ..)⟩
            · exact ih (q := []) (ls := ⟨ls.queues, ps⟩) (fun t ht => by cases ht) hs h

theorem style_feeds {upper : List Nat → List Nat} {lexers : List Lexer} (hn : NamesOk (· ≠ "var-def") lexers) (k : Nat) :
    FeedsIn (styleEnv upper lexers k) Plain (fun tok => ∀ t, tok = some t → t.typeName ≠ "var-def") := by
  intro ls types ls' r hs h
  have h : pullToken { g := grammar, lexers := lexers } k types [layer] ls = .done (ls', r) := h
  rw [pullToken] at h
  split at h
  · cases h
  · rename_i t q qs e
    cases h
    refine ⟨?_, ?_⟩
    · intro q' hq' t' ht'
      rcases List.mem_cons.mp hq' with rfl | hq'
      · exact hs (t :: q') (by rw [e]; simp) t' (List.mem_cons_of_mem _ ht')
      · exact hs q' (by rw [e]; simp [hq']) t' ht'
    · intro tok ht t' ht'
      cases ht; cases ht'
      exact hs (t :: q) (by rw [e]; simp) t (List.mem_cons_self ..)
  · rename_i qs e
    obtain ⟨h1, h2⟩ := hookLoop_plain hn k (by simp) (ls := { ls with queues := qs }) (fun q hq => hs q (by rw [e]; simp [hq])) h
    exact ⟨h1, fun tok ht t ht' => h2 t (by rw [ht, ht'])⟩

end Verif.Props.Style
