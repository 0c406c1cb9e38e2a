/-
C78: the grammar of the configuration editor.
-/
import Verif.Model.ConfGrammar
import Verif.Props.SoundOn
import Verif.Props.HookPanics
import Verif.Props.NewParser

namespace Verif.Props.Conf

open Verif Verif.Model Verif.Model.ConfEdit Verif.Spec Verif.Spec.Ebnf Verif.Proof Verif.Props

/-- The compiled description is the generated grammar. -/
theorem conf_compiled : Compiled id find tokens bodies (List.range 6) (List.range 6) (List.range 6) 100 grammar := by
  refine ⟨by decide +kernel, ?_, ?_, List.Perm.refl _, List.Perm.refl _⟩
  · simp [bodies, ConfEdit.lines, WF, WFs, IsBody]
  · simp [bodies, ConfEdit.lines, refs, refsAll]

theorem conf_loops : ∀ c ∈ bodies, LoopOk true c := by
  simp [bodies, ConfEdit.lines, LoopOk, LoopOkSeq, LoopOkAny]

theorem conf_safeMachines : SafeMachines bodies (List.range 6) (List.range 6) 100 :=
  safe_of_check (fun c hc => (conf_compiled.wf c hc).1) (by decide +kernel)

theorem conf_distinct : DistinctLiterals grammar := distinct_of (by decide +kernel)

theorem conf_noEoi : ∀ c ∈ bodies, NoEoi c := by
  simp [bodies, ConfEdit.lines, NoEoi, NoEois]

theorem conf_below : ∀ c ∈ bodies, c.Below tokens.length := by
  simp [bodies, ConfEdit.lines, Chunk.Below, Chunk.BelowAll, tokens]

/-- Height of a node. -/
def rank (i : Nat) : Nat := if i = 0 then 3 else if i = 1 ∨ i = 2 then 1 else 0

/-- Only the root may be empty. -/
theorem conf_moves : Moves (fun i => decide (i = 0)) bodies := by
  refine ⟨?_, ?_, rank, ?_⟩
  · intro i c hc h
    have hm := List.mem_of_getElem? hc
    have he := conf_noEoi c hm
    rcases h with h | h
    · rcases i with _ | i
      · rfl
      · have : ∀ c ∈ bodies.tail, mayBeEmpty (fun i => decide (i = 0)) c = false := by decide
        rw [this c (List.mem_of_getElem? (i := i) hc)] at h
        cases h
    · exact absurd he h
  · simp [bodies, ConfEdit.lines, LoopsMove, LoopsMoveAll, mayBeEmptySeq, mayBeEmpty, mayBeEmptyAny]
  · intro i c hc
    have hi : i < 6 := by
      have := (List.getElem?_eq_some_iff.mp hc).1
      simpa [bodies] using this
    rcases i with _ | _ | _ | _ | _ | _ | i
    case succ.succ.succ.succ.succ.succ => omega
    all_goals
      (simp only [bodies, List.getElem?_cons_zero, List.getElem?_cons_succ, Option.some.injEq] at hc; subst hc;
       simp [ConfEdit.lines, leftNodes, leftNodesSeq, leftNodesAny, mayBeEmpty, mayBeEmptySeq, mayBeEmptyAny, rank])

/-! Lexers -/

theorem groupTypes_conf : groupTypes tokens 0 = [⟨0, "space"⟩, ⟨1, "comment"⟩, ⟨2, "nl"⟩, ⟨4, "name"⟩, ⟨5, "op"⟩] ∧
    groupTypes tokens 1 = [⟨6, "value"⟩] ∧ groupTypes tokens 2 = [⟨3, "sec-name"⟩] := by
  decide +kernel

theorem conf_lexer {re : List Nat → Option Matcher} {lexers : List Lexer} (h : LexersOf re tokens lexers) {l : Lexer} (hm : l ∈ lexers) :
    ∃ ms k, k < 3 ∧ Lex.ReOk (joinedRegexp ms) ∧ l = Lexer.new (joinedRegexp ms) (groupTypes tokens k) := by
  obtain ⟨h1, h2⟩ := h.groups
  have h0 : maxGroup tokens = 2 := by decide
  rw [h0] at h1
  obtain ⟨k, hk⟩ := List.getElem?_of_mem hm
  obtain ⟨ms, h3, h4⟩ := h2 k l hk
  have := (List.getElem?_eq_some_iff.mp hk).1
  exact ⟨ms, k, by omega, joined_reOk (h3.bounded h.matchers), by rw [h4, Nat.zero_add]⟩

theorem conf_typesBelow {re : List Nat → Option Matcher} {lexers : List Lexer} (h : LexersOf re tokens lexers) :
    ∀ l ∈ lexers, TypesBelow tokens.length l := by
  intro l hl
  obtain ⟨ms, k, hk, h2, rfl⟩ := conf_lexer h hl
  refine ⟨_, _, h2, rfl, ?_⟩
  intro i t ht
  have h10 : tokens.length = 10 := by decide
  rw [h10]
  obtain ⟨g0, g1, g2⟩ := groupTypes_conf
  have key : ∀ x ∈ groupTypes tokens k, x.type < 10 := by
    rcases k with _ | _ | _ | k
    · rw [g0]; decide
    · rw [g1]; decide
    · rw [g2]; decide
    · omega
  unfold Lex.groupType at ht
  split at ht
  · rename_i x hx
    have := key x (List.mem_of_getElem? hx)
    split at ht
    · cases ht
      show x.type.toNat < 10
      omega
    · cases ht
  · cases ht

theorem conf_mask {re : List Nat → Option Matcher} {lexers : List Lexer} (h : LexersOf re tokens lexers) : ∃ l ∈ lexers, l.typeMask ≠ 0 := by
  obtain ⟨h1, h2⟩ := h.groups
  have h0 : maxGroup tokens = 2 := by decide
  rw [h0] at h1
  match lexers, h1 with
  | l :: _, _ =>
    obtain ⟨ms, h3, h4⟩ := h2 0 l rfl
    refine ⟨l, List.mem_cons_self .., ?_⟩
    rw [h4, groupTypes_conf.1]
    simp only [Lexer.new]
    decide

end Verif.Props.Conf
