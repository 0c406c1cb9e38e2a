/-
Declarative specification of lexical analysis: what a lexer call may return, independent of the algorithm.
Only data types of the model (sources, tokens, errors) are used.
-/
import Verif.Model.Lexer

namespace Verif.Spec.Lex

open Verif.Model

/-- Contract of `FindSubmatchIndex`: offsets are within the content, groups are within the match, a group that does
not participate in the match has both offsets -1. -/
def ReOk (re : Regexp) : Prop :=
  ∀ c s e gs, re c = some ((s, e) :: gs) → 0 ≤ s ∧ s ≤ e ∧ e ≤ c.length ∧
    ∀ g ∈ gs, (g.1 = -1 ∧ g.2 = -1) ∨ (s ≤ g.1 ∧ g.1 ≤ g.2 ∧ g.2 ≤ e)

/-- There is a non-empty match of length `e` with groups `gs` exactly at offset `p`. -/
def MatchAt (re : Regexp) (c : List Nat) (p e : Nat) (gs : List (Int × Int)) : Prop :=
  re (c.drop p) = some ((0, (e : Int)) :: gs) ∧ 0 < e

/-- The group participates in the match. -/
def Captured (g : Int × Int) : Prop := 0 ≤ g.1 ∧ 0 ≤ g.2

/-- Lexemes without captured groups (insignificant) cover the bytes from `p` to `p'`. -/
inductive Skips (re : Regexp) (c : List Nat) : Nat → Nat → Prop
  | refl (p : Nat) : Skips re c p p
  | step {p e p' : Nat} {gs : List (Int × Int)} : MatchAt re c p e gs → (∀ g ∈ gs, ¬ Captured g) →
      Skips re c (p + e) p' → Skips re c p p'

/-- Token type and type name for group number `k` (from 0); `none` for groups that are reported as errors: without
a description or with a type outside of 0..63. -/
def groupType (types : List TokenType) (k : Nat) : Option (Nat × String) :=
  match types[k]? with
  | some t => if 0 ≤ t.type ∧ t.type < 64 then some (t.type.toNat, t.typeName) else none
  | none => none

/-- Token type `t` belongs to the set. -/
def Requested (tts : TokenTypeSet) (t : Nat) : Prop := tts.getLsbD t = true

/-- Group `k` is the one that decides: it is captured, and all captured groups before it have valid types that are not
requested. -/
def Decides (types : List TokenType) (tts : TokenTypeSet) (gs : List (Int × Int)) (k : Nat) : Prop :=
  ∀ j, j < k → ∀ g, gs[j]? = some g → Captured g → ∃ t, groupType types j = some t ∧ ¬ Requested tts t.1

/-- Possible results of analysis at offset `p` (where no insignificant lexeme starts): new offset and the result. -/
inductive Lexeme (re : Regexp) (types : List TokenType) (tts : TokenTypeSet) (src : Src) (p : Nat) :
    Nat → Except LlxError (Option Token) → Prop
  /-- No match here: an error for this position. -/
  | wrongChar : (∀ e gs, ¬ MatchAt re src.content p e gs) →
      ∀ err : LlxError, err.code = 101 → err.sourceName = src.name → (err.line, err.col) = src.lineCol p →
      Lexeme re types tts src p p (.error err)
  /-- A group for broken lexemes is captured: an error for the position of the group. -/
  | badToken (e : Nat) (gs : List (Int × Int)) (k a b : Nat) : MatchAt re src.content p e gs →
      gs[k]? = some ((a : Int), (b : Int)) → Decides types tts gs k → groupType types k = none →
      ∀ err : LlxError, err.code = 102 → err.sourceName = src.name → (err.line, err.col) = src.lineCol (p + a : Nat) →
      Lexeme re types tts src p p (.error err)
  /-- A token of a requested type; its content is the text of the group, the whole match is consumed. -/
  | token (e : Nat) (gs : List (Int × Int)) (k a b : Nat) (t : Nat) (name : String) :
      MatchAt re src.content p e gs →
      gs[k]? = some ((a : Int), (b : Int)) → a ≤ b → b ≤ e → p + e ≤ src.content.length →
      Decides types tts gs k → groupType types k = some (t, name) → Requested tts t →
      Lexeme re types tts src p (p + e)
        (.ok (some { type := t, typeName := name, content := (src.content.drop (p + a)).take (b - a),
                     pos := ⟨some src, (p + a : Nat)⟩ }))
  /-- There is a token here, but not of a requested type: nothing is returned. -/
  | nothing (e : Nat) (gs : List (Int × Int)) : MatchAt re src.content p e gs → (∃ g ∈ gs, Captured g) →
      Decides types tts gs gs.length →
      Lexeme re types tts src p p (.ok none)

end Verif.Spec.Lex
