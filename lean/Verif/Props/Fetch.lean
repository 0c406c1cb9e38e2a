/-
C85: several lexers are tried in order.
-/
import Verif.Proof.Fetch
import Verif.Props.Pipeline

namespace Verif.Props

open Verif Verif.Model Verif.Spec Verif.Proof

/-- C85: `fetchToken` returns exactly what is described: the token of the first lexer that gives one; if there is none, the first error, but only
when any token is asked for. -/
theorem C85_fetch {η : Type} (env : TEnv η) (fuel : Nat) (q q' : SrcQueue) (types : TokenTypeSet) (r : Except PErr (Option Token)) :
    fetchToken env fuel q types = .done (q', r) ↔ Fetches types fuel env.lexers q q' r := by
  unfold fetchToken
  constructor
  · intro h
    rcases fetchLoop_cases _ h with ⟨before, after, l, es, q1, t, h1, h2, h3, rfl⟩ | ⟨es, h1, rfl⟩
    · exact .token h1 h2 h3
    · cases es with
      | nil => exact .nothing h1
      | cons e es =>
        by_cases ht : types = allTokenTypes
        · rw [untold_first, if_pos ht]
          exact .error h1 ht
        · rw [untold_first, if_neg ht]
          exact .hidden h1 ht
  · intro h
    cases h with
    | token h1 h2 h3 =>
      rw [h1, fetchLoop_tries h2, fetchLoop, h3]
      rfl
    | error h1 ht =>
      have := fetchLoop_tries h1 none []
      rw [List.append_nil, fetchLoop_nil] at this
      rw [this]
      rw [untold_first, if_pos ht]
    | @hidden es _ h1 ht =>
      have := fetchLoop_tries h1 none []
      rw [List.append_nil, fetchLoop_nil] at this
      rw [this]
      cases es with
      | nil => rfl
      | cons e es => rw [untold_first, if_neg ht]
    | nothing h1 =>
      have := fetchLoop_tries h1 none []
      rw [List.append_nil, fetchLoop_nil] at this
      rw [this]
      rfl

/-- Lexers in the order, codes of errors and contents of tokens that are returned. -/
def fetched (lexers : List Lexer) (types : TokenTypeSet) : Option (Option Nat × Option (List Nat)) :=
  match fetchToken (η := Nat) { pipeEnv with lexers := lexers } 5 (textQueue "x") types with
  | .done (_, .ok t) => some (none, t.map (·.content))
  | .done (_, .error (.lexer e)) => some (some e.code, none)
  | _ => none

/-- Matches nothing. -/
def noLexer : Lexer := Lexer.new (fun _ => none) [⟨0, "n"⟩]

/-- Gives broken tokens for letters. -/
def badLexer : Lexer := Lexer.new pipeRe [⟨errorTokenType, "n"⟩, ⟨0, "d"⟩, ⟨2, "s"⟩]

/-- All four cases: errors of two lexers differ and the first one is returned; an error before a token is forgotten; errors are not returned when
tokens of given types are asked for. -/
example : fetched [noLexer, badLexer] allTokenTypes = some (some Lexer.wrongCharCode, none) ∧
    fetched [badLexer, noLexer] allTokenTypes = some (some Lexer.badTokenCode, none) ∧
    fetched [badLexer, noLexer, pipeLexer, noLexer] allTokenTypes = some (none, some [120]) ∧
    fetched [badLexer, noLexer] 1 = some (none, none) ∧ fetched [] allTokenTypes = some (none, none) := by decide +kernel

end Verif.Props
