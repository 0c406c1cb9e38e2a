/-
Lemmas about reading with several lexers.
-/
import Verif.Proof.Pipeline
import Verif.Spec.Fetch

namespace Verif.Proof

open Verif Verif.Model Verif.Spec

variable {types : TokenTypeSet} {fuel : Nat}

/-- What `fetchLoop` returns when no lexer gives a token. -/
def untold (types : TokenTypeSet) : Option LlxError → Except PErr (Option Token)
  | some e => if types = allTokenTypes then .error (.lexer e) else .ok none
  | none => .ok none

theorem untold_first (types : TokenTypeSet) (e : LlxError) (es : List LlxError) :
    untold types (none <|> (e :: es).head?) = if types = allTokenTypes then .error (.lexer e) else .ok none := rfl

theorem fetchLoop_tries {ls : List Lexer} {q q' : SrcQueue} {es : List LlxError} (h : Tries types fuel ls q es q') (first : Option LlxError)
    (rest : List Lexer) : fetchLoop types fuel (ls ++ rest) q first = fetchLoop types fuel rest q' (first <|> es.head?) := by
  induction h generalizing first with
  | nil => cases first <;> rfl
  | silent h1 _ ih =>
    rw [List.cons_append, fetchLoop, h1]
    exact ih first
  | fails h1 _ ih =>
    rw [List.cons_append, fetchLoop, h1]
    cases first with
    | none => exact ih _
    | some x => exact ih _

theorem fetchLoop_nil (q : SrcQueue) (first : Option LlxError) : fetchLoop types fuel [] q first = .done (q, untold types first) := by
  cases first with
  | none => rfl
  | some e =>
    rw [fetchLoop]
    unfold untold
    dsimp only
    split <;> rfl

/-- Either a lexer gives a token, or all of them are tried. -/
theorem fetchLoop_cases (ls : List Lexer) {q q' : SrcQueue} {first : Option LlxError} {r : Except PErr (Option Token)}
    (h : fetchLoop types fuel ls q first = .done (q', r)) :
    (∃ before after l es q1 t, ls = before ++ l :: after ∧ Tries types fuel before q es q1 ∧ l.nextOf fuel q1 types = .done (q', .ok (some t)) ∧
      r = .ok (some t)) ∨ ∃ es, Tries types fuel ls q es q' ∧ r = untold types (first <|> es.head?) := by
  induction ls generalizing q first with
  | nil =>
    rw [fetchLoop_nil] at h
    cases h
    exact .inr ⟨[], .nil, by cases first <;> rfl⟩
  | cons l ls ih =>
    rw [fetchLoop, bindRun_done] at h
    obtain ⟨⟨q1, x⟩, h1, h⟩ := h
    rcases x with e | (_ | t)
    · rcases ih h with ⟨before, after, l', es, q2, t, h2, h3, h4, h5⟩ | ⟨es, h2, h3⟩
      · exact .inl ⟨l :: before, after, l', e :: es, q2, t, by rw [h2]; rfl, .fails h1 h3, h4, h5⟩
      · refine .inr ⟨e :: es, .fails h1 h2, ?_⟩
        rw [h3]
        cases first <;> rfl
    · rcases ih h with ⟨before, after, l', es, q2, t, h2, h3, h4, h5⟩ | ⟨es, h2, h3⟩
      · exact .inl ⟨l :: before, after, l', es, q2, t, by rw [h2]; rfl, .silent h1 h3, h4, h5⟩
      · exact .inr ⟨es, .silent h1 h2, h3⟩
    · cases h
      exact .inl ⟨[], ls, l, [], q, t, rfl, .nil, h1, rfl⟩

end Verif.Proof
