/-
Specification of the calculator program: what is read from texts and what is shown.
-/
import Verif.Model.Calc.Compute
import Verif.Spec.Calc
import Verif.Spec.Cuts
import Verif.Spec.Failing
import Verif.Spec.Text

namespace Verif.Spec.Calc

open Verif.Model Verif.Model.Calc Verif.Spec
open Verif.Spec.Text (normalize)

variable {α : Type}

/-- What expressions in lines 5-8 of `examples/calc/internal/grammar.llx` match: a number contains a digit, a name begins with a letter, a sign is one
character. -/
structure MatchersKnown (re : List Nat → Option Matcher) : Prop where
  number : ∀ text n, TypeMatches re tokens 1 text n → ∃ c ∈ text.take n, 48 ≤ c ∧ c ≤ 57
  name : ∀ text n, TypeMatches re tokens 2 text n → ∃ c cs, text.take n = c :: cs ∧ (65 ≤ c ∧ c ≤ 90 ∨ 97 ≤ c ∧ c ≤ 122)
  op : ∀ text n, TypeMatches re tokens 3 text n → ∃ c : Char, c ∈ "(),=*/^+-".toList ∧ text.take n = [c.toNat]
  minus : ∀ text n, TypeMatches re tokens 4 text n → text.take n = ['-'.toNat]

/-- Tokens without spaces and ends of sources. -/
def wordsOf (toks : List Token) : List Token := toks.filter fun t => decide (t.type ≠ eofTokenType) && decide (t.type ≠ 0)

/-- The source with the text. -/
def inputOf (text : List Nat) : Src := ⟨0, "input", normalize text⟩

/-- When errors may be returned: no token can be cut at some place of the text, or the whole text is cut into tokens and more tokens are needed, or
the error is about one of tokens of the text: it is not expected, or it is the name of an argument defined twice, or it is a number without a value. -/
def Reason (re : List Nat → Option Matcher) (num : List Nat → Except Nat α) (text : List Nat) : PErr → Prop
  | .lexer _ => Broken re tokens [(inputOf text, 0)]
  | .hook x => ∃ t, Occurs re tokens [(inputOf text, 0)] t ∧ (t.type = 2 ∧ x = argDefinedError ∨ t.type = 1 ∧ num t.content = .error x)
  | .unexpectedEof => ∃ toks, Cuts re tokens [(inputOf text, 0)] toks []
  | .unexpectedToken t => Occurs re tokens [(inputOf text, 0)] t
  | .wrongToken _ | .remainingSource _ => False

/-- What may be answered to a text, and the memory after that; `none` if the depth of calls is not enough. The memory is changed only by
a command the whole text is written as. -/
inductive Answers (re : List Nat → Option Matcher) (num : List Nat → Except Nat α) (A : Arith α) (depth : Nat) :
    Memory α → List Nat → Option (Memory α × Reply α) → Prop
  /-- an error -/
  | failed {m : Memory α} {text : List Nat} (e : PErr) : Reason re num text e → Answers re num A depth m text (some (m, .failed e))
  /-- the beginning of the text is a command, what is left is the rest -/
  | extra {m : Memory α} {text : List Nat} {toks : List Token} {p : Nat} {cmd : Cmd α} : Cuts re tokens [(inputOf text, 0)] toks [(inputOf text, p)] →
      toks.flatMap (·.content) = (normalize text).take p → IsCmd num cmd (wordsOf toks) →
      Answers re num A depth m text (some (m, .extra ((normalize text).drop p)))
  /-- the whole text is a command -/
  | result {m : Memory α} {text : List Nat} {toks : List Token} {cmd : Cmd α} :
      Cuts re tokens [(inputOf text, 0)] (toks ++ [endOf (inputOf text)]) [] → toks.flatMap (·.content) = normalize text →
      IsCmd num cmd (wordsOf toks) → Answers re num A depth m text ((perform A depth m cmd).map fun r => (r.1, .result r.2))

/-- The text is a part of a line. -/
def PartOf (word line : List Nat) : Prop := word <:+: line

/-- What may be shown after lines; `pending` is what lines before are left as. Nothing is shown after an empty line. A line with the word
`help` is never computed. -/
inductive Talks (re : List Nat → Option Matcher) (num : List Nat → Except Nat α) (A : Arith α) (depth : Nat) :
    Memory α → Option (List Nat) → List (List Nat) → Option (List (Shown α)) → Prop
  | nothing {m : Memory α} {pending : Option (List Nat)} : Talks re num A depth m pending [] (some [])
  | stop {m : Memory α} {pending : Option (List Nat)} {lines : List (List Nat)} : Talks re num A depth m pending ([] :: lines) (some [])
  | help {m : Memory α} {pending : Option (List Nat)} {line : List Nat} {lines : List (List Nat)} {o : Option (List (Shown α))} :
      PartOf helpText line → Talks re num A depth m none lines o →
      Talks re num A depth m pending (line :: lines) (o.map (.help :: ·))
  | deep {m : Memory α} {pending : Option (List Nat)} {line : List Nat} {lines : List (List Nat)} : line ≠ [] → ¬ PartOf helpText line →
      Answers re num A depth m (pending.elim line (· ++ 10 :: line)) none → Talks re num A depth m pending (line :: lines) none
  | number {m m' : Memory α} {pending : Option (List Nat)} {line : List Nat} {lines : List (List Nat)} {v : α} {o : Option (List (Shown α))} :
      line ≠ [] → ¬ PartOf helpText line → Answers re num A depth m (pending.elim line (· ++ 10 :: line)) (some (m', .result (.ok v))) →
      Talks re num A depth m' none lines o → Talks re num A depth m pending (line :: lines) (o.map (.number v :: ·))
  | more {m m' : Memory α} {pending : Option (List Nat)} {line : List Nat} {lines : List (List Nat)} {o : Option (List (Shown α))} :
      line ≠ [] → ¬ PartOf helpText line → Answers re num A depth m (pending.elim line (· ++ 10 :: line)) (some (m', .failed .unexpectedEof)) →
      Talks re num A depth m' (some (pending.elim line (· ++ 10 :: line))) lines o → Talks re num A depth m pending (line :: lines) (o.map (.nothing :: ·))
  | error {m m' : Memory α} {pending : Option (List Nat)} {line : List Nat} {lines : List (List Nat)} {r : Reply α} {o : Option (List (Shown α))} :
      line ≠ [] → ¬ PartOf helpText line → Answers re num A depth m (pending.elim line (· ++ 10 :: line)) (some (m', r)) →
      (∀ v, r ≠ .result (.ok v)) → r ≠ .failed .unexpectedEof → Talks re num A depth m' none lines o →
      Talks re num A depth m pending (line :: lines) (o.map (.error r :: ·))

end Verif.Spec.Calc
