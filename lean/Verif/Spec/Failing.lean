/-
What errors of a parser mean.
-/
import Verif.Model.Pipeline
import Verif.Spec.Cuts

namespace Verif.Spec

open Verif Verif.Model

variable {σ : Type}

/-- The token is one of tokens cut from the sources. -/
def Occurs (re : List Nat → Option Matcher) (ts : List GToken) (l0 : SrcList.State Src) (t : Token) : Prop :=
  t.type ≠ eofTokenType ∧ ∃ a b l, Cuts re ts l0 (a ++ t :: b) l

/-- Sources are cut into tokens up to a place that no group of types cuts a token from. -/
def Broken (re : List Nat → Option Matcher) (ts : List GToken) (l0 : SrcList.State Src) : Prop :=
  ∃ toks src p rest, Cuts re ts l0 toks ((src, p) :: rest) ∧ p < src.content.length ∧
    ∀ k i n, ¬ Gives re ts allTokenTypes k (src.content.drop p) i n

/-- There is a state that has no rules for the token or no rules to use without a token. -/
def Unruled (env : PEnv σ) (t : Token) : Prop :=
  ∃ s, findRules env.g env.upper (some t) s = some [] ∨ findRules env.g env.upper none s = some []

/-- What must be true for an error to be returned. -/
def Explains (re : List Nat → Option Matcher) (ts : List GToken) (env : PEnv σ) (l0 : SrcList.State Src) : PErr → Prop
  | .lexer _ => Broken re ts l0
  | .hook x => ∃ log ev, env.onMake log ev = .error x ∨ env.onCall log ev = .error x
  | .wrongToken _ => False
  | .unexpectedEof => (∃ toks, Cuts re ts l0 toks []) ∧ ∃ t : Token, t.type = eoiTokenType ∧ Unruled env t
  | .unexpectedToken t => Occurs re ts l0 t ∧ t.type ≠ eoiTokenType ∧ Unruled env t
  | .remainingSource t => Occurs re ts l0 t ∧ env.fullSource = true ∧ env.g.isSideType t.type = false

/-- Sources are added to the queue one after another. -/
inductive Appended : SrcQueue → List Src → SrcQueue → Prop
  | nil {q : SrcQueue} : Appended q [] q
  | cons {q q1 q' : SrcQueue} {s : Src} {ss : List Src} : q.append (some s) = some q1 → Appended q1 ss q' → Appended q (s :: ss) q'

end Verif.Spec
