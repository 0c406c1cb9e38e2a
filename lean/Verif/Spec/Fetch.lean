/-
Specification of reading with several lexers: they are tried one after another.
-/
import Verif.Model.Pipeline

namespace Verif.Spec

open Verif.Model

/-- Lexers are tried one after another, and none of them gives a token; `es` are their errors in the same order. -/
inductive Tries (types : TokenTypeSet) (fuel : Nat) : List Lexer → SrcQueue → List LlxError → SrcQueue → Prop
  | nil {q : SrcQueue} : Tries types fuel [] q [] q
  | silent {l : Lexer} {ls : List Lexer} {q q1 q' : SrcQueue} {es : List LlxError} : l.nextOf fuel q types = .done (q1, .ok none) →
      Tries types fuel ls q1 es q' → Tries types fuel (l :: ls) q es q'
  | fails {l : Lexer} {ls : List Lexer} {q q1 q' : SrcQueue} {e : LlxError} {es : List LlxError} :
      l.nextOf fuel q types = .done (q1, .error e) → Tries types fuel ls q1 es q' → Tries types fuel (l :: ls) q (e :: es) q'

/-- What is returned for lexers: the token of the first lexer that gives one; if there is none, the error of the first lexer that fails, but
only when any token is asked for; otherwise nothing. -/
inductive Fetches (types : TokenTypeSet) (fuel : Nat) (ls : List Lexer) (q : SrcQueue) : SrcQueue → Except PErr (Option Token) → Prop
  | token {before after : List Lexer} {l : Lexer} {es : List LlxError} {q1 q' : SrcQueue} {t : Token} : ls = before ++ l :: after →
      Tries types fuel before q es q1 → l.nextOf fuel q1 types = .done (q', .ok (some t)) → Fetches types fuel ls q q' (.ok (some t))
  | error {e : LlxError} {es : List LlxError} {q' : SrcQueue} : Tries types fuel ls q (e :: es) q' → types = allTokenTypes →
      Fetches types fuel ls q q' (.error (.lexer e))
  | hidden {es : List LlxError} {q' : SrcQueue} : Tries types fuel ls q es q' → types ≠ allTokenTypes → Fetches types fuel ls q q' (.ok none)
  | nothing {q' : SrcQueue} : Tries types fuel ls q [] q' → Fetches types fuel ls q q' (.ok none)

end Verif.Spec
