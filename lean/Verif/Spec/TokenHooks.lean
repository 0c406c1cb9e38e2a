/-
Which hook handles a token, as documented in `/repo/parser/hooks.go` (lines 86-100).
-/
import Verif.Model.Pipeline

namespace Verif.Spec

open Verif.Model

variable {η : Type}

/-- The hook under a name of the type (or of any type). -/
def hookNamed (g : Grammar) (hs : THooks η) (i : Int) : Option (TokenHook η) :=
  (hs.tokens.find? fun h => g.tokenName h.1 = some i).map (·.2)

/-- The hook under the text. -/
def hookTexted (hs : THooks η) (text : List Nat) : Option (TokenHook η) := (hs.literals.find? fun h => h.1 = text).map (·.2)

/-- Hooks for literals have top priority if the type allows matching against literals, then hooks for the type are used, the
hook for any type is a fallback; special tokens (ends of sources and of input) have their own hooks only. -/
def hookChosen (g : Grammar) (hs : THooks η) (tok : Token) (mayBeLiteral : Bool) : Option (TokenHook η) :=
  if tok.type < 0 then hookNamed g hs tok.type
  else ((if mayBeLiteral then hookTexted hs tok.content else none).or (hookNamed g hs tok.type)).or (hookNamed g hs anyToken)

/-- Keys of a Go map are different. -/
def DistinctKeys (hs : THooks η) : Prop := (hs.tokens.map (·.1)).Nodup ∧ (hs.literals.map (·.1)).Nodup

/-- The hook for the node, the hook for any node (under the empty name) is a fallback. -/
def nodeHookChosen {H : Type} (hs : List (List Nat × H)) (node : List Nat) : Option H :=
  (hs.lookup node).or (hs.lookup [])

/-- Lexers are called one after another, `rs` are results. -/
inductive Called (types : TokenTypeSet) (fuel : Nat) : List Lexer → SrcQueue → List (Except LlxError (Option Token)) → SrcQueue → Prop
  | nil (q : SrcQueue) : Called types fuel [] q [] q
  | cons {l : Lexer} {ls : List Lexer} {q q' q'' : SrcQueue} {r : Except LlxError (Option Token)} {rs : List (Except LlxError (Option Token))}
      (h : l.nextOf fuel q types = .done (q', r)) (hs : Called types fuel ls q' rs q'') : Called types fuel (l :: ls) q (r :: rs) q''

/-- The first error. -/
def firstError : List (Except LlxError (Option Token)) → Option LlxError
  | [] => none
  | .error e :: _ => some e
  | .ok _ :: rs => firstError rs

end Verif.Spec
