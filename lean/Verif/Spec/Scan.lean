/-
How a text is cut into tokens by a grammar the lexer of which has one group of types.
-/
import Verif.Model.Pipeline
import Verif.Spec.FirstMatch
import Verif.Spec.SrcList

namespace Verif.Spec

open Verif.Model

/-- All types with expressions belong to one group. -/
def OneGroup (ts : List GToken) : Prop := ∀ t ∈ ts, t.re ≠ none → t.group = 0

/-- Some of requested types has an expression. -/
def AsksText (ts : List GToken) (types : TokenTypeSet) : Prop := ∃ (i : Nat) (t : GToken), ts[i]? = some t ∧ t.re ≠ none ∧ types.getLsbD i = true

/-- The mark of the end of a source. -/
def endOf (src : Src) : Token := ⟨eofTokenType, "-eof-", [], ⟨some src, (src.content.length : Nat)⟩⟩

/-- Reading from places `l` in sources gives tokens, and places `l'` are left. Each token is what the first matching type matches at
the current place, it cannot be empty; there is a mark at the end of each source. -/
inductive Reads (re : List Nat → Option Matcher) (ts : List GToken) : SrcList.State Src → List Token → SrcList.State Src → Prop
  | nil {l : SrcList.State Src} : Reads re ts l [] l
  | tok {src : Src} {p i n : Nat} {t : GToken} {rest l : SrcList.State Src} {toks : List Token} : p < src.content.length →
      FirstOf re ts 0 (src.content.drop p) i n → 0 < n → ts[i]? = some t → Reads re ts ((src, p + n) :: rest) toks l →
      Reads re ts ((src, p) :: rest) (⟨i, nameString t.name, (src.content.drop p).take n, ⟨some src, (p : Nat)⟩⟩ :: toks) l
  | eof {src : Src} {rest l : SrcList.State Src} {toks : List Token} : Reads re ts rest toks l →
      Reads re ts ((src, src.content.length) :: rest) (endOf src :: toks) l

/-- Tokens are pieces of the text between places `l` and `l'`, one after another; there is a mark at the end of each source. -/
inductive Pieces : SrcList.State Src → List Token → SrcList.State Src → Prop
  | nil {l : SrcList.State Src} : Pieces l [] l
  | tok {src : Src} {p n : Nat} {t : Token} {rest l : SrcList.State Src} {toks : List Token} : p + n ≤ src.content.length → 0 < n →
      0 ≤ t.type → t.content = (src.content.drop p).take n → t.pos = ⟨some src, (p : Nat)⟩ → Pieces ((src, p + n) :: rest) toks l →
      Pieces ((src, p) :: rest) (t :: toks) l
  | eof {src : Src} {rest l : SrcList.State Src} {toks : List Token} : Pieces rest toks l →
      Pieces ((src, src.content.length) :: rest) (endOf src :: toks) l

end Verif.Spec
