/-
Texts cut into tokens by several lexers.
-/
import Verif.Spec.Scan

namespace Verif.Spec

open Verif.Model

/-- The text between places `l` and `l'` is cut into tokens one after another: each token is the first match of the expressions of one
of groups, it is not empty; there is a mark at the end of each source. -/
inductive Cuts (re : List Nat → Option Matcher) (ts : List GToken) : SrcList.State Src → List Token → SrcList.State Src → Prop
  | nil {l : SrcList.State Src} : Cuts re ts l [] l
  | tok {src : Src} {p k i n : Nat} {t : GToken} {rest l : SrcList.State Src} {toks : List Token} : p < src.content.length →
      FirstOf re ts k (src.content.drop p) i n → 0 < n → ts[i]? = some t → Cuts re ts ((src, p + n) :: rest) toks l →
      Cuts re ts ((src, p) :: rest) (⟨i, nameString t.name, (src.content.drop p).take n, ⟨some src, (p : Nat)⟩⟩ :: toks) l
  | eof {src : Src} {rest l : SrcList.State Src} {toks : List Token} : Cuts re ts rest toks l →
      Cuts re ts ((src, src.content.length) :: rest) (endOf src :: toks) l

end Verif.Spec
