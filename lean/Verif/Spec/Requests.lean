/-
Texts cut into tokens by several groups of token types: what is cut depends on requested types.
-/
import Verif.Spec.Cuts
import Verif.Spec.OneToken

namespace Verif.Spec

open Verif.Model

/-- A request for types at the beginning of the text gives a token of type `i`, `n` bytes long: it is given by the first group that has
a token of a requested type. -/
def AnswersWith (re : List Nat → Option Matcher) (ts : List GToken) (types : TokenTypeSet) (text : List Nat) (i n : Nat) : Prop :=
  ∃ k, Gives re ts types k text i n ∧ ∀ k' < k, ∀ i' n', ¬ Gives re ts types k' text i' n'

/-- The text between places `l` and `l'` is cut into tokens; `F types toks` says that types may be requested when tokens `toks` are left.
Every such request gives the next of these tokens if its type is requested, and nothing otherwise. -/
inductive CutsFor (re : List Nat → Option Matcher) (ts : List GToken) (F : TokenTypeSet → List Token → Prop) :
    SrcList.State Src → List Token → SrcList.State Src → Prop
  | nil {l : SrcList.State Src} : CutsFor re ts F l [] l
  | tok {src : Src} {p k i n : Nat} {t : GToken} {rest l : SrcList.State Src} {toks : List Token} : p < src.content.length →
      FirstOf re ts k (src.content.drop p) i n → 0 < n → ts[i]? = some t →
      (∀ types, F types (⟨i, nameString t.name, (src.content.drop p).take n, ⟨some src, (p : Nat)⟩⟩ :: toks) →
        if types.getLsbD i = true then AnswersWith re ts types (src.content.drop p) i n
        else ∀ i' n', ¬ AnswersWith re ts types (src.content.drop p) i' n') →
      CutsFor re ts F ((src, p + n) :: rest) toks l →
      CutsFor re ts F ((src, p) :: rest) (⟨i, nameString t.name, (src.content.drop p).take n, ⟨some src, (p : Nat)⟩⟩ :: toks) l
  | eof {src : Src} {rest l : SrcList.State Src} {toks : List Token} : CutsFor re ts F rest toks l →
      CutsFor re ts F ((src, src.content.length) :: rest) (endOf src :: toks) l

/-- The first token that is not a side one is meant by key `k`; there may be no such token. -/
inductive Begins (g : Grammar) (upper : List Nat → List Nat) : List Token → Int → Prop
  | nil : Begins g upper [] eoiTokenType
  | side {t : Token} {ts : List Token} {k : Int} : t.type = eofTokenType ∨ g.isSideType t.type = true → Begins g upper ts k → Begins g upper (t :: ts) k
  | tok {t : Token} {ts : List Token} {k : Nat} : MatchesAs g upper t k → g.isSideType t.type = false → Begins g upper (t :: ts) k

/-- Types may be requested when tokens `toks` are left: they are expected in a state in which the first of these tokens may come
(`next` includes keys that may come in states), or the rest of the input is being read (`full`). -/
def Requested (g : Grammar) (upper : List Nat → List Nat) (next : Nat → Int → Prop) (full : Bool) (types : TokenTypeSet) (toks : List Token) : Prop :=
  (∃ (s : Nat) (gs : GState) (k : Int), g.tables.states[s]? = some gs ∧ gs.types = types ∧ next s k ∧ Begins g upper toks k) ∨
  (full = true ∧ types = allTokenTypes ∧ Begins g upper toks eoiTokenType)

/-- The end of a cut text: nothing but side tokens and marks is left. -/
def NoOrdinary (g : Grammar) (toks : List Token) : Prop := ∀ t ∈ toks, t.type = eofTokenType ∨ g.isSideType t.type = true

end Verif.Spec
