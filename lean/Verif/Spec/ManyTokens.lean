/-
Grammars in which the tokens read ahead are enough to choose what to do.
-/
import Verif.Spec.OneToken
import Verif.Spec.Lookahead

namespace Verif.Spec

open Verif.Model

/-- The same as `OneToken`, but there may be several rules for a key. -/
structure ManyTokens (g : Grammar) (m : Table) (node : Nat → Nat) (next after : Nat → Int → Prop) (also : Int → Int → Prop) : Prop where
  rest : ∀ (s : Nat), (m s anyToken).length ≤ 1
  skip : ∀ (s : Nat) (r : Rule), r ∈ m s anyToken → ∀ k, comes next after r.state (node s) k →
    m s k = [] ∧ ∀ k', also k k' → m s k' = []
  literal : ∀ (s : Nat) (k k' : Int), m s k ≠ [] → also k k' → LiteralKey g k' → m s k' = []

/-- There are several rules in state `s` for the first of the tokens. -/
def InConflict (g : Grammar) (upper : List Nat → List Nat) (s : Nat) (ts : List (Option Token)) : Prop :=
  ∃ tok rules, ts.head? = some tok ∧ findRules g upper tok s = some rules ∧ 1 < rules.length

/-- Token types requested by a variant. -/
def topTypes (g : Grammar) : List Int → TokenTypeSet
  | [] => 0
  | s :: _ => ((Go.index g.tables.states s).map (·.types)).getD 0

/-- Token `t` may be given when node `i` is finished. -/
def MayCome (g : Grammar) (upper : List Nat → List Nat) (sides : Bool) (after : Nat → Int → Prop) (i : Nat) (t : Token) : Prop :=
  (∃ k : Nat, after i k ∧ MatchesAs g upper t k) ∨ (t.type = eoiTokenType ∧ after i eoiTokenType) ∨ (sides = true ∧ g.isSideType t.type = true)

/-- Every conflict is settled by the tokens inside the current node. Tokens `ts` (those satisfying `P`; `none` is for a token of a type that is not
requested) are used by two variants of going on from state `s`. -/
structure Settles (g : Grammar) (upper : List Nat → List Nat) (P : Option Token → Prop) (sides : Bool) (asks : TokenTypeSet → Prop) (node : Nat → Nat)
    (after : Nat → Int → Prop) : Prop where
  /-- if one of the variants may leave the node then the other one may not go on, and there is one way to leave -/
  leave : ∀ (s : Nat) ts t rs x rs' y, InConflict g upper s (ts ++ [some t]) → (∀ o ∈ ts ++ [some t], P o) →
    TakesAll g upper ts [(s : Int)] rs x → TakesAll g upper ts [(s : Int)] rs' y → MayCome g upper sides after (node s) t →
    ∀ ra, Leaves g upper (some t) x ra → (∀ rb y', ¬ Takes g upper (some t) y rb y') ∧ ∀ rb, Leaves g upper (some t) y rb → rs' ++ rb = rs ++ ra
  /-- if one of the variants has left the node then tokens that may come are requested by the other one -/
  asked : ∀ (s : Nat) ts rs rs' y0 y, InConflict g upper s ts → (∀ o ∈ ts, P o) → TakesAll g upper ts [(s : Int)] rs [] →
    TakesAll g upper ts [(s : Int)] rs' (y0 :: y) →
    (∀ t, P (some t) → MayCome g upper sides after (node s) t → Wanted asks (topTypes g (y0 :: y)) t) ∧
    (after (node s) eoiTokenType → asks (topTypes g (y0 :: y)))
  /-- something is requested while there are several variants -/
  request : ∀ (s : Nat) ts rs x rs' y, InConflict g upper s ts → (∀ o ∈ ts, P o) → TakesAll g upper ts [(s : Int)] rs x →
    TakesAll g upper ts [(s : Int)] rs' y → rs ≠ rs' → topTypes g x ||| topTypes g y ≠ 0

/-- Tokens given by the stream satisfy `P`: `none` is for a token of a type that is not requested; ends of sources and skipped side
tokens are dropped. -/
structure GivesOnly {σ : Type} (env : PEnv σ) (Q : σ → List Token → Prop) (P : Option Token → Prop) : Prop where
  nothing : P none
  ending : ∀ t, t.type = eoiTokenType → P (some t)
  stream : ∀ q ts, Q q ts → ∀ t ∈ ts, t.type ≠ eofTokenType → ¬ (env.g.isSideType t.type = true ∧ env.passSides = false) → P (some t)

end Verif.Spec
