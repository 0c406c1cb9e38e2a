/-
Variants of using tokens inside the current node, and a reference lookahead that keeps separate lists of branches.
-/
import Verif.Model.Parser
import Verif.Spec.ParseTree

namespace Verif.Spec

open Verif.Model

/-- A rule found for the token is used. The stack holds states of the current node and of nodes opened by the variant; ended
nodes are removed. `used` says if the token is used up. -/
def Move (g : Grammar) (upper : List Nat → List Nat) (tok : Option Token) (st : List Int) (r : Rule) (st' : List Int)
    (used : Bool) : Prop :=
  ∃ s rest rules top, st = s :: rest ∧ findRules g upper tok s = some rules ∧ r ∈ rules ∧
    ((r.node = -1 ∧ top = [after r s]) ∨ ∃ i f : Nat, r.node = (i : Int) ∧ g.firsts[i]? = some f ∧ top = [(f : Int), after r s]) ∧
    st' = (top ++ rest).dropWhile (· = -1) ∧ (used = true ↔ (r.node = -1 ∧ r.token ≠ -1) ∨ tok = none)

/-- A variant of using the token. -/
inductive Takes (g : Grammar) (upper : List Nat → List Nat) (tok : Option Token) : List Int → List Rule → List Int → Prop
  | use {st r st'} : Move g upper tok st r st' true → Takes g upper tok st [r] st'
  | go {st r st1 rs st'} : Move g upper tok st r st1 false → Takes g upper tok st1 rs st' → Takes g upper tok st (r :: rs) st'

/-- A variant of leaving the current node before the token. -/
inductive Leaves (g : Grammar) (upper : List Nat → List Nat) (tok : Option Token) : List Int → List Rule → Prop
  | now : Leaves g upper tok [] []
  | go {st r st1 rs} : Move g upper tok st r st1 false → Leaves g upper tok st1 rs → Leaves g upper tok st (r :: rs)

/-- A variant that comes to a state without rules for the token. -/
inductive Stuck (g : Grammar) (upper : List Nat → List Nat) (tok : Option Token) : List Int → List Rule → Prop
  | now {s rest} : findRules g upper tok s = some [] → Stuck g upper tok (s :: rest) []
  | go {st r st1 rs} : Move g upper tok st r st1 false → Stuck g upper tok st1 rs → Stuck g upper tok st (r :: rs)

/-- A variant of using several tokens. -/
inductive TakesAll (g : Grammar) (upper : List Nat → List Nat) : List (Option Token) → List Int → List Rule → List Int → Prop
  | nil {st} : TakesAll g upper [] st [] st
  | cons {tok ts st rs st1 rs' st'} : Takes g upper tok st rs st1 → TakesAll g upper ts st1 rs' st' →
      TakesAll g upper (tok :: ts) st (rs ++ rs') st'

/-- Rules are used one after another for the tokens. -/
inductive Legal (g : Grammar) (upper : List Nat → List Nat) : List (Option Token) → List Int → List Rule → Prop
  | nil {ts st} : Legal g upper ts st []
  | use {tok ts st r st' rs} : Move g upper tok st r st' true → Legal g upper ts st' rs → Legal g upper (tok :: ts) st (r :: rs)
  | go {tok ts st r st' rs} : Move g upper tok st r st' false → Legal g upper (tok :: ts) st' rs →
      Legal g upper (tok :: ts) st (r :: rs)

/-- Results of tracing variants for one token: branches that used the token, branches that left the current node, branches
without rules. -/
structure Traced where
  next : List Branch := []
  left : List Branch := []
  dead : List Branch := []

/-- A rule is used by a branch. -/
def useRule (g : Grammar) (tok : Option Token) (b : Branch) (r : Rule) : Option (Branch × Bool) :=
  (applyQuiet g tok r b.stack).map fun x => (⟨x.1, b.rules ++ [r]⟩, x.2)

/-- Rules are used by copies of a branch: results and branches to trace further. -/
def useRules (g : Grammar) (tok : Option Token) (b : Branch) : List Rule → List Branch → Traced → Option (List Branch × Traced)
  | [], q, o => some (q, o)
  | r :: rs, q, o =>
    (useRule g tok b r).bind fun x =>
      if x.2 then useRules g tok b rs q { o with next := o.next ++ [x.1] }
      else if x.1.stack.isEmpty then useRules g tok b rs q { o with left := o.left ++ [x.1] }
      else useRules g tok b rs (q ++ [x.1]) o

/-- All variants of listed branches are traced in turn. -/
def traceQueue (g : Grammar) (upper : List Nat → List Nat) (tok : Option Token) : Nat → List Branch → Traced → Run Traced
  | 0, _, _ => .timeout
  | _ + 1, [], o => .done o
  | fuel + 1, b :: q, o =>
    match b.stack with
    | [] => traceQueue g upper tok fuel q { o with left := o.left ++ [b] }
    | top :: _ =>
      orPanic (findRules g upper tok top.state) fun rules =>
        match rules with
        | [] => traceQueue g upper tok fuel q { o with dead := o.dead ++ [b] }
        | rules => orPanic (useRules g tok b rules q o) fun x => traceQueue g upper tok fuel x.1 x.2

/-- Branches are traced one after another. -/
def traceEach (g : Grammar) (upper : List Nat → List Nat) (tok : Option Token) (fuel : Nat) : List Branch → Traced → Run Traced
  | [], o => .done o
  | b :: bs, o => Tree.bindRun (traceQueue g upper tok fuel [b] o) (traceEach g upper tok fuel bs)

/-- No branch is overwritten before it is read: the first `n` branches have no more than `n` variants. -/
def Fits (g : Grammar) (upper : List Nat → List Nat) (tok : Option Token) (fuel : Nat) : Nat → List Branch → Traced → Prop
  | _, [], _ => True
  | n, b :: bs, o => o.next.length ≤ n ∧ ∀ o', traceQueue g upper tok fuel [b] o = .done o' → Fits g upper tok fuel (n + 1) bs o'

/-- Branches traced for the tokens by the reference lookahead. -/
inductive Rounds (g : Grammar) (upper : List Nat → List Nat) (start : Branch) : List (Option Token) → List Branch → Prop
  | nil : Rounds g upper start [] [start]
  | step {ts L tok fuel dead o} : Rounds g upper start ts L → traceEach g upper tok fuel L { dead := dead } = .done o →
      Rounds g upper start (ts ++ [tok]) o.next

/-- In any lookahead no branch is overwritten before it is read. There is nothing to overwrite while the first token is
handled. -/
def SafeLookahead (g : Grammar) (upper : List Nat → List Nat) : Prop :=
  ∀ (f : Frame) tok0 rules, findRules g upper tok0 f.state = some rules → 1 < rules.length →
    ∀ ts L, Rounds g upper ⟨[f], []⟩ (tok0 :: ts) L → ∀ tok dead fuel, Fits g upper tok fuel 0 L { dead := dead }

/-- Tokens given to the parser satisfy `P`: end-of-file tokens and skipped side tokens are dropped. -/
def Feeds {σ : Type} (env : PEnv σ) (P : Option Token → Prop) : Prop :=
  ∀ src types src' tok, env.pull src types = .done (src', .ok tok) → ¬ tok.any (fun t => t.type = eofTokenType) →
    ¬ (env.g.isSideToken tok ∧ ¬ env.passSides) → P tok

/-- `SafeLookahead` for tokens satisfying `P`. -/
def SafeLookaheadOn (P : Option Token → Prop) (g : Grammar) (upper : List Nat → List Nat) : Prop :=
  ∀ (f : Frame) tok0 rules, P tok0 → findRules g upper tok0 f.state = some rules → 1 < rules.length →
    ∀ ts L, (∀ t ∈ ts, P t) → Rounds g upper ⟨[f], []⟩ (tok0 :: ts) L → ∀ tok dead fuel, P tok → Fits g upper tok fuel 0 L { dead := dead }

/-- States entered by a rule. -/
def enters (g : Grammar) (r : Rule) (s : Int) : List Int :=
  after r s :: (if 0 ≤ r.node then match g.firsts[r.node.toNat]? with | some f => [(f : Int)] | none => [] else [])

/-- States in `S` have no conflicts, and only states in `S` can be entered from states in `S` and from states with
conflicts. -/
def CalmSet (g : Grammar) (m : Nat → Int → List Rule) (S : Int → Prop) : Prop :=
  (∀ (s : Nat) k, s < g.tables.states.length → 1 < (m s k).length → ∀ k', ∀ r ∈ m s k', ∀ x ∈ enters g r s, x = -1 ∨ S x) ∧
  ∀ (s : Nat), s < g.tables.states.length → S s → ∀ k, (m s k).length ≤ 1 ∧ ∀ r ∈ m s k, ∀ x ∈ enters g r s, x = -1 ∨ S x

end Verif.Spec
