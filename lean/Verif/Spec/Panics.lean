/-
Parsing without panics: what grammar tables and token sources must be like.
-/
import Verif.Spec.OneToken
import Verif.Spec.Rules
import Verif.Spec.Lex

namespace Verif.Spec

open Verif.Model

/-- There is no panic; the result, if there is one, has the property. -/
def Fine {α : Type} (P : α → Prop) : Run α → Prop
  | .panic => False
  | .timeout => True
  | .done a => P a

/-- Rules of the tables lead to existing states and open existing nodes, the root node exists, and a token can be named in
the error message of every state that does not accept everything. -/
structure SoundTables (g : Grammar) (m : Table) : Prop where
  means : Means g.tables m
  closed : RulesClosed g m
  nodes : ∀ (s : Nat) (k : Int), ∀ r ∈ m s k, r.node = sameNode ∨ ∃ n f : Nat, r.node = n ∧ g.firsts[n]? = some f
  root : ∃ f, g.firsts[rootNode]? = some f
  names : ∀ (s : Nat) (gs : GState), g.tables.states[s]? = some gs → m s anyToken = [] → ∃ k, getExpectedToken g gs = some k

/-- The source never answers that there is no token of given types. -/
def AlwaysAnswers {σ : Type} (env : PEnv σ) (S : σ → Prop) (types : TokenTypeSet) : Prop :=
  ∀ q q', S q → env.pull q types ≠ .done (q', .ok none)

/-- The source (in one of states `S`) does not panic, gives tokens of known types, and when asked for anything it answers with a
token or an error. -/
structure Answers {σ : Type} (env : PEnv σ) (S : σ → Prop) (Given : Token → Prop) : Prop where
  pull : ∀ q types, S q → Fine (fun r => S r.1 ∧ ∀ t, r.2 = .ok (some t) → Given t) (env.pull q types)
  known : ∀ t, Given t → t.type < env.g.tokens.length
  all : AlwaysAnswers env S allTokenTypes

/-- Tokens are put back without a panic, the source is left in one of states `S'`. -/
def TakesBack {σ : Type} (env : PEnv σ) (S S' : σ → Prop) (Given : Token → Prop) : Prop :=
  ∀ q t, S q → Given t → t.type ≠ eoiTokenType → t.pos.src.isSome → ∃ q', env.unread q t = some q' ∧ S' q'

/-- All types wanted by some state are among given ones. -/
def CoversState (g : Grammar) (types : TokenTypeSet) : Prop :=
  ∃ gs ∈ g.tables.states, gs.types ≠ 0 ∧ ∀ i, gs.types.getLsbD i → types.getLsbD i

/-- The lexer was made by `New` with a matcher obeying the contract, its types are below `n`. -/
def TypesBelow (n : Nat) (l : Lexer) : Prop :=
  ∃ re types, Lex.ReOk re ∧ l = Lexer.new re types ∧ ∀ k t, Lex.groupType types k = some t → t.1 < n

/-- A token of one of `n` types or one of special tokens. -/
def KnownType (n : Nat) (t : Token) : Prop := eoiTokenType ≤ t.type ∧ t.type < (n : Int)

end Verif.Spec
