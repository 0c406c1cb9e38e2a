/-
Grammars in which one token is enough to choose what to do, and token streams that answer requests for token types.
-/
import Verif.Spec.Keys
import Verif.Spec.Machine

namespace Verif.Spec

open Verif.Model

variable {σ : Type}

/-- Keys that may come in state `s` of node `i`, the state may be the final one. -/
def comes (next after : Nat → Int → Prop) (s : Int) (i : Nat) (k : Int) : Prop :=
  if s = finalState then after i k else next s.toNat k

/-- `next s` includes all keys of tokens that may come in state `s`, `after i` includes all keys of tokens that may come
when node `i` is finished; `node s` is the node of a state. -/
structure Predicts (g : Grammar) (m : Table) (node : Nat → Nat) (next after : Nat → Int → Prop) : Prop where
  /-- keys of rules -/
  key : ∀ (s : Nat) (k : Int), k ≠ anyToken → m s k ≠ [] → next s k
  /-- what may come after a rule that takes no token -/
  skip : ∀ (s : Nat) (r : Rule), r ∈ m s anyToken → ∀ k, comes next after r.state (node s) k → next s k
  /-- what may come after a nested node -/
  push : ∀ (s : Nat) (k : Int) (r : Rule) (n : Nat), r ∈ m s k → r.node = n → ∀ k, comes next after r.state (node s) k → after n k
  /-- what may come after the input -/
  root : after rootNode eoiTokenType
  /-- states of nodes -/
  first : ∀ (i f : Nat), g.firsts[i]? = some f → node f = i
  same : ∀ (s : Nat) (k : Int) (r : Rule) (s' : Nat), r ∈ m s k → r.state = s' → node s' = node s

/-- Token index `k` is a literal. -/
def LiteralKey (g : Grammar) (k : Int) : Prop := 0 ≤ k ∧ ∃ t, g.tokens[k.toNat]? = some t ∧ t.flags.literal = true

/-- One token is enough to choose a rule: there is at most one rule for a key; a rule that takes no token is never needed
for a token that has another rule. `also k k'` says that a token meant by key `k` may be looked up by key `k'` too. -/
structure OneToken (g : Grammar) (m : Table) (node : Nat → Nat) (next after : Nat → Int → Prop)
    (also : Int → Int → Prop) : Prop where
  single : ∀ (s : Nat) (k : Int), (m s k).length ≤ 1
  skip : ∀ (s : Nat) (r : Rule), r ∈ m s anyToken → ∀ k, comes next after r.state (node s) k →
    m s k = [] ∧ ∀ k', also k k' → m s k' = []
  /-- literals are looked up first -/
  literal : ∀ (s : Nat) (k k' : Int), m s k ≠ [] → also k k' → LiteralKey g k' → m s k' = []

/-- Token `t` of some type with types `types` requested: special tokens are given on requests that ask for something, other ones
if their type is requested. -/
def Wanted (asks : TokenTypeSet → Prop) (types : TokenTypeSet) (t : Token) : Prop :=
  if t.type < 0 then asks types else types.getLsbD t.type.toNat = true

instance (asks : TokenTypeSet → Prop) [DecidablePred asks] (types : TokenTypeSet) (t : Token) : Decidable (Wanted asks types t) := by
  unfold Wanted; infer_instance

/-- A token stream: `Q q ts` says that in state `q` tokens `ts` are left, `asks` says which requests ask for something that the
stream may ever give. The next token is given if its type is requested, otherwise nothing is given and nothing changes; then the
end of input is repeated. -/
structure Supplies (pull : σ → TokenTypeSet → Run (σ × Except PErr (Option Token))) (asks : TokenTypeSet → Prop)
    (Q : σ → List Token → Prop) : Prop where
  given : ∀ q t ts types, Q q (t :: ts) → Wanted asks types t → ∃ q', pull q types = .done (q', .ok (some t)) ∧ Q q' ts
  refused : ∀ q t ts types, Q q (t :: ts) → ¬ Wanted asks types t → ∃ q', pull q types = .done (q', .ok none) ∧ Q q' (t :: ts)
  ending : ∀ q types, Q q [] → asks types → ∃ q' t, pull q types = .done (q', .ok (some t)) ∧ t.type = eoiTokenType ∧ Q q' []
  nothing : ∀ q types, Q q [] → ¬ asks types → ∃ q', pull q types = .done (q', .ok none) ∧ Q q' []
  asked : ∀ q ts types, Q q ts → ∀ t ∈ ts, 0 ≤ t.type → types.getLsbD t.type.toNat = true → asks types
  any : asks allTokenTypes

/-- The same for some requests only: `F types ts` says that types `types` may be requested while tokens `ts` are left. -/
structure SuppliesOn (pull : σ → TokenTypeSet → Run (σ × Except PErr (Option Token))) (asks : TokenTypeSet → Prop)
    (F : TokenTypeSet → List Token → Prop) (Q : σ → List Token → Prop) : Prop where
  given : ∀ q t ts types, Q q (t :: ts) → F types (t :: ts) → Wanted asks types t → ∃ q', pull q types = .done (q', .ok (some t)) ∧ Q q' ts
  refused : ∀ q t ts types, Q q (t :: ts) → F types (t :: ts) → ¬ Wanted asks types t → ∃ q', pull q types = .done (q', .ok none) ∧ Q q' (t :: ts)
  ending : ∀ q types, Q q [] → F types [] → asks types → ∃ q' t, pull q types = .done (q', .ok (some t)) ∧ t.type = eoiTokenType ∧ Q q' []
  nothing : ∀ q types, Q q [] → F types [] → ¬ asks types → ∃ q', pull q types = .done (q', .ok none) ∧ Q q' []
  asked : ∀ q ts types, Q q ts → ∀ t ∈ ts, 0 ≤ t.type → types.getLsbD t.type.toNat = true → asks types

theorem Supplies.on {pull : σ → TokenTypeSet → Run (σ × Except PErr (Option Token))} {asks : TokenTypeSet → Prop} {Q : σ → List Token → Prop}
    (h : Supplies pull asks Q) : SuppliesOn pull asks (fun _ _ => True) Q :=
  ⟨fun q t ts types h1 _ h2 => h.given q t ts types h1 h2, fun q t ts types h1 _ h2 => h.refused q t ts types h1 h2,
    fun q types h1 _ h2 => h.ending q types h1 h2, fun q types h1 _ h2 => h.nothing q types h1 h2, h.asked⟩

/-- A token, not a special one, that has just been given and then put back will be given again. -/
def Rereads (pull : σ → TokenTypeSet → Run (σ × Except PErr (Option Token))) (unread : σ → Token → Option σ) (Q : σ → List Token → Prop) : Prop :=
  ∀ q t ts types q1 q2, Q q (t :: ts) → 0 ≤ t.type → pull q types = .done (q1, .ok (some t)) → unread q1 t = some q2 → Q q2 (t :: ts)

/-- Node hooks never fail. -/
def HooksPass (env : PEnv σ) : Prop :=
  (∀ log e, ∃ v, env.onCall log e = .ok v) ∧ ∀ log e, ∃ b, env.onMake log e = .ok b

/-- Token `t` is meant by key `k`, may also be looked up by keys that go with it, and its type is expected wherever the key has
rules. -/
structure Readable (g : Grammar) (upper : List Nat → List Nat) (m : Table) (also : Int → Int → Prop) (t : Token) (k : Nat) : Prop where
  meant : MatchesAs g upper t k
  others : ∀ k' : Nat, k' ≠ k → MatchesAs g upper t k' → also k k'
  known : t.type < g.tokens.length
  ordinary : g.isSideType t.type = false
  expected : ∀ (s : Nat) (gs : GState), g.tables.states[s]? = some gs → m s k ≠ [] → gs.types.getLsbD t.type.toNat = true

/-- A token that is not matched: the end of a source or a side token, the type of which is expected everywhere. -/
def Passed (g : Grammar) (t : Token) : Prop :=
  t.type = eofTokenType ∨ (g.isSideType t.type = true ∧ t.type < 64 ∧
    ∀ (s : Nat) (gs : GState), g.tables.states[s]? = some gs → gs.types.getLsbD t.type.toNat = true)

/-- The first key read from state `s` may be `k`. -/
inductive Leads (m : Table) : Nat → Int → Prop
  | here {s : Nat} {k : Int} : 0 ≤ k → m s k ≠ [] → Leads m s k
  | skip {s s' : Nat} {k : Int} {r : Rule} : r ∈ m s anyToken → r.state = s' → Leads m s' k → Leads m s k

/-- Tables made for node definitions: keys are tokens, a nested node may be opened by every key that can start it, and by
no other. -/
structure Opens (g : Grammar) (m : Table) (heads : Nat → Int → Prop) : Prop where
  token : ∀ (s : Nat) (k : Int), ∀ r ∈ m s k, r.token = k
  keys : ∀ (s : Nat) (k : Int), m s k ≠ [] → 0 ≤ k ∨ k = anyToken
  node : ∀ (s : Nat) (k : Int), ∀ r ∈ m s k, r.node = sameNode ∨ (0 ≤ r.node ∧ 0 ≤ k)
  full : ∀ (s : Nat) (k : Int) (r : Rule) (n : Nat), r ∈ m s k → r.node = n → ∀ k', heads n k' →
    ∃ r' ∈ m s k', r'.node = n ∧ r'.state = r.state
  tok : ∀ (n f k : Nat) (w : List Sym), g.firsts[n]? = some f → Accepts m f (.tok k :: w) → heads n k
  nested : ∀ (n f j : Nat) (w : List Sym) (k : Int), g.firsts[n]? = some f → Accepts m f (.node j :: w) → heads j k → heads n k
  exact : ∀ (s n f : Nat) (k : Int) (r : Rule), r ∈ m s k → r.node = n → g.firsts[n]? = some f → Leads m f k

/-- Rules lead to existing states. -/
def RulesClosed (g : Grammar) (m : Table) : Prop :=
  (∀ (s : Nat) (k : Int), ∀ r ∈ m s k, r.state = finalState ∨ ∃ (n : Nat) (gs : GState), r.state = n ∧ g.tables.states[n]? = some gs) ∧
  ∀ (n f : Nat), g.firsts[n]? = some f → ∃ gs, g.tables.states[f]? = some gs

/-- Rules in the tables of a grammar. -/
def tableOf (g : Grammar) : Table := fun s k =>
  match g.tables.states[s]? with
  | none => []
  | some gs => (findRulesBy g.tables gs [k]).getD []

end Verif.Spec
