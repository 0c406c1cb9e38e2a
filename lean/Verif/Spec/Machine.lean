/-
Meaning of a node state machine (`grammar/grammar.go`, package comment): a rule for a token key consumes the token or
opens a nested node, a rule for `AnyToken` changes the state only, `FinalState` finishes the node.
-/
import Verif.Spec.Ebnf

namespace Verif.Spec

open Verif.Model

/-- What a rule consumes. -/
def Rule.reads (r : Rule) : Option Sym :=
  if r.node = sameNode then
    if r.token = anyToken then none else if 0 ≤ r.token then some (.tok r.token.toNat) else some .eoi
  else some (.node r.node.toNat)

/-- A table of rules: rules of a state under a key. -/
abbrev Table := Nat → Int → List Rule

/-- Words accepted from a state when a rule for `AnyToken` may be used at any time. -/
inductive Accepts (m : Table) : Int → List Sym → Prop
  | final : Accepts m finalState []
  | skip {s : Nat} {k : Int} {r : Rule} {w : List Sym} :
      r ∈ m s k → Rule.reads r = none → Accepts m r.state w → Accepts m s w
  | read {s : Nat} {k : Int} {r : Rule} {x : Sym} {w : List Sym} :
      r ∈ m s k → Rule.reads r = some x → Accepts m r.state w → Accepts m s (x :: w)

end Verif.Spec
