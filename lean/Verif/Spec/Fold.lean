/-
Specification of what node hooks compute: a fold of the parse tree.
-/
import Verif.Spec.ParseTree

namespace Verif.Spec

open Verif.Model

/-- Hook instances with their own states: `ι` is a state of an instance, `ρ` is a result of `EndNode`; errors are numbers. -/
structure HookClass (ι ρ : Type) where
  /-- `NodeHook`: a new instance -/
  make : Nat → Option Token → Except Nat ι
  /-- `NewNode` -/
  newNode : ι → Nat → Option Token → Except Nat ι
  /-- `HandleToken` -/
  token : ι → Token → Except Nat ι
  /-- `HandleNode` -/
  handleNode : ι → Nat → ρ → Except Nat ι
  /-- `EndNode` -/
  endNode : ι → Except Nat ρ

variable {ι ρ : Type}

/-- The first error or the next step. -/
def orStop {α β : Type} (x : Except Nat α) (f : α → Except Nat β) : Except Nat β :=
  match x with
  | .ok a => f a
  | .error e => .error e

mutual
/-- The instance is told about a part of the content of its node. -/
def HookClass.item (c : HookClass ι ρ) (s : ι) : Item → Except Nat ι
  | .tok t => c.token s t
  | .node index start items =>
    orStop (c.newNode s index start) fun s =>
    orStop (orStop (c.make index start) fun n => orStop (c.items n items) c.endNode) fun r => c.handleNode s index r
/-- The instance is told about the content of its node. -/
def HookClass.items (c : HookClass ι ρ) (s : ι) : List Item → Except Nat ι
  | [] => .ok s
  | i :: is => orStop (c.item s i) fun s => c.items s is
end

/-- The result of a node: an instance is made, told about the content from left to right, and ended; a nested node is turned into its
result first. -/
def HookClass.node (c : HookClass ι ρ) (index : Nat) (start : Option Token) (items : List Item) : Except Nat ρ :=
  orStop (c.make index start) fun n => orStop (c.items n items) c.endNode

end Verif.Spec
