/-
What configurations of hook layers mean.
-/
import Verif.Model.Layers

namespace Verif.Spec.Layers

open Verif.Model

/-- All arguments of commands with given name. -/
def argumentsOf (name : String) (cs : List LayerCommand) : List (List Nat) :=
  (cs.filter fun c => c.command = bytesOf name).flatMap (·.arguments)

/-- Neighbours are joined: first with second, third with fourth and so on. -/
def pairs {α : Type} : List α → List (α × α)
  | a :: b :: l => (a, b) :: pairs l
  | _ => []

/-- Conversions listed by the configuration. -/
def conversions (cs : List LayerCommand) : List (List Nat × List Nat) := pairs (argumentsOf "convert" cs)

/-- Only the last argument may be a real name (other ones are empty, which means "any token"). -/
def Single (names : List (List Nat)) : Prop := ∀ n ∈ names.dropLast, n = []

/-- Correct commands of the "convert" layer. -/
def ConvertCommandOk (g : Grammar) (c : LayerCommand) : Prop :=
  ((c.command = bytesOf "input-type" ∨ c.command = bytesOf "output-type") ∧
    ∃ name, c.arguments = [name] ∧ g.tokenName name ≠ none) ∨
  (c.command = bytesOf "convert" ∧ c.arguments ≠ [] ∧ Even c.arguments.length) ∨
  c.command = bytesOf "save-position"

/-- Correct configuration of the "convert" layer. -/
structure ConvertOk (g : Grammar) (cs : List LayerCommand) : Prop where
  commands : ∀ c ∈ cs, ConvertCommandOk g c
  some : ∃ c ∈ cs, c.command = bytesOf "convert"
  input : Single (argumentsOf "input-type" cs)
  output : Single (argumentsOf "output-type" cs)
  distinct : ((conversions cs).map (·.1)).Nodup

/-- The token type the "convert" layer is for: `-1` means any type. -/
def inputType (g : Grammar) (cs : List LayerCommand) : Option Int := g.tokenName ((argumentsOf "input-type" cs).getLastD [])

/-- Does the layer look at the token. -/
def Hooked (g : Grammar) (cs : List LayerCommand) (t : Token) : Prop :=
  match inputType g cs with
  | some (-1) => 0 ≤ t.type
  | some k => t.type = k
  | none => False

/-- The token replacing `t`. -/
def Replaces (g : Grammar) (cs : List LayerCommand) (t : Token) (text : List Nat) (t' : Token) : Prop :=
  t'.content = text ∧
  t'.pos = (if ∃ c ∈ cs, c.command = bytesOf "save-position" then t.pos else ⟨none, 0⟩) ∧
  some t'.type = (if (argumentsOf "output-type" cs).getLastD [] = [] then some t.type
    else g.tokenName ((argumentsOf "output-type" cs).getLastD []))

/-- Correct commands of the "restrict" layer. -/
def RestrictCommandOk (c : LayerCommand) : Prop :=
  (c.command = bytesOf "node" ∨ c.command = bytesOf "allow-in" ∨ c.command = bytesOf "forbid-in") ∧ c.arguments ≠ []

/-- Correct configuration of the "restrict" layer. -/
structure RestrictOk (cs : List LayerCommand) : Prop where
  commands : ∀ c ∈ cs, RestrictCommandOk c
  nodes : argumentsOf "node" cs ≠ []
  forbid : argumentsOf "forbid-in" cs ≠ []
  distinctNodes : (argumentsOf "node" cs).Nodup
  distinct : (argumentsOf "allow-in" cs ++ argumentsOf "forbid-in" cs).Nodup

/-- The closest listed ancestor is a forbidding one; `stack` starts with the closest ancestor. -/
def Forbidden (cs : List LayerCommand) (stack : List (List Nat)) : Prop :=
  ∃ near a far, stack = near ++ a :: far ∧ a ∈ argumentsOf "forbid-in" cs ∧
    ∀ n ∈ near, n ∉ argumentsOf "allow-in" cs ∧ n ∉ argumentsOf "forbid-in" cs

/-- The template used for a layer with given name: the one passed explicitly or else the registered one. -/
def Chosen {τ : Type} (templates known : List (List Nat × τ)) (name : List Nat) (t : τ) : Prop :=
  (name, t) ∈ templates ∨ name ∉ templates.map (·.1) ∧ (name, t) ∈ known

end Verif.Spec.Layers
