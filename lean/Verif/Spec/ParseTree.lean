/-
Parse trees, notifications of node hooks for a tree, and trees that follow the rules.
-/
import Verif.Model.Parser

namespace Verif.Spec

open Verif.Model

/-- Content of a node: tokens and nested nodes; `start` is the initial token of a nested node. -/
inductive Item
  | tok (t : Token)
  | node (index : Nat) (start : Option Token) (items : List Item)

mutual

/-- Tokens of an item from left to right. -/
def Item.leaves : Item → List Token
  | .tok t => [t]
  | .node _ _ items => leavesOf items

/-- Tokens of items from left to right. -/
def leavesOf : List Item → List Token
  | [] => []
  | i :: is => i.leaves ++ leavesOf is

end

variable {σ : Type}

/-- Every instance in the list is called, the layer number of the first one being `l`. -/
def told (f : Nat → Nat → Event) : Nat → List (Option Nat) → List Event
  | _, [] => []
  | l, none :: hs => told f (l + 1) hs
  | l, some i :: hs => f l i :: told f (l + 1) hs

/-- Calls are made one after another, none of them returns an error. -/
def Calls (env : PEnv σ) (log es log' : List Event) : Prop :=
  log' = log ++ es ∧ ∀ a e b, es = a ++ e :: b → ∃ v, env.onCall (log ++ a) e = .ok v

/-- Hooks for a new node are called for listed layers; a new instance is identified by the position of the call. -/
inductive Makes (env : PEnv σ) (index : Nat) (start : Option Token) :
    List Nat → List Event → List (Option Nat) → List Event → Prop
  | nil {log} : Makes env index start [] log [] log
  | unhooked {l ls log hs log'} : env.hooked l index = false → Makes env index start ls log hs log' →
      Makes env index start (l :: ls) log (none :: hs) log'
  | absent {l ls log hs log'} : env.hooked l index = true → env.onMake log (.make l index start) = .ok false →
      Makes env index start ls (log ++ [.make l index start]) hs log' → Makes env index start (l :: ls) log (none :: hs) log'
  | made {l ls log hs log'} : env.hooked l index = true → env.onMake log (.make l index start) = .ok true →
      Makes env index start ls (log ++ [.make l index start]) hs log' →
      Makes env index start (l :: ls) log (some log.length :: hs) log'

/-- `EndNode` is called for every instance; results are those returned. -/
inductive Ends (env : PEnv σ) : Nat → List (Option Nat) → List Event → List (Option Nat) → List Event → Prop
  | nil {l log} : Ends env l [] log [] log
  | none {l hs log rs log'} : Ends env (l + 1) hs log rs log' → Ends env l (none :: hs) log (none :: rs) log'
  | some {l i hs log res rs log'} : env.onCall log (.endNode l i) = .ok res →
      Ends env (l + 1) hs (log ++ [.endNode l i]) rs log' → Ends env l (some i :: hs) log (res :: rs) log'

mutual

/-- Notifications caused by a node: instances are made, then they are told about the content, then the node is ended. -/
inductive NodeRun (env : PEnv σ) : Nat → Option Token → List Item → List Event → List (Option Nat) → List (Option Nat) →
    List Event → Prop
  | mk {index start items log hooks log1 log2 results log3} :
      Makes env index start (List.range env.layers) log hooks log1 →
      ItemsRun env hooks items log1 log2 → Ends env 0 hooks log2 results log3 →
      NodeRun env index start items log hooks results log3

/-- Notifications caused by the content of a node with given hook instances: `HandleToken` for a token; `NewNode`,
everything caused by the nested node, and `HandleNode` with the result of the nested instance for a nested node. -/
inductive ItemsRun (env : PEnv σ) : List (Option Nat) → List Item → List Event → List Event → Prop
  | nil {hooks log} : ItemsRun env hooks [] log log
  | tok {hooks items log log1 t log2} : ItemsRun env hooks items log log1 →
      Calls env log1 (told (fun l i => .token l i t) 0 hooks) log2 →
      ItemsRun env hooks (items ++ [.tok t]) log log2
  | node {hooks items log log1 index start log2 its hs rs log3 log4} : ItemsRun env hooks items log log1 →
      Calls env log1 (told (fun l i => .newNode l i index start) 0 hooks) log2 →
      NodeRun env index start its log2 hs rs log3 →
      Calls env log3 (told (fun l i => .handleNode l i index ((rs[l]?).getD none)) 0 hooks) log4 →
      ItemsRun env hooks (items ++ [.node index start its]) log log4

end

/-- The first item is not a side token. -/
def Front (g : Grammar) (items : List Item) : Prop := ∀ t rest, items = .tok t :: rest → g.isSideType t.type = false

/-- The last item is not a side token. -/
def Back (g : Grammar) (items : List Item) : Prop := ∀ t rest, items = rest ++ [.tok t] → g.isSideType t.type = false

/-- Side tokens are inside of a node: they do not end it, and if it was entered with an ordinary token, they do not begin
it; the same is true for nested nodes. -/
inductive Tidy (g : Grammar) : Item → Prop
  | tok {t} : Tidy g (.tok t)
  | node {index start items} : (∀ t, start = some t → g.isSideType t.type = false → Front g items) → Back g items →
      (∀ x ∈ items, Tidy g x) → Tidy g (.node index start items)

/-- The state after a rule. -/
def after (r : Rule) (s : Int) : Int := if r.state = -128 then s else r.state

/-- The content of a node leads from state `s` to another one; `P tok s r` says that rule `r` may be used in state `s` for
the token. Side tokens may be anywhere. A nested node leads from its first state to the final one. -/
inductive Walk (g : Grammar) (P : Option Token → Int → Rule → Prop) : Int → List Item → Int → Prop
  | nil {s} : Walk g P s [] s
  /-- a rule that takes no token -/
  | skip {s items s1 tok r} : Walk g P s items s1 → P tok s1 r → r.node = -1 → r.token = -1 ∨ tok = none →
      Walk g P s items (after r s1)
  /-- a rule for a side token (the token itself may be placed later) -/
  | onSide {s items s1 t r} : Walk g P s items s1 → P (some t) s1 r → r.node = -1 → g.isSideType t.type = true →
      Walk g P s items (after r s1)
  | side {s items s1 t} : Walk g P s items s1 → g.isSideType t.type = true → Walk g P s (items ++ [.tok t]) s1
  | tok {s items s1 t r} : Walk g P s items s1 → P (some t) s1 r → r.node = -1 → r.token ≠ -1 →
      Walk g P s (items ++ [.tok t]) (after r s1)
  | node {s items s1 start r its} {index first : Nat} : Walk g P s items s1 → P start s1 r → r.node = (index : Int) →
      g.firsts[index]? = some first → Walk g P (first : Int) its (-1) →
      Walk g P s (items ++ [.node index start its]) (after r s1)

end Verif.Spec
