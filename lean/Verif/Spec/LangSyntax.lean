/-
Syntax of grammar descriptions (`/repo/langdef/docs.go`) and its meaning.
-/
import Verif.Spec.LangDef

namespace Verif.Spec.LangDef

open Verif.Model Verif.Model.LangDef

/-! Expressions -/

/-- Expressions of node definitions. -/
inductive Expr
  | node (n : List Nat)
  | token (n : List Nat)
  | eoi
  | literal (n : List Nat)
  | variant (es : List Expr)
  | group (es : List Expr) (opt rep : Bool)

/-- Nonterminals of the documented grammar: `variant`, `variant {'|' variant}`, `item`, `sequence`. -/
inductive Role
  | var
  | alts
  | item
  | seq

/-- A token naming a token type; an empty name is the end of input. -/
def typeTok (n : List Nat) : LTok := ⟨.tokenName, 36 :: n⟩

/-- A string literal with a given content (after decoding). -/
def IsString (n : List Nat) (t : LTok) : Prop := ∃ q, t = ⟨.string, q :: n ++ [q]⟩

/-- Which tokens make an expression (`/repo/langdef/docs.go` lines 30-36). -/
inductive Derives : Role → List LTok → List Expr → Prop
  | node (n : List Nat) : Derives .var [⟨.name, n⟩] [.node n]
  | eoi : Derives .var [typeTok []] [.eoi]
  | token (n : List Nat) : n ≠ [] → Derives .var [typeTok n] [.token n]
  | literal (n : List Nat) (t : LTok) : IsString n t → Derives .var [t] [.literal n]
  | round {ts : List LTok} {es : List Expr} : Derives .seq ts es → Derives .var (op 40 :: ts ++ [op 41]) [.group es false false]
  | square {ts : List LTok} {es : List Expr} : Derives .seq ts es → Derives .var (op 91 :: ts ++ [op 93]) [.group es true false]
  | curly {ts : List LTok} {es : List Expr} : Derives .seq ts es → Derives .var (op 123 :: ts ++ [op 125]) [.group es true true]
  | one {ts : List LTok} {e : Expr} : Derives .var ts [e] → Derives .alts ts [e]
  | more {ts ts' : List LTok} {e : Expr} {es : List Expr} : Derives .var ts [e] → Derives .alts ts' es →
    Derives .alts (ts ++ op 124 :: ts') (e :: es)
  | single {ts : List LTok} {e : Expr} : Derives .alts ts [e] → Derives .item ts [e]
  | variants {ts : List LTok} {es : List Expr} : Derives .alts ts es → 2 ≤ es.length → Derives .item ts [.variant es]
  | last {ts : List LTok} {e : Expr} : Derives .item ts [e] → Derives .seq ts [e]
  | cons {ts ts' : List LTok} {e : Expr} {es : List Expr} : Derives .item ts [e] → Derives .seq ts' es →
    Derives .seq (ts ++ op 44 :: ts') (e :: es)

/-- What names denote: indexes in tables. -/
structure Names where
  node : List Nat → Option Nat
  token : List Nat → Option Nat
  literal : List Nat → Option Nat

mutual

/-- The structure denoted by an expression. -/
def Expr.chunk (N : Names) : Expr → Option Chunk
  | .node n => (N.node n).map .node
  | .token n => (N.token n).map .token
  | .eoi => some .eoi
  | .literal n => (N.literal n).map .token
  | .variant es => (Expr.chunks N es).map .variant
  | .group es opt rep => (Expr.chunks N es).map fun cs => .group cs opt rep

/-- Structures denoted by expressions. -/
def Expr.chunks (N : Names) : List Expr → Option (List Chunk)
  | [] => some []
  | e :: es => (e.chunk N).bind fun c => (Expr.chunks N es).map (c :: ·)

end

mutual

/-- Names of nodes in an expression. -/
def Expr.nodes : Expr → List (List Nat)
  | .node n => [n]
  | .token _ => []
  | .eoi => []
  | .literal _ => []
  | .variant es => Expr.nodesOf es
  | .group es _ _ => Expr.nodesOf es

/-- Names of nodes in expressions. -/
def Expr.nodesOf : List Expr → List (List Nat)
  | [] => []
  | e :: es => e.nodes ++ Expr.nodesOf es

end

mutual

/-- Literals in an expression. -/
def Expr.lits : Expr → List (List Nat)
  | .node _ => []
  | .token _ => []
  | .eoi => []
  | .literal n => [n]
  | .variant es => Expr.litsOf es
  | .group es _ _ => Expr.litsOf es

/-- Literals in expressions. -/
def Expr.litsOf : List Expr → List (List Nat)
  | [] => []
  | e :: es => e.lits ++ Expr.litsOf es

end

mutual

/-- Token types in an expression. -/
def Expr.types : Expr → List (List Nat)
  | .node _ => []
  | .token n => [n]
  | .eoi => []
  | .literal _ => []
  | .variant es => Expr.typesOf es
  | .group es _ _ => Expr.typesOf es

/-- Token types in expressions. -/
def Expr.typesOf : List Expr → List (List Nat)
  | [] => []
  | e :: es => e.types ++ Expr.typesOf es

end

/-! Layers -/

/-- An argument of a layer command: a name or a string literal. -/
def IsArg (a : List Nat) (t : LTok) : Prop := t = ⟨.name, a⟩ ∨ IsString a t

/-- Arguments separated by commas. -/
inductive DerivesArgs : List (List Nat) → List LTok → Prop
  | one {a : List Nat} {t : LTok} : IsArg a t → DerivesArgs [a] [t]
  | cons {a : List Nat} {t : LTok} {as : List (List Nat)} {ts : List LTok} : IsArg a t → DerivesArgs as ts →
    DerivesArgs (a :: as) (t :: op 44 :: ts)

/-- A layer command. -/
inductive DerivesCommand : LayerCommand → List LTok → Prop
  | empty (n : List Nat) : DerivesCommand ⟨n, []⟩ [⟨.name, n⟩, op 40, op 41]
  | args (n : List Nat) {as : List (List Nat)} {ts : List LTok} : DerivesArgs as ts →
    DerivesCommand ⟨n, as⟩ (⟨.name, n⟩ :: op 40 :: ts ++ [op 41])

/-- Layer commands one after another. -/
inductive DerivesCommands : List LayerCommand → List LTok → Prop
  | nil : DerivesCommands [] []
  | cons {c : LayerCommand} {ts : List LTok} {cs : List LayerCommand} {ts' : List LTok} : DerivesCommand c ts →
    DerivesCommands cs ts' → DerivesCommands (c :: cs) (ts ++ ts')

/-- A layer definition. -/
inductive DerivesLayer : LayerDef → List LTok → Prop
  | mk (n : List Nat) {cs : List LayerCommand} {ts : List LTok} : DerivesCommands cs ts →
    DerivesLayer ⟨n, cs⟩ (op 64 :: ⟨.name, n⟩ :: ts ++ [op 59])

/-! Definitions of nodes and layers -/

/-- An item after the first node definition. -/
inductive BodyItem
  | node (name : List Nat) (es : List Expr)
  | layer (l : LayerDef)

/-- Tokens of an item. -/
inductive DerivesItem : BodyItem → List LTok → Prop
  | node (name : List Nat) {es : List Expr} {ts : List LTok} : Derives .seq ts es →
    DerivesItem (.node name es) (⟨.name, name⟩ :: op 61 :: ts ++ [op 59])
  | layer {l : LayerDef} {ts : List LTok} : DerivesLayer l ts → DerivesItem (.layer l) ts

/-- Items one after another. -/
inductive DerivesBody : List BodyItem → List LTok → Prop
  | nil : DerivesBody [] []
  | cons {i : BodyItem} {ts : List LTok} {is : List BodyItem} {ts' : List LTok} : DerivesItem i ts → DerivesBody is ts' →
    DerivesBody (i :: is) (ts ++ ts')

/-- Names of nodes mentioned in an item, in the order of the text. -/
def BodyItem.names : BodyItem → List (List Nat)
  | .node n es => n :: Expr.nodesOf es
  | .layer _ => []

/-- Literals of an item. -/
def BodyItem.lits : BodyItem → List (List Nat)
  | .node _ es => Expr.litsOf es
  | .layer _ => []

/-- The defined node. -/
def BodyItem.defined : BodyItem → List (List Nat)
  | .node n _ => [n]
  | .layer _ => []

/-- Layers of an item. -/
def BodyItem.layers : BodyItem → List LayerDef
  | .node _ _ => []
  | .layer l => [l]

/-- Add names that are not in the list yet. -/
def enlist (l : List (List Nat)) : List (List Nat) → List (List Nat)
  | [] => l
  | m :: ms => enlist (if m ∈ l then l else l ++ [m]) ms

/-- Add literals that are not in the table yet. -/
def enlistLits (ts : List GToken) : List (List Nat) → List GToken
  | [] => ts
  | m :: ms => enlistLits (if ∃ t ∈ ts, t.flags.literal = true ∧ t.name = m then ts
      else ts ++ [{ name := m, re := none, flags := { literal := true } }]) ms

/-- Indexes of names in a table of tokens and in a list of nodes. -/
def namesOf (ts : List GToken) (nodes : List (List Nat)) : Names where
  node n := nodes.findIdx? (· = n)
  token n := ts.findIdx? fun t => t.name = n ∧ t.flags.literal = false
  literal n := ts.findIdx? fun t => t.name = n ∧ t.flags.literal = true

/-- All tokens are as the lexer makes them, and no name is spelled as a name of a token type used in lists of arguments of
directives (`string`, `token-name`); regular expressions are not empty. -/
def Plain (inp : List (Except LErr LTok)) : Prop :=
  ∀ x ∈ inp, ∃ t, x = .ok t ∧ LexTok t ∧ (t.kind = .name → t.text ≠ bytesOf "string" ∧ t.text ≠ bytesOf "token-name") ∧
    (t.kind = .regexp → 2 < t.text.length)

end Verif.Spec.LangDef
