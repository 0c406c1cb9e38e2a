/-
Meaning of grammar descriptions (`/repo/langdef/docs.go`): words described by expressions, over names.
-/
import Mathlib.Computability.Language
import Verif.Spec.Ebnf
import Verif.Spec.LangRead

namespace Verif.Spec.LangDef

open Verif.Model Verif.Model.LangDef

/-- Symbols in the text of a definition. -/
inductive Named
  | node (n : List Nat)
  | type (n : List Nat)
  | literal (n : List Nat)
  | eoi
deriving DecidableEq

mutual

/-- The words described by an expression: `[]` is 0 or 1, `{}` is 0 or more, `|` is a choice, `,` is a sequence. -/
def Expr.words : Expr → Language Named
  | .node n => {[.node n]}
  | .token n => {[.type n]}
  | .eoi => {[.eoi]}
  | .literal n => {[.literal n]}
  | .variant es => Expr.wordsAny es
  | .group es opt rep => if rep then KStar.kstar (Expr.wordsSeq es) else if opt then 1 + Expr.wordsSeq es else Expr.wordsSeq es

/-- One of the variants. -/
def Expr.wordsAny : List Expr → Language Named
  | [] => 0
  | e :: es => e.words + Expr.wordsAny es

/-- All the items one after another. -/
def Expr.wordsSeq : List Expr → Language Named
  | [] => 1
  | e :: es => e.words * Expr.wordsSeq es

end

/-- Names of nodes of a description, in the order of the first mention. -/
def nodeList (body : List BodyItem) : List (List Nat) := enlist [] (body.flatMap BodyItem.names)

/-- Index of a symbol: a node in the list of nodes, a type or a literal in the table of tokens. -/
def Named.sym (N : Names) : Named → Option Sym
  | .node n => (N.node n).map .node
  | .type n => (N.token n).map .tok
  | .literal n => (N.literal n).map .tok
  | .eoi => some .eoi

/-- Word `w` over indexes is word `v` over names. -/
def Spelled (N : Names) (v : List Named) (w : List Sym) : Prop := List.Forall₂ (fun x y => x.sym N = some y) v w

/-- Definitions of nodes: the structure of every node is the denotation of its only definition in the text. -/
structure Denoted (body : List BodyItem) (ts : List GToken) (bodies : List Chunk) : Prop where
  count : bodies.length = (nodeList body).length
  each : ∀ (i : Nat) (n : List Nat), (nodeList body)[i]? = some n → ∃ es chs, BodyItem.node n es ∈ body ∧
    Expr.chunks (namesOf ts (nodeList body)) es = some chs ∧ bodies[i]? = some (.group chs false false)

/-- The expression if this is the definition of node `n`. -/
def BodyItem.definition (n : List Nat) : BodyItem → Option (List Expr)
  | .node m es => if m = n then some es else none
  | .layer _ => none

/-- Structures of nodes, in the order of the first mention; `none` if there is no definition. -/
def textDefs (body : List BodyItem) (ts : List GToken) : List (Option Chunk) :=
  (nodeList body).map fun n => (body.findSome? (BodyItem.definition n)).bind fun es =>
    (Expr.chunks (namesOf ts (nodeList body)) es).map fun chs => .group chs false false

end Verif.Spec.LangDef
