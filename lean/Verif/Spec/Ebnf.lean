/-
Meaning of EBNF expressions of grammar descriptions (`langdef/docs.go`): sequence, variants, optional (0 or 1) and
repeated (0 or more) groups, as languages over token types and node references.
-/
import Mathlib.Computability.Language
import Verif.Model.Chunk

namespace Verif.Spec

open Verif.Model

/-- Symbols of a node definition: token type or literal, end of input, nested node. -/
inductive Sym
  | tok (t : Nat)
  | eoi
  | node (i : Nat)
deriving DecidableEq, Repr

namespace Ebnf

mutual

/-- The words described by an expression. -/
def lang : Chunk → Language Sym
  | .token t => {[.tok t]}
  | .eoi => {[.eoi]}
  | .node i => {[.node i]}
  | .variant cs => langAny cs
  | .group cs opt rep =>
    if rep then KStar.kstar (langSeq cs) else if opt then 1 + langSeq cs else langSeq cs

/-- One of the variants. -/
def langAny : List Chunk → Language Sym
  | [] => 0
  | c :: cs => lang c + langAny cs

/-- All the items one after another. -/
def langSeq : List Chunk → Language Sym
  | [] => 1
  | c :: cs => lang c * langSeq cs

end

mutual

/-- Expressions that the description syntax can produce: groups and variants are not empty, a repeated group is an
optional one. -/
def WF : Chunk → Prop
  | .token _ => True
  | .eoi => True
  | .node _ => True
  | .variant cs => cs ≠ [] ∧ WFs cs
  | .group cs opt rep => cs ≠ [] ∧ (rep = true → opt = true) ∧ WFs cs

/-- All members are well-formed. -/
def WFs : List Chunk → Prop
  | [] => True
  | c :: cs => WF c ∧ WFs cs

end

mutual

/-- No explicit end of input (`$`) inside. -/
def NoEoi : Chunk → Prop
  | .token _ => True
  | .eoi => False
  | .node _ => True
  | .variant cs => NoEois cs
  | .group cs _ _ => NoEois cs

/-- No explicit end of input in all members. -/
def NoEois : List Chunk → Prop
  | [] => True
  | c :: cs => NoEoi c ∧ NoEois cs

end

mutual

/-- Nodes mentioned in an expression. -/
def refs : Chunk → Finset Nat
  | .token _ => ∅
  | .eoi => ∅
  | .node i => {i}
  | .variant cs => refsAll cs
  | .group cs _ _ => refsAll cs

/-- Nodes mentioned in expressions. -/
def refsAll : List Chunk → Finset Nat
  | [] => ∅
  | c :: cs => refs c ∪ refsAll cs

end

mutual

/-- The expression describes the empty word (a nested node is a symbol here). -/
def nullable : Chunk → Bool
  | .token _ => false
  | .eoi => false
  | .node _ => false
  | .variant cs => nullableAny cs
  | .group cs opt rep => rep || opt || nullableSeq cs

/-- Some variant describes the empty word. -/
def nullableAny : List Chunk → Bool
  | [] => false
  | c :: cs => nullable c || nullableAny cs

/-- Every item describes the empty word. -/
def nullableSeq : List Chunk → Bool
  | [] => true
  | c :: cs => nullable c && nullableSeq cs

end

mutual

/-- Expressions where a repeated group never shares its starting point with alternatives that cannot follow it.
`alone` says that nothing but this expression (or what follows it) starts at its starting point: it is lost inside a
variant, inside an optional group that needs some token, and at the start of a repeated group of one item.
Explicit end of input is excluded. -/
def LoopOk (alone : Bool) : Chunk → Prop
  | .token _ => True
  | .eoi => False
  | .node _ => True
  | .variant cs => LoopOkAny cs
  | .group cs opt rep =>
    if rep then alone = true ∧ LoopOkSeq (decide (1 < cs.length)) cs
    else LoopOkSeq (alone && (!opt || nullableSeq cs)) cs

/-- `LoopOk` for the members of a variant. -/
def LoopOkAny : List Chunk → Prop
  | [] => True
  | c :: cs => LoopOk false c ∧ LoopOkAny cs

/-- `LoopOk` for the items of a sequence: every item but the first has its own starting point. -/
def LoopOkSeq (alone : Bool) : List Chunk → Prop
  | [] => True
  | c :: cs => LoopOk alone c ∧ LoopOkSeq true cs

end

end Ebnf

end Verif.Spec
