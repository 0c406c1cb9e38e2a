/-
Specification of a printed tree and of the width of printed lines (`/repo/examples/grammar/grammar.go`), independent of the printer.
-/
import Verif.Spec.Trees
import Verif.Model.GrammarTool

namespace Verif.Spec.Print

open Verif.Spec.Trees
open Verif.Model
open Verif.Model.GrammarTool (Piece strBytes)
open Verif.Model.Tree (Heap)
open Verif.Model.LlxGen (quote)

/-- There is only one child, and it is a node. -/
def onlyNode (isNode : Nat → Bool) : List Tree → Bool
  | [c] => isNode c.id
  | _ => false

mutual
/-- Items printed for a node: a label, a bracket, items of children, a bracket; a node that is the only child is a part of the label
of its parent. `pre` is the beginning of the label. -/
def node (isNode : Nat → Bool) (name tok : Nat → List Nat) (pre : List Nat) : Tree → List (List Nat)
  | .node id kids =>
    if onlyNode isNode kids then children isNode name tok (pre ++ name id ++ [58]) kids
    else [pre ++ name id, [123]] ++ children isNode name tok [] kids ++ [[125]]
/-- Items printed for children. -/
def children (isNode : Nat → Bool) (name tok : Nat → List Nat) (pre : List Nat) : List Tree → List (List Nat)
  | [] => []
  | t :: ts => (if isNode t.id then node isNode name tok pre t else [tok t.id]) ++ children isNode name tok pre ts
end

/-- The first `n` runes of a text. -/
def takeRunes : Nat → List Nat → List Nat
  | 0, _ => []
  | n + 1, text => text.take (Utf8.decodeRune text).2 ++ takeRunes n (text.drop (Utf8.decodeRune text).2)

/-- The item printed for a token: its type name and its quoted content; only 75 runes of a content longer than 78 runes. -/
def token (quote : List Nat → List Nat) (name content : List Nat) : List Nat :=
  if Utf8.runeCount content ≤ 78 then name ++ [40] ++ quote content ++ [41]
  else name ++ [40] ++ quote (takeRunes 75 content) ++ [46, 46, 46, 41]

/-- Names of elements. -/
def nameOf (h : Heap) (n : Nat) : List Nat := strBytes (h n).typeName

/-- Items printed for tokens. -/
def tokOf (isPrint : Nat → Bool) (h : Heap) (n : Nat) : List Nat :=
  match (h n).token with
  | some t => token (quote isPrint) (strBytes (h n).typeName) t.content
  | none => []

/-- Printed items. -/
def items (out : List Piece) : List (List Nat) := out.filterMap fun p => match p with
  | .item s => some s
  | _ => none

/-- Width of a piece. -/
def pieceWidth : Piece → Nat
  | .space s => Utf8.runeCount s
  | .item s => Utf8.runeCount s
  | .nl => 0

/-- Lines of the output. -/
def outLines : List Piece → List (List Piece)
  | [] => [[]]
  | .nl :: l => [] :: outLines l
  | p :: l => match outLines l with
    | [] => [[p]]
    | x :: xs => (p :: x) :: xs

/-- Width of a line in runes. -/
def width (line : List Piece) : Nat := (line.map pieceWidth).sum

/-- A line is not wider than `w`, or it has at most one item. -/
def Fits (w : Int) (line : List Piece) : Prop := (width line : Int) ≤ w ∨ (items line).length ≤ 1

end Verif.Spec.Print
