/-
What expressions of the tree validator describe (`/repo/parser/test/tree.go`).
-/
import Verif.Model.TestTree
import Verif.Spec.ParseTree

namespace Verif.Spec.TestTree

open Verif.Model.TestTree (TN)
open Verif.Spec (Item)

/-- A pattern: a token or a node with its content. -/
inductive Pat
  | tok (word : List Nat)
  | node (word : List Nat) (content : List Pat)

/-- The word means this name or text: a word in quotes means what is inside, another word means itself. -/
def Means (word name : List Nat) : Prop :=
  (∃ q, word = 39 :: (name ++ [q])) ∨ (word = name ∧ word ≠ [] ∧ word.head? ≠ some 39 ∧ word ≠ [40] ∧ word ≠ [41])

mutual
/-- The pattern as written: `word` or `( word … )`. -/
def Pat.words : Pat → List (List Nat)
  | .tok w => [w]
  | .node w ps => [40] :: w :: (wordsOf ps ++ [[41]])
/-- Patterns one after another. -/
def wordsOf : List Pat → List (List Nat)
  | [] => []
  | p :: ps => p.words ++ wordsOf ps
end

mutual
/-- The pattern describes the tree: a token has the name or the text, a node has the name, its children are exactly those described. -/
def Fits : Pat → TN → Prop
  | .tok w, .mk isNode name text _ => isNode = false ∧ ∃ n, Means w n ∧ (name = n ∨ text = n)
  | .node w ps, .mk isNode name _ children => isNode = true ∧ Means w name ∧ FitsAll ps children
/-- Patterns describe trees one by one. -/
def FitsAll : List Pat → List TN → Prop
  | [], [] => True
  | p :: ps, t :: ts => Fits p t ∧ FitsAll ps ts
  | _, _ => False
end

/-- White space. -/
def Blank (c : Nat) : Prop := c = 9 ∨ c = 10 ∨ c = 12 ∨ c = 13 ∨ c = 32

/-- A character of a word without quotes. -/
def InWord (c : Nat) : Prop := ¬Blank c ∧ c ≠ 40 ∧ c ≠ 41

/-- How a sequence of words is written: parentheses and quoted words need no space around them, a word without quotes lasts until white space
or a parenthesis; a quoted word is not empty and has no quotes and line feeds inside. -/
inductive Written : List Nat → List (List Nat) → Prop
  | nil : Written [] []
  | blank {c s ws} : Blank c → Written s ws → Written (c :: s) ws
  | left {s ws} : Written s ws → Written (40 :: s) ([40] :: ws)
  | right {s ws} : Written s ws → Written (41 :: s) ([41] :: ws)
  | word {w s ws} : w ≠ [] → w.head? ≠ some 39 → (∀ c ∈ w, InWord c) → (∀ c, s.head? = some c → ¬InWord c) → Written s ws →
      Written (w ++ s) (w :: ws)
  | quoted {b s ws} : b ≠ [] → (∀ c ∈ b, c ≠ 39 ∧ c ≠ 10) → Written s ws → Written (39 :: (b ++ 39 :: s)) ((39 :: (b ++ [39])) :: ws)

/-- No `(` is followed by a parenthesis; no word is empty or a single quote. -/
def Proper : List (List Nat) → Prop
  | [] => True
  | w :: ws => (w = [40] → ws.head? ≠ some [40] ∧ ws.head? ≠ some [41]) ∧ w ≠ [] ∧ w ≠ [39] ∧ Proper ws

mutual
/-- The tree which tests make of a parse tree. -/
def treeOf (names : Nat → List Nat) (typeName : String → List Nat) : Item → TN
  | .tok t => .mk false (typeName t.typeName) t.content []
  | .node i _ items => .mk true (names i) [] (treesOf names typeName items)
/-- The same for several items. -/
def treesOf (names : Nat → List Nat) (typeName : String → List Nat) : List Item → List TN
  | [] => []
  | i :: is => treeOf names typeName i :: treesOf names typeName is
end

end Verif.Spec.TestTree
