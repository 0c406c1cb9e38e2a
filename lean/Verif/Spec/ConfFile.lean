/-
Configuration files as parse trees. Independent of the model of the editor.
-/
import Verif.Spec.Conf
import Verif.Spec.Cuts
import Verif.Spec.Keys
import Verif.Spec.Spells
import Verif.Spec.Text

namespace Verif.Spec.Conf

open Verif.Spec.Text (normalize)

/-- What is seen of a token. -/
def tokOf (t : Model.Token) : Tok := ⟨t.typeName, t.content⟩

/-- An item of a parse tree as a part of a section. -/
def partOf (names : Nat → String) : Spec.Item → Part
  | .tok t => .token (tokOf t)
  | .node i _ its => .node (names i) ((leavesOf its).map tokOf)

/-- An item of a parse tree as a part of a document. -/
def itemOf (names : Nat → String) : Spec.Item → Item
  | .tok t => .token (tokOf t)
  | .node i _ its => .node (names i) (its.map (partOf names))

/-- Items of the root as a document. -/
def docOf (names : Nat → String) (its : List Spec.Item) : Doc := its.map (itemOf names)

theorem partOf_toks (names : Nat → String) (x : Spec.Item) : (partOf names x).toks = x.leaves.map tokOf := by
  cases x <;> simp [partOf, Part.toks, Spec.Item.leaves]

theorem leavesOf_flatMap (its : List Spec.Item) : leavesOf its = its.flatMap Spec.Item.leaves := by
  induction its with
  | nil => rfl
  | cons x its ih => simp [leavesOf, ih]

theorem itemOf_toks (names : Nat → String) (x : Spec.Item) : (itemOf names x).toks = x.leaves.map tokOf := by
  cases x with
  | tok t => simp [itemOf, Item.toks, Spec.Item.leaves]
  | node i st its => simp [itemOf, Item.toks, Spec.Item.leaves, leavesOf_flatMap, List.flatMap_map, partOf_toks, List.map_flatMap]

/-- The text of the document is the text of tokens. -/
theorem docOf_text (names : Nat → String) (its : List Spec.Item) : (docOf names its).text = (leavesOf its).flatMap (·.content) := by
  rw [Doc.text, docOf, List.flatMap_map, leavesOf_flatMap, List.flatMap_assoc, List.flatMap_assoc]
  congr 1
  funext x
  rw [itemOf_toks, List.flatMap_map]
  rfl

/-- The text that is read: all line feeds are the same, the last line has it. -/
def readable (file : Bytes) : Bytes :=
  if normalize file = [] ∨ (normalize file).getLast? = some 10 then normalize file else normalize file ++ [10]

/-- The first `p` bytes of the text are read as items described by the grammar with node definitions `L`, the first token type that
matches is taken for every token. Nodes are not begun with side tokens. -/
structure Reads (g : Model.Grammar) (upper : Bytes → Bytes) (re : Bytes → Option Model.Matcher) (L : Nat → List Sym → Prop) (text : Bytes) (p : Nat)
    (items : List Spec.Item) : Prop where
  le : p ≤ text.length
  cut : ∃ src : Model.Src, src.content = text ∧ Cuts re g.tokens [(src, 0)] (leavesOf items) [(src, p)]
  described : Described g upper L items
  tidy : ∀ x ∈ items, Tidy g x

/-! Commands -/

/-- Kinds of commands: remove section, add section, remove value, set value. -/
inductive Kind
  | removeSection | addSection | removeValue | setValue
deriving DecidableEq

/-- A command is accepted if its name is valid; the name in an assignment is everything before the first equals sign. -/
def Accepted (valid : Bytes → Bool) (c : Kind × Bytes) : Prop :=
  if c.1 = .setValue then ∃ n v, Assignment c.2 n v ∧ valid n = true else valid c.2 = true

/-- Commands of a kind in order. -/
def ofKind (k : Kind) (l : List (Kind × Bytes)) : List Bytes := (l.filter (·.1 = k)).map (·.2)

/-- Commands sorted by kinds. -/
def Commands.of (l : List (Kind × Bytes)) : Commands :=
  ⟨ofKind .removeSection l, ofKind .addSection l, ofKind .removeValue l, ofKind .setValue l⟩

end Verif.Spec.Conf
