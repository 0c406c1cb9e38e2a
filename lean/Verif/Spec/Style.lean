/-
Style rules of the example `style-check` as statements about a syntax tree. Independent of the model of the checker.
-/
import Verif.Model.Lexer
import Verif.Spec.Select

namespace Verif.Spec.Style

open Verif.Spec.Trees

/-- A syntax tree with labels: what is a node, type names, tokens of leaves. -/
structure Doc where
  root : Tree
  node : Nat → Bool
  name : Nat → String
  tok : Nat → Model.Token

mutual
/-- All subtrees in document order. -/
def parts : Tree → List Tree
  | .node id kids => .node id kids :: partsOf kids
/-- The same for siblings. -/
def partsOf : List Tree → List Tree
  | [] => []
  | t :: ts => parts t ++ partsOf ts
end

mutual
/-- Subtrees that fit and are not inside of a subtree that fits. -/
def topParts (fit : Nat → Bool) : Tree → List Tree
  | .node id kids => if fit id then [.node id kids] else topPartsOf fit kids
/-- The same for siblings. -/
def topPartsOf (fit : Nat → Bool) : List Tree → List Tree
  | [] => []
  | t :: ts => topParts fit t ++ topPartsOf fit ts
end

/-- A line of a report: line number, column, fixed part of the message, appended text. -/
abbrev Line := Int × Int × String × List Nat

/-- A message about a token. -/
def about (t : Model.Token) (m : String) (text : List Nat := []) : Line := (t.pos.lineCol.1, t.pos.lineCol.2, m, text)

namespace Doc

variable (d : Doc)

/-- Elements with such names, document order. -/
def named (names : List String) : List Nat := d.root.elements.filter fun x => d.name x ∈ names

/-- Subtrees with such names, document order. -/
def namedParts (names : List String) : List Tree := (parts d.root).filter fun t => d.name t.id ∈ names

/-- Tokens before an element. -/
def before (x : Nat) : List Nat := (d.root.elements.takeWhile (· ≠ x)).filter fun y => !d.node y

/-- Tokens after a token. -/
def after (x : Nat) : List Nat := (d.root.elements.dropWhile (· ≠ x)).tail.filter fun y => !d.node y

/-- The first token of a subtree. -/
def first (t : Tree) : List Model.Token := ((t.tokens d.node).head?.toList).map d.tok

/-- The last token must be a newline. -/
def finalNewline : List Line :=
  match (d.root.tokens d.node).getLast? with
  | none => []
  | some x =>
    if d.name x = "indent" then []
    else [((d.tok x).pos.lineCol.1, (d.tok x).pos.lineCol.2 + (d.tok x).content.length, "no newline at file end", [])]

/-- Elements between a type and a name. -/
def gaps : List Tree → List Nat
  | [] => []
  | [_] => []
  | [_, _] => []
  | a :: x :: b :: l =>
    (if d.node a.id ∧ d.name a.id = "type" ∧ d.node b.id ∧ d.name b.id = "name" then [x.id] else []) ++ gaps (x :: b :: l)

/-- Elements between the type and the name of a field of a structure: they may be used for alignment. -/
def fields : List Nat :=
  (d.namedParts ["struct-type"]).flatMap fun s => (s.kids.filter fun v => d.name v.id = "var-def").flatMap fun v => d.gaps v.kids

/-- Spacing is one space. -/
def oneSpace : List Line :=
  ((d.named ["space"]).filter fun x => (d.tok x).content ≠ [32] ∧ x ∉ d.fields).map fun x =>
    about (d.tok x) "spacing must be exactly one space symbol"

/-- There is a space before an operator if and only if it is `{`, there is a space after an operator if and only if it is `,` or `}`.
Excess space is reported where it is, missing space is reported at the operator or at what follows it (if there is nothing after the
operator, at the place of the previous report). -/
def opSpaces : List Line :=
  (d.named ["op"]).flatMap fun x =>
    let text := (d.tok x).content
    let prev := (d.before x).getLast?
    let next := (d.after x).head?
    let lead := prev.filter fun y => d.name y = "space"
    let trail := next.filter fun y => d.name y = "space"
    let place := if text = [123] then x else lead.getD x
    (if lead.isSome = decide (text = [123]) then []
      else [about (d.tok (lead.getD x)) ((if lead.isSome then "excess space" else "missing space") ++ " before ") text]) ++
    (if trail.isSome = decide (text = [44] ∨ text = [125]) then []
      else [about (d.tok (next.getD place)) ((if trail.isSome then "excess space" else "missing space") ++ " after ") text])

/-- The first tokens of names of variables (the first one of every definition). -/
def fieldNames (s : Tree) : List Model.Token :=
  (topParts (fun x => d.name x = "var-def") s).flatMap fun v => ((v.kids.find? fun k => d.name k.id = "name").toList).flatMap d.first

/-- Names of fields of a structure are in the same column; the first wrong one is reported. -/
def columns : List Line :=
  (d.namedParts ["struct-type"]).flatMap fun s =>
    match d.fieldNames s with
    | [] => []
    | t :: ts => ((ts.find? fun t' => t'.pos.lineCol.2 ≠ t.pos.lineCol.2).toList).map fun t' => about t' "inconsistent struct field align"

/-- There are no structures in definitions of variables. -/
def literals : List Line :=
  (d.namedParts ["var-def"]).flatMap fun v => (topParts (fun x => d.name x = "struct-type") v).flatMap fun s =>
    (d.first s).map fun t => about t "literal struct types are not allowed, use typedef"

/-- The width of an indent. A tab goes one place further than the next tab stop (every 8 places, the current place included). -/
def width : Nat → List Nat → Nat
  | n, [] => n
  | n, c :: l => if c = 10 then width n l else if c = 9 then width (8 * ((n + 7) / 8) + 1) l else width (n + 1) l

/-- Nothing before the element in its line. -/
def starts (x : Nat) : Bool :=
  match (d.before x).getLast? with
  | none => true
  | some y => d.name y = "indent"

/-- The indent of the line of an element. -/
def lineIndent (x : Nat) : Nat :=
  match (d.before x).reverse.find? (fun y => d.name y = "indent") with
  | none => 0
  | some y => width 0 (d.tok y).content

/-- Definitions inside of `c` start lines and have the right indent: no indent in the file, 4 more places than the line of a structure.
Checking stops at the first wrong indent. -/
def indentsOf (c : Tree) : List Line :=
  let expected := if d.name c.id = "cDataGrammar" then 0 else d.lineIndent c.id + 4
  let items := topParts (fun x => d.name x ∈ ["var-def", "type-def"]) c
  let good := fun t : Tree => !d.starts t.id || d.lineIndent t.id == expected
  (((items.takeWhile good).filter fun t => !d.starts t.id).flatMap fun t => (d.first t).map fun k => about k "must be on a separate line") ++
    ((items.dropWhile good).head?.toList).flatMap fun t => (d.first t).map fun k => about k "incorrect indent"

/-- Indents. -/
def indents : List Line := (d.namedParts ["cDataGrammar", "struct-type"]).flatMap d.indentsOf

/-- The last ones of siblings and those followed by an indent. -/
def enders : List Nat → List Nat
  | [] => []
  | [x] => [x]
  | x :: y :: l => (if d.name y = "indent" then [x] else []) ++ enders (y :: l)

/-- Elements at the end of a line. -/
def lineEnds : List Nat := (parts d.root).flatMap fun t => d.enders (t.kids.map Tree.id)

/-- There are no spaces at the end of a line. A wrong indent is a line of spaces, it is reported at the beginning of the line. -/
def trailing : List Line :=
  (((d.named ["space"]).filter fun x => x ∈ d.lineEnds).map fun x => about (d.tok x) "trailing spaces are not allowed") ++
  (((d.named ["indent"]).filter fun x => (d.tok x).content ≠ [10] ∧ x ∈ d.lineEnds).map fun x =>
    ((d.tok x).pos.lineCol.1 + 1, 1, "trailing spaces are not allowed", []))

/-- There are no tabs. -/
def tabs : List Line := ((d.named ["indent", "space"]).filter fun x => 9 ∈ (d.tok x).content).map fun x => about (d.tok x) "no tabs allowed"

/-- All that is wrong, in the order of checks. -/
def wrong : List Line :=
  d.finalNewline ++ d.oneSpace ++ d.opSpaces ++ d.columns ++ d.literals ++ d.indents ++ d.trailing ++ d.tabs

end Doc

/-- The report: sorted by places, for every place the last of messages. -/
structure Report (all : List Line) (out : List Line) : Prop where
  sorted : out.Pairwise fun a b => a.1 < b.1 ∨ a.1 = b.1 ∧ a.2.1 < b.2.1
  last : ∀ l c m, (l, c, m) ∈ out ↔ ∃ a b, all = a ++ (l, c, m) :: b ∧ ∀ x ∈ b, ¬ (x.1 = l ∧ x.2.1 = c)

end Verif.Spec.Style
