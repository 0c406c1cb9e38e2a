/-
Specification of configuration files and of their edits. Independent of the model.

A document is a list of items: side tokens and sections; a section is a list of parts: side tokens, entries, headers and separators;
a part is a list of tokens.
-/
import Mathlib.Data.List.Basic
import Verif.Spec.Trees

namespace Verif.Spec.Conf

/-- Text. -/
abbrev Bytes := List Nat

/-- A token. -/
structure Tok where
  type : String
  text : Bytes
deriving DecidableEq

/-- A part of a section. -/
inductive Part
  | token (t : Tok)
  | node (type : String) (toks : List Tok)
deriving DecidableEq

/-- A part of a document. -/
inductive Item
  | token (t : Tok)
  | node (type : String) (parts : List Part)
deriving DecidableEq

/-- A document. -/
abbrev Doc := List Item

/-- All tokens. -/
def Part.toks : Part → List Tok
  | .token t => [t]
  | .node _ l => l

/-- All tokens. -/
def Item.toks : Item → List Tok
  | .token t => [t]
  | .node _ l => l.flatMap Part.toks

/-- The text of a document: nothing but its tokens. -/
def Doc.text (d : Doc) : Bytes := (d.flatMap Item.toks).flatMap Tok.text

/-- Text of the first token of the type. -/
def firstText (ty : String) (l : List Tok) : Option Bytes := (l.find? (·.type = ty)).map Tok.text

/-- The name of a section: empty for the default one. -/
def Item.name : Item → Option Bytes
  | .token _ => none
  | .node ty ps => if ty = "def-section" then some [] else firstText "sec-name" (ps.flatMap Part.toks)

/-- The name of an entry. -/
def Part.key : Part → Option Bytes
  | .token _ => none
  | .node ty l => if ty = "entry" then firstText "name" l else none

/-- The value of an entry: nothing or the trimmed text. -/
def Part.value (trim : Bytes → Bytes) (p : Part) : Bytes := ((firstText "value" p.toks).map trim).getD []

/-- Entries of a section: names of the section and of the entry, value. -/
def Item.entries (trim : Bytes → Bytes) : Item → List (Bytes × Bytes × Bytes)
  | .token _ => []
  | .node ty ps => ps.filterMap fun p => match (Item.node ty ps).name, p.key with
    | some s, some e => some (s, e, p.value trim)
    | _, _ => none

/-- All entries. -/
def Doc.entries (trim : Bytes → Bytes) (d : Doc) : List (Bytes × Bytes × Bytes) := d.flatMap (Item.entries trim)

/-- The value of an entry in the document: the last one is in force. -/
def Doc.lookup (trim : Bytes → Bytes) (d : Doc) (s e : Bytes) : Option Bytes :=
  ((d.entries trim).reverse.find? fun x => x.1 = s ∧ x.2.1 = e).map (·.2.2)

/-- The document has a section with the name. -/
def Doc.Has (d : Doc) (s : Bytes) : Prop := ∃ it ∈ d, it.name = some s

/-- Tokens of an entry: a name, an operator somewhere after it, one value at most. -/
def GoodEntry (l : List Tok) : Prop :=
  ∃ nm rest, l = ⟨"name", nm⟩ :: rest ∧ (∃ t ∈ rest, t.type = "op") ∧ (rest.filter (·.type = "value")).length ≤ 1

/-- Parts of a section: only a header contains the name of the section. -/
def Part.Good : Part → Prop
  | .token t => t.type ≠ "sec-name" ∧ t.type ≠ "sep" ∧ t.type ≠ "entry"
  | .node ty l => ty = "header" ∨ (ty = "sep" ∨ ty = "entry" ∧ GoodEntry l) ∧ ∀ t ∈ l, t.type ≠ "sec-name"

/-- A side token or a section, a named section contains its name. -/
def Item.Good : Item → Prop
  | .token t => t.type ≠ "def-section"
  | .node ty ps => (ty = "def-section" ∨ ty = "section" ∧ ∃ t ∈ ps.flatMap Part.toks, t.type = "sec-name") ∧ ∀ p ∈ ps, p.Good

/-- What documents look like. -/
def Doc.Good (d : Doc) : Prop := ∀ it ∈ d, it.Good

/-- No entry is repeated. -/
def Doc.Distinct (d : Doc) : Prop := ((d.entries id).map fun x => (x.1, x.2.1)).Nodup

/-- No section is repeated. -/
def Doc.Separate (d : Doc) : Prop := (d.filterMap Item.name).Nodup

/-! Documents in forests -/

/-- What is written on an element. -/
structure Label where
  isNode : Bool
  tok : Tok

/-- The element as a part. -/
def partAt (lab : Nat → Label) (F : Trees.Forest) (x : Nat) : Part :=
  if (lab x).isNode then .node (lab x).tok.type ((F x).map fun y => (lab y).tok) else .token (lab x).tok

/-- The element as an item. -/
def itemAt (lab : Nat → Label) (F : Trees.Forest) (x : Nat) : Item :=
  if (lab x).isNode then .node (lab x).tok.type ((F x).map (partAt lab F)) else .token (lab x).tok

/-- The element as a document. -/
def docAt (lab : Nat → Label) (F : Trees.Forest) (x : Nat) : Doc := (F x).map (itemAt lab F)

/-! Edits -/

/-- A new entry. -/
def entryPart (e v : Bytes) : Part :=
  .node "entry" ([⟨"name", e⟩, ⟨"op", [61]⟩] ++ (if v = [] then [] else [⟨"value", v⟩]) ++ [⟨"nl", [10]⟩])

/-- A new header. -/
def headerPart (s : Bytes) : Part := .node "header" [⟨"op", [91]⟩, ⟨"sec-name", s⟩, ⟨"op", [93]⟩, ⟨"nl", [10]⟩]

/-- A separator. -/
def sepPart : Part := .node "sep" [⟨"nl", [10]⟩]

/-- A separator node. -/
def Part.isSep : Part → Bool
  | .node ty _ => ty == "sep"
  | .token _ => false

/-- A node, not a separator. -/
def Part.isSolid : Part → Bool
  | .node ty _ => ty != "sep"
  | .token _ => false

/-- A node. -/
def Item.isNode : Item → Bool
  | .node _ _ => true
  | .token _ => false

/-- The section is closed with a separator. -/
def Item.close : Item → Item
  | .token t => .token t
  | .node ty ps => if ps.getLast?.any Part.isSep then .node ty ps else .node ty (ps ++ [sepPart])

/-- The last separator of a section is dropped. -/
def Item.unclose : Item → Item
  | .token t => .token t
  | .node ty ps => if ps.getLast?.any Part.isSep then .node ty ps.dropLast else .node ty ps

/-- The last item is changed. -/
def mapLast (f : Item → Item) : Doc → Doc
  | [] => []
  | [x] => [f x]
  | x :: y :: l => x :: mapLast f (y :: l)

/-- New tokens of an entry that gets a value. -/
inductive Assigns (v : Bytes) : List Tok → List Tok → Prop
  | replace (u w : List Tok) (old : Bytes) : v ≠ [] → Assigns v (u ++ ⟨"value", old⟩ :: w) (u ++ ⟨"value", v⟩ :: w)
  | clear (u w : List Tok) (old : Bytes) : v = [] → Assigns v (u ++ ⟨"value", old⟩ :: w) (u ++ w)
  | fill (n : Tok) (u w : List Tok) (o : Bytes) : v ≠ [] → (∀ t ∈ n :: u ++ w, t.type ≠ "value") → (∀ t ∈ u, t.type ≠ "op") →
      Assigns v (n :: u ++ ⟨"op", o⟩ :: w) (n :: u ++ ⟨"op", o⟩ :: ⟨"value", v⟩ :: w)

/-- An entry gets a value: nothing changes if it has this value already; the value is replaced in its entry; a new entry is added after
the last one; a new section is added: the default one before all sections, any other one after all sections. -/
inductive Sets (trim : Bytes → Bytes) (s e v : Bytes) : Doc → Doc → Prop
  | keep (d : Doc) : d.lookup trim s e = some (trim v) → Sets trim s e v d d
  | change (a b : Doc) (ty : String) (p q : List Part) (l l' : List Tok) : (Item.node ty (p ++ .node "entry" l :: q)).name = some s →
      firstText "name" l = some e → Assigns v l l' →
      Sets trim s e v (a ++ .node ty (p ++ .node "entry" l :: q) :: b) (a ++ .node ty (p ++ .node "entry" l' :: q) :: b)
  | add (a b : Doc) (ty : String) (p q : List Part) : (Item.node ty (p ++ q)).name = some s → p.getLast?.all Part.isSolid → q.all (!·.isSolid) →
      (a ++ Item.node ty (p ++ q) :: b).lookup trim s e = none →
      Sets trim s e v (a ++ .node ty (p ++ q) :: b) (a ++ .node ty (p ++ entryPart e v :: q) :: b)
  | named (d : Doc) : ¬ d.Has s → s ≠ [] → Sets trim s e v d (mapLast Item.close d ++ [.node "section" [headerPart s, entryPart e v]])
  | default (d : Doc) : ¬ d.Has s → s = [] → d.all (!·.isNode) → Sets trim s e v d (d ++ [.node "def-section" [entryPart e v]])
  | first (a b : Doc) (it : Item) : ¬ (a ++ it :: b).Has s → s = [] → a.all (!·.isNode) → it.isNode →
      Sets trim s e v (a ++ it :: b) (a ++ .node "def-section" [entryPart e v, sepPart] :: it :: b)

/-- A new section: the items before it, its type and parts, the items after it. -/
inductive Opened (s : Bytes) : Doc → Doc → String → List Part → Doc → Prop
  | named (d : Doc) : s ≠ [] → Opened s d (mapLast Item.close d) "section" [headerPart s] []
  | default (d : Doc) : s = [] → d.all (!·.isNode) → Opened s d d "def-section" [] []
  | first (a b : Doc) (it : Item) : s = [] → a.all (!·.isNode) → it.isNode → Opened s (a ++ it :: b) a "def-section" [sepPart] (it :: b)

/-- An empty section is added. -/
inductive Opens (s : Bytes) : Doc → Doc → Prop
  | keep (d : Doc) : d.Has s → Opens s d d
  | add {d A B : Doc} {ty : String} {ps : List Part} : ¬ d.Has s → Opened s d A ty ps B → Opens s d (A ++ .node ty ps :: B)

/-- An entry is removed. -/
inductive Removes (trim : Bytes → Bytes) (s e : Bytes) : Doc → Doc → Prop
  | keep (d : Doc) : d.lookup trim s e = none → Removes trim s e d d
  | drop (a b : Doc) (ty : String) (p q : List Part) (x : Part) : (Item.node ty (p ++ x :: q)).name = some s → x.key = some e →
      Removes trim s e (a ++ .node ty (p ++ x :: q) :: b) (a ++ .node ty (p ++ q) :: b)

/-- A section is removed together with the separator before it. -/
inductive Drops (s : Bytes) : Doc → Doc → Prop
  | keep (d : Doc) : ¬ d.Has s → Drops s d d
  | drop (a b : Doc) (it : Item) : it.name = some s → a.getLast?.all Item.isNode → Drops s (a ++ it :: b) (mapLast Item.unclose a ++ b)

/-- Edits. -/
inductive Edit
  | set (s e v : Bytes)
  | remove (s e : Bytes)
  | removeSection (s : Bytes)
  | addSection (s : Bytes)

/-- One edit of a document. -/
def Edit.Does (trim : Bytes → Bytes) : Edit → Doc → Doc → Prop
  | .set s e v => Sets trim s e v
  | .remove s e => Removes trim s e
  | .removeSection s => Drops s
  | .addSection s => Opens s

/-- Edits that break the program: a named section is added after a section without parts; a section goes after a side token. -/
def Edit.Breaks (d : Doc) : Edit → Prop
  | .set s _ _ => s ≠ [] ∧ ¬ d.Has s ∧ ∃ a ty, d = a ++ [.node ty []]
  | .remove _ _ => False
  | .removeSection s => ∃ a b t it, d = a ++ .token t :: it :: b ∧ it.name = some s
  | .addSection s => s ≠ [] ∧ ¬ d.Has s ∧ ∃ a ty, d = a ++ [.node ty []]

/-- Edits one after another, none of them breaks the program. -/
inductive Edits (trim : Bytes → Bytes) : Doc → List Edit → Doc → Prop
  | nil (d : Doc) : Edits trim d [] d
  | cons {d d' d'' : Doc} {x : Edit} {l : List Edit} : ¬ x.Breaks d → x.Does trim d d' → Edits trim d' l d'' → Edits trim d (x :: l) d''

/-- What an edit means. -/
def Edit.apply (trim : Bytes → Bytes) (f : Bytes → Bytes → Option Bytes) : Edit → Bytes → Bytes → Option Bytes
  | .set s e v => fun s' e' => if s' = s ∧ e' = e then some (trim v) else f s' e'
  | .remove s e => fun s' e' => if s' = s ∧ e' = e then none else f s' e'
  | .removeSection s => fun s' e' => if s' = s then none else f s' e'
  | .addSection _ => f

/-! Commands -/

/-- What is known about trimming. -/
def Trims (trim : Bytes → Bytes) : Prop := trim [] = [] ∧ ∀ x, trim (trim x) = trim x

/-- The name of an entry: the name of a section is everything before the last dot. -/
inductive Names : Bytes → Bytes → Bytes → Prop
  | plain (e : Bytes) : 46 ∉ e → Names e [] e
  | full (s e : Bytes) : 46 ∉ e → Names (s ++ 46 :: e) s e

/-- An assignment: the value is everything after the first equals sign. -/
inductive Assignment : Bytes → Bytes → Bytes → Prop
  | empty (n : Bytes) : 61 ∉ n → Assignment n n []
  | full (n v : Bytes) : 61 ∉ n → Assignment (n ++ 61 :: v) n v

/-- Commands given to the program. -/
structure Commands where
  removeSections : List Bytes
  addSections : List Bytes
  removeValues : List Bytes
  setValues : List Bytes

/-- Edits for all commands, in order. -/
def Commands.Mean (trim : Bytes → Bytes) (k : Commands) (es : List Edit) : Prop :=
  ∃ rs ss, List.Forall₂ (fun c x => ∃ s e, Names c s e ∧ x = .remove s e) k.removeValues rs ∧
    List.Forall₂ (fun c x => ∃ n v s e, Assignment c n v ∧ Names n s e ∧ x = .set s e (trim v)) k.setValues ss ∧
    es = k.removeSections.map .removeSection ++ k.addSections.map .addSection ++ rs ++ ss

end Verif.Spec.Conf
