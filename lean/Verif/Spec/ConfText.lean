/-
Configuration files as texts: lines and what they state. Independent of the model of the editor and of grammars.
-/
import Verif.Spec.Conf

namespace Verif.Spec.Conf

/-- What a line states. -/
inductive Line
  | blank
  | comment
  | entry (name value : Bytes)
  | header (name : Bytes)
deriving DecidableEq

/-- Spaces and tabs, there may be none. -/
def Spaces (a : Bytes) : Prop := ∀ c ∈ a, c = 32 ∨ c = 9

/-- A letter or an underscore. -/
def Letter (c : Nat) : Prop := 65 ≤ c ∧ c ≤ 90 ∨ 97 ≤ c ∧ c ≤ 122 ∨ c = 95

/-- A digit. -/
def Digit (c : Nat) : Prop := 48 ≤ c ∧ c ≤ 57

/-- A letter, then letters and digits. -/
def Word (w : Bytes) : Prop := ∃ c s, w = c :: s ∧ Letter c ∧ ∀ d ∈ s, Letter d ∨ Digit d

/-- Words with signs between them. -/
inductive Name (signs : List Nat) : Bytes → Prop
  | word {w : Bytes} : Word w → Name signs w
  | join {w n : Bytes} {c : Nat} : Word w → c ∈ signs → Name signs n → Name signs (w ++ c :: n)

/-- A comment up to the end of the line. -/
def CommentText (e : Bytes) : Prop := ∃ c, 10 ∉ c ∧ e = 35 :: (c ++ [10])

/-- A value: something visible, then anything up to the end of the line or a comment. -/
def ValueText (v : Bytes) : Prop := ∃ c s, v = c :: s ∧ c ∉ [9, 10, 12, 13, 32, 35] ∧ ∀ d ∈ s, d ≠ 10 ∧ d ≠ 35

/-- Texts of lines. -/
inductive LineText : Line → Bytes → Prop
  | blank {a : Bytes} : Spaces a → LineText .blank (a ++ [10])
  | comment {a e : Bytes} : Spaces a → CommentText e → LineText .comment (a ++ e)
  /-- `name = value` -/
  | entry {a n b d v e : Bytes} : Spaces a → Name [45] n → Spaces b → Spaces d → ValueText v → e = [10] ∨ CommentText e →
      LineText (.entry n v) (a ++ (n ++ (b ++ 61 :: (d ++ (v ++ e)))))
  /-- `name =`; there must be no comment here -/
  | unset {a n b d : Bytes} : Spaces a → Name [45] n → Spaces b → Spaces d → LineText (.entry n []) (a ++ (n ++ (b ++ 61 :: (d ++ [10]))))
  /-- `[name]`; there must be no comment here -/
  | header {a b n d e : Bytes} : Spaces a → Spaces b → Name [46, 45] n → Spaces d → Spaces e →
      LineText (.header n) (a ++ 91 :: (b ++ (n ++ (d ++ 93 :: (e ++ [10])))))

/-- Texts of files. -/
inductive FileText : List Line → Bytes → Prop
  | nil : FileText [] []
  | cons {x : Line} {l : List Line} {s t : Bytes} : LineText x s → FileText l t → FileText (x :: l) (s ++ t)

/-- Texts of files where lines with entries have no comments. -/
inductive PlainText : List Line → Bytes → Prop
  | nil : PlainText [] []
  | cons {x : Line} {l : List Line} {s t : Bytes} : LineText x s → (∀ n v, x = .entry n v → 35 ∉ s) → PlainText l t → PlainText (x :: l) (s ++ t)

/-- A value that can be written. -/
def GoodValue (v : Bytes) : Prop := ValueText v ∧ 13 ∉ v

/-- Spaces at the end are trimmed. -/
def TrimsSpaces (trim : Bytes → Bytes) : Prop := ∀ x a, Spaces a → trim (x ++ a) = trim x

/-- Entries stated by lines with names of sections; `s` is the current section. -/
def entriesOf (trim : Bytes → Bytes) (s : Bytes) : List Line → List (Bytes × Bytes × Bytes)
  | [] => []
  | .entry n v :: l => (s, n, if v = [] then [] else trim v) :: entriesOf trim s l
  | .header n :: l => entriesOf trim n l
  | .blank :: l => entriesOf trim s l
  | .comment :: l => entriesOf trim s l

/-- Sections with names. -/
def headersOf (l : List Line) : List Bytes := l.filterMap fun x => match x with | .header n => some n | _ => none

/-- There is a blank line or an entry before all headers. -/
def hasDefault : List Line → Bool
  | [] => false
  | .comment :: l => hasDefault l
  | .header _ :: _ => false
  | .blank :: _ => true
  | .entry _ _ :: _ => true

/-- All sections: the default one has an empty name. -/
def sectionsOf (l : List Line) : List Bytes := (if hasDefault l then [[]] else []) ++ headersOf l

/-- The value stated by lines: the last one is in force. -/
def statedBy (trim : Bytes → Bytes) (l : List Line) (s e : Bytes) : Option Bytes :=
  ((entriesOf trim [] l).reverse.find? fun x => x.1 = s ∧ x.2.1 = e).map (·.2.2)

end Verif.Spec.Conf
