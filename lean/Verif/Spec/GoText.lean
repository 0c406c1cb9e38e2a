/-
Lexical and syntactic rules of Go (The Go Programming Language Specification) for files that declare one variable with a
composite literal; and the literal that denotes a grammar.

Only what can appear in such files is accepted: words, decimal numbers, interpreted strings, line comments and one-byte
operators `{ } [ ] , = & . : -`.
-/
import Verif.Model.LangParse
import Verif.Spec.Text

namespace Verif.Spec.GoText

open Verif.Model Verif.Model.LangDef

/-- Tokens. -/
inductive Tok
  | word (s : List Nat)
  | num (n : Nat)
  | str (s : List Nat)
  | op (b : Nat)
  /-- a semicolon inserted at the end of a line -/
  | semi
deriving DecidableEq

/-- What an escape sequence in a string denotes. -/
inductive EscKind
  | byte
  | rune
deriving DecidableEq

/-- State of lexical analysis: what has been read of the current token. -/
inductive St
  /-- between tokens; is a semicolon inserted at the end of the line -/
  | start (semi : Bool)
  | word (s : List Nat)
  | num (n : Nat)
  /-- an operator that could be a part of a longer one -/
  | op (b : Nat)
  /-- after a slash -/
  | slash (semi : Bool)
  | comment (semi : Bool)
  /-- inside a string -/
  | str (s : List Nat)
  /-- after a backslash -/
  | esc (s : List Nat)
  /-- `left` digits are to be read, the value so far is `n` -/
  | hex (s : List Nat) (kind : EscKind) (left n : Nat)
deriving DecidableEq

def isLetter (b : Nat) : Bool := (97 ≤ b ∧ b ≤ 122) ∨ (65 ≤ b ∧ b ≤ 90) ∨ b = 95

def isDigit (b : Nat) : Bool := 48 ≤ b ∧ b ≤ 57

/-- Operators that cannot be continued. -/
def plainOps : List Nat := bytesOf "{}[],"

/-- Operators that are parts of longer ones. -/
def longOps : List Nat := bytesOf "=&.:-"

/-- The first byte after a token. -/
def fresh (semi : Bool) (b : Nat) : Option (List Tok × St) :=
  if b = 32 ∨ b = 9 ∨ b = 13 then some ([], .start semi)
  else if b = 10 then some (if semi then [.semi] else [], .start false)
  else if b = 47 then some ([], .slash semi)
  else if isLetter b then some ([], .word [b])
  else if isDigit b then some ([], .num (b - 48))
  else if b = 34 then some ([], .str [])
  /- a closing bracket ends a statement -/
  else if b ∈ plainOps then some ([.op b], .start (b = 93 ∨ b = 125))
  else if b ∈ longOps then some ([], .op b)
  else none

/-- A token has ended before byte `b`. -/
def after (t : Tok) (semi : Bool) (b : Nat) : Option (List Tok × St) := (fresh semi b).map fun r => (t :: r.1, r.2)

/-- One-letter escapes. -/
def escapes : List (Nat × Nat) := [(97, 7), (98, 8), (102, 12), (110, 10), (114, 13), (116, 9), (118, 11), (92, 92), (34, 34)]

/-- Escapes with digits: letter, kind and number of digits. -/
def hexEscapes : List (Nat × EscKind × Nat) := [(120, .byte, 2), (117, .rune, 4), (85, .rune, 8)]

def hexValue (b : Nat) : Option Nat :=
  if isDigit b then some (b - 48) else if 97 ≤ b ∧ b ≤ 102 then some (b - 87) else if 65 ≤ b ∧ b ≤ 70 then some (b - 55) else none

/-- Words that end a statement: keywords other than these do not (`break`, `continue`, `fallthrough` and `return` are not used). -/
def keywords : List (List Nat) := ["break", "default", "func", "interface", "select", "case", "defer", "go", "map", "struct", "chan", "else",
  "goto", "package", "switch", "const", "fallthrough", "if", "range", "type", "continue", "for", "import", "return", "var"].map bytesOf

instance : DecidablePred Text.IsScalar := fun r => inferInstanceAs (Decidable (_ ∨ _))

/-- One byte. -/
def step : St → Nat → Option (List Tok × St)
  | .start semi, b => fresh semi b
  | .word s, b => if isLetter b ∨ isDigit b then some ([], .word (s ++ [b])) else after (.word s) (s ∉ keywords) b
  /- a leading zero means another base -/
  | .num n, b => if isDigit b then (if n = 0 then none else some ([], .num (n * 10 + (b - 48)))) else if isLetter b ∨ b = 46 then none
    else after (.num n) true b
  | .op o, b => if b ∈ longOps ∨ isDigit b ∧ o = 46 then none else after (.op o) false b
  | .slash semi, b => if b = 47 then some ([], .comment semi) else none
  | .comment semi, b => if b = 10 then fresh semi 10 else some ([], .comment semi)
  | .str s, b =>
    if b = 34 then some ([.str s], .start true)
    else if b = 92 then some ([], .esc s)
    else if b = 10 ∨ b = 0 then none
    else some ([], .str (s ++ [b]))
  | .esc s, b =>
    match escapes.lookup b, hexEscapes.lookup b with
    | some c, _ => some ([], .str (s ++ [c]))
    | none, some (kind, n) => some ([], .hex s kind n 0)
    | none, none => none
  | .hex s kind left n, b =>
    (hexValue b).bind fun d =>
      let n := n * 16 + d
      if left ≤ 1 then
        match kind with
        | .byte => some ([], .str (s ++ [n]))
        | .rune => if Text.IsScalar n then some ([], .str (s ++ Text.encodeRune n)) else none
      else some ([], .hex s kind (left - 1) n)

/-- Several bytes. -/
def run : St → List Nat → Option (List Tok × St)
  | st, [] => some ([], st)
  | st, b :: t => (step st b).bind fun r => (run r.2 t).map fun r' => (r.1 ++ r'.1, r'.2)

/-- Tokens of a file; a file must end with a line feed. -/
def lex (text : List Nat) : Option (List Tok) :=
  (run (.start false) text).bind fun r =>
    match r.2 with
    | .start false => some r.1
    | _ => none

/-! Syntax -/

/-- Types. -/
inductive GoType
  | name (n : List Nat)
  | qualified (pkg n : List Nat)
  | slice (t : GoType)

/-- An identifier. -/
def ident (n : List Nat) : Tok := .word n

def GoType.toks : GoType → List Tok
  | .name n => [ident n]
  | .qualified p n => [ident p, .op 46, ident n]
  | .slice t => [.op 91, .op 93] ++ t.toks

/-- Expressions; fields of `struct` have names, the type of a nested composite literal can be omitted. -/
inductive GoExpr
  | str (s : List Nat)
  | int (n : Int)
  | lit (type : Option GoType) (items : List (Option (List Nat) × GoExpr))

/-- Tokens before an item. -/
def keyToks : Option (List Nat) → List Tok
  | none => []
  | some n => [ident n, .op 58]

def typeToks : Option GoType → List Tok
  | none => []
  | some t => t.toks

mutual

/-- Tokens are an expression. -/
inductive IsExpr : GoExpr → List Tok → Prop
  | str (s : List Nat) : IsExpr (.str s) [.str s]
  | nat (n : Nat) : IsExpr (.int n) [.num n]
  | neg (n : Nat) : IsExpr (.int (-n)) [.op 45, .num n]
  | lit {t : Option GoType} {items : List (Option (List Nat) × GoExpr)} {ts : List Tok} : IsItems items ts →
    IsExpr (.lit t items) (typeToks t ++ [.op 123] ++ ts ++ [.op 125])

/-- Tokens are items of a composite literal; a comma after the last one is allowed. -/
inductive IsItems : List (Option (List Nat) × GoExpr) → List Tok → Prop
  | nil : IsItems [] []
  | last {k : Option (List Nat)} {e : GoExpr} {ts : List Tok} : IsExpr e ts → IsItems [(k, e)] (keyToks k ++ ts)
  | cons {k : Option (List Nat)} {e : GoExpr} {items : List (Option (List Nat) × GoExpr)} {ts us : List Tok} : IsExpr e ts → IsItems items us →
    IsItems ((k, e) :: items) (keyToks k ++ ts ++ [.op 44] ++ us)

end

/-- The path of the imported package. -/
def importPath : List Nat := bytesOf "github.com/ava12/llx/grammar"

/-- Names that a package or a variable can have in a file importing `grammar`. -/
structure GoodNames (pkg var : List Nat) : Prop where
  keywords : pkg ∉ keywords ∧ var ∉ keywords
  blank : pkg ≠ bytesOf "_" ∧ var ≠ bytesOf "_"
  /-- the name of the imported package is in the scope of the file -/
  imported : var ≠ bytesOf "grammar"
  /-- `init` must be a function -/
  init : var ≠ bytesOf "init"
  /-- so must be `main` in package `main` -/
  main : ¬ (pkg = bytesOf "main" ∧ var = bytesOf "main")

/-- Tokens are a file of package `pkg` where variable `var` is declared as a pointer to `e`. -/
def IsFile (pkg var : List Nat) (e : GoExpr) (ts : List Tok) : Prop :=
  GoodNames pkg var ∧ ∃ us, IsExpr e us ∧
    ts = [.word (bytesOf "package"), ident pkg, .semi, .word (bytesOf "import"), .str importPath, .semi,
      .word (bytesOf "var"), ident var, .op 61, .op 38] ++ us ++ [.semi]

/-! The literal of a grammar -/

/-- `[]grammar.…{…}`. -/
def sliceOf (type : String) (items : List GoExpr) : GoExpr :=
  .lit (some (.slice (.qualified (bytesOf "grammar") (bytesOf type)))) (items.map fun e => (none, e))

/-- Values of fields. -/
def struct (fields : List (String × GoExpr)) : GoExpr := .lit none (fields.map fun f => (some (bytesOf f.1), f.2))

/-- Values of all fields in order. -/
def tuple (fields : List Int) : GoExpr := .lit none (fields.map fun n => (none, .int n))

/-- The number of a set of flags. -/
def flagBits (f : TokenFlags) : Nat :=
  ([f.literal, f.external, f.side, f.error, f.caseless, f.reserved, f.noLiterals].foldr (fun b n => 2 * n + b.toNat) 0)

def tokenExpr (t : GToken) : GoExpr :=
  struct [("Name", .str t.name), ("Re", .str (t.re.getD [])), ("Group", .int t.group), ("Flags", .int (flagBits t.flags))]

def commandExpr (c : LayerCommand) : GoExpr :=
  struct (("Command", .str c.command) :: (if c.arguments = [] then [] else
    [("Arguments", .lit (some (.slice (.name (bytesOf "string")))) (c.arguments.map fun a => (none, .str a)))]))

def layerExpr (l : LayerDef) : GoExpr :=
  struct (("Type", .str l.type) :: (if l.commands = [] then [] else [("Commands", sliceOf "LayerCommand" (l.commands.map commandExpr))]))

/-- The value of a grammar; nodes are given by names and first states. -/
def grammarExpr (p : Parsed) : GoExpr :=
  .lit (some (.qualified (bytesOf "grammar") (bytesOf "Grammar"))) <|
    [(some (bytesOf "Tokens"), sliceOf "Token" (p.grammar.tokens.map tokenExpr))] ++
    (if p.layers = [] then [] else [(some (bytesOf "Layers"), sliceOf "Layer" (p.layers.map layerExpr))]) ++
    [(some (bytesOf "Nodes"), sliceOf "Node" ((p.names.zip p.grammar.firsts).map fun n => struct [("Name", .str n.1), ("FirstState", .int n.2)])),
    (some (bytesOf "States"), sliceOf "State" (p.grammar.tables.states.map fun s =>
      tuple [s.types.toNat, s.lowMulti, s.highMulti, s.lowRule, s.highRule])),
    (some (bytesOf "MultiRules"), sliceOf "MultiRule" (p.grammar.tables.multi.map fun m => tuple [m.token, m.lowRule, m.highRule])),
    (some (bytesOf "Rules"), sliceOf "Rule" (p.grammar.tables.rules.map fun r => tuple [r.token, r.state, r.node]))]

end Verif.Spec.GoText
