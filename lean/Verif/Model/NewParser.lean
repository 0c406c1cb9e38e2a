/-
Model of lexers made by `parser.New` (`/repo/parser/parser.go` lines 46-110).

A regular expression of a token type is a parameter: a function from a text to the length of its match at the beginning
of the text, `none` if there is no match. `regexp.Compile` is a parameter giving this function for an expression.
Expressions have no capturing groups of their own (as required by `/repo/langdef/docs.go` lines 95-98) and are valid on
their own (checked by `/repo/langdef/parser.go` lines 722-727), so a joined expression has exactly one group per type.
Names of types are kept as bytes decoded from UTF-8 one by one: the lexer only copies them.
-/
import Verif.Model.Pipeline

namespace Verif.Model

/-- A compiled expression of one token type: length of the match at the beginning of a text. -/
abbrev Matcher := List Nat → Option Nat

/-- A type name as a string, one character per byte. -/
def nameString (s : List Nat) : String := String.ofList (s.map Char.ofNat)

/-- Number and length of the first alternative that matches: meaning of `A|B|C` in package `regexp`. -/
def firstAlternative : List Matcher → List Nat → Nat → Option (Nat × Nat)
  | [], _, _ => none
  | m :: ms, text, k =>
    match m text with
    | some n => some (k, n)
    | none => firstAlternative ms text (k + 1)

/-- `FindSubmatchIndex` for `^(?s:(A)|(B)|(C))` (`/repo/parser/parser.go` lines 93, 100): the group of the matched
alternative is the whole match, other groups are not captured. Without alternatives the expression `^(?s:)` matches an
empty text. -/
def joinedRegexp (ms : List Matcher) : Regexp := fun text =>
  if ms = [] then some [(0, 0)] else
    match firstAlternative ms text 0 with
    | none => none
    | some (k, n) => some ((0, (n : Int)) :: (List.range ms.length).map fun j => if j = k then (0, (n : Int)) else (-1, -1))

/-- `/repo/parser/parser.go` lines 52-60: the greatest group of types that are not literals. -/
def maxGroup (ts : List GToken) : Nat :=
  ts.foldl (fun m t => if t.flags.literal then m else if t.group > m then t.group else m) 0

/-- `/repo/parser/parser.go` lines 62-66, type `lexerRec`. -/
structure LexerRec where
  patterns : List (List Nat) := []
  types : List TokenType := []
deriving Repr, DecidableEq, Inhabited

/-- `/repo/parser/parser.go` lines 77-94: the loop over token types, part about expressions; `none` is a panic. -/
def lexerRecs : List GToken → Nat → List LexerRec → Option (List LexerRec)
  | [], _, lrs => some lrs
  | t :: ts, i, lrs =>
    match t.re with
    | none => lexerRecs ts (i + 1) lrs
    | some re =>
      (Go.index lrs (t.group : Int)).bind fun lr =>
        (Go.setIndex lrs (t.group : Int) ⟨lr.patterns ++ [re], lr.types ++ [⟨i, nameString t.name⟩]⟩).bind fun lrs =>
          lexerRecs ts (i + 1) lrs

/-- `/repo/parser/parser.go` lines 96-105: the loop making lexers; `none` is a broken expression. -/
def makeLexers (re : List Nat → Option Matcher) : List LexerRec → Option (List Lexer)
  | [] => some []
  | lr :: lrs =>
    (lr.patterns.mapM re).bind fun ms =>
      (makeLexers re lrs).bind fun ls =>
        some (Lexer.new (joinedRegexp ms) lr.types :: ls)

/-- `/repo/parser/parser.go` lines 46-105: lexers of the parser; the first `none` is a panic, the second one is an error
of `regexp.Compile`. -/
def newLexers (re : List Nat → Option Matcher) (ts : List GToken) : Option (Option (List Lexer)) :=
  (lexerRecs ts 0 (List.replicate (maxGroup ts + 1) {})).map (makeLexers re)

end Verif.Model
