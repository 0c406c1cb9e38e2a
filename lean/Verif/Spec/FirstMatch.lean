/-
Which token is fetched at a place of a text, in terms of token types of a grammar: groups in order, types of a group in
order of definition.
-/
import Verif.Model.NewParser

namespace Verif.Spec

open Verif.Model

/-- Type `i` is read by the lexer of group `k`. -/
def InGroup (ts : List GToken) (k i : Nat) : Prop := ∃ t r, ts[i]? = some t ∧ t.re = some r ∧ t.group = k

/-- The expression of type `i` matches `n` bytes at the beginning of the text. -/
def TypeMatches (re : List Nat → Option Matcher) (ts : List GToken) (i : Nat) (text : List Nat) (n : Nat) : Prop :=
  ∃ t r m, ts[i]? = some t ∧ t.re = some r ∧ re r = some m ∧ m text = some n

/-- Type `i` is the first type of group `k` whose expression matches, and it matches `n` bytes. -/
def FirstOf (re : List Nat → Option Matcher) (ts : List GToken) (k : Nat) (text : List Nat) (i n : Nat) : Prop :=
  InGroup ts k i ∧ TypeMatches re ts i text n ∧ ∀ j, j < i → InGroup ts k j → ∀ n', ¬ TypeMatches re ts j text n'

/-- Group `k` gives a token of requested type `i`, `n` bytes long. -/
def Gives (re : List Nat → Option Matcher) (ts : List GToken) (tts : TokenTypeSet) (k : Nat) (text : List Nat) (i n : Nat) : Prop :=
  FirstOf re ts k text i n ∧ 0 < n ∧ tts.getLsbD i = true

/-- Matches are within the text. -/
def MatchersOk (re : List Nat → Option Matcher) : Prop := ∀ r m, re r = some m → ∀ text n, m text = some n → n ≤ text.length

/-- Types with expressions fit in a set of types. -/
def TypesFit (ts : List GToken) : Prop := ∀ (i : Nat) (t : GToken), ts[i]? = some t → t.re ≠ none → i < 64

/-- Literals have no expressions of their own. -/
def PlainLiterals (ts : List GToken) : Prop := ∀ t ∈ ts, t.flags.literal = true → t.re = none

/-- Expressions of all types are valid. -/
def AllValid (re : List Nat → Option Matcher) (ts : List GToken) : Prop := ∀ t ∈ ts, ∀ r, t.re = some r → (re r).isSome

end Verif.Spec
