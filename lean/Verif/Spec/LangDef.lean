/-
Grammar descriptions.
-/
import Verif.Model.LangDef

namespace Verif.Spec.LangDef

open Verif.Model Verif.Model.LangDef

/-- First byte of a name. -/
def letter (b : Nat) : Prop := (65 ≤ b ∧ b ≤ 90) ∨ (97 ≤ b ∧ b ≤ 122) ∨ b = 95

/-- What the lexer guarantees about tokens (`/repo/langdef/parser.go` lines 167-176): the first byte depends on the kind; strings
and regular expressions have both delimiters. -/
def LexTok (t : LTok) : Prop :=
  match t.kind with
  | .string => ∃ q s, (q = 34 ∨ q = 39) ∧ t.text = q :: s ++ [q]
  | .name => ∃ b s, letter b ∧ t.text = b :: s
  | .dir => ∃ s, t.text = 33 :: s
  | .templateName => ∃ s, t.text = 36 :: 36 :: s
  | .tokenName => ∃ s, t.text = 36 :: s
  | .regexp => ∃ s, t.text = 47 :: s ++ [47]
  | .op => ∃ b ∈ [40, 41, 123, 125, 91, 93, 61, 124, 44, 59, 64], t.text = [b]
  | .eof => False

/-- All tokens of an input are as the lexer makes them. -/
def Lexed (inp : List (Except LErr LTok)) : Prop := ∀ t, .ok t ∈ inp → LexTok t

/-- An operator. -/
def op (b : Nat) : LTok := ⟨.op, [b]⟩

/-- Only tokens of given kinds and given names. -/
def Only (kinds : List Kind) (names : List (List Nat)) (inp : List (Except LErr LTok)) : Prop :=
  ∀ x ∈ inp, ∃ t : LTok, x = .ok t ∧ (t.kind ∈ kinds ∨ t.kind = .name ∧ t.text ∈ names)

/-- The text ends inside a list of arguments of a directive, or inside a regular expression of a token or template definition:
no semicolon or other token that cannot belong to the list. -/
def Unfinished (inp : List (Except LErr LTok)) : Prop :=
  (∃ pre post, ∃ d : LTok, inp = pre ++ .ok d :: post ∧ d.kind = .dir ∧
    Only [.string, .tokenName] [bytesOf "string", bytesOf "token-name"] post) ∨
  (∃ pre post, ∃ n : LTok, inp = pre ++ .ok n :: .ok (op 61) :: post ∧ (n.kind = .tokenName ∨ n.kind = .templateName) ∧
    Only [.regexp, .name] [] post)

end Verif.Spec.LangDef
