/-
C78: the configuration editor at work; what it does wrong.
-/
import Verif.Props.ConfFile
import Verif.Props.StyleSamples

namespace Verif.Props.Conf

open Verif Verif.Model Verif.Model.ConfEdit Verif.Spec Verif.Spec.Conf Verif.Proof Verif.Props
open Verif.Props.Style (run startRun run_le startRun_le isLetter isDigit)
open Verif.Model.Tree (bindRun)

/-- `#.*?(?:\n|$)` -/
def commentMatch : Matcher
  | [] => none
  | c :: s => if c = 35 then some (1 + (s.takeWhile (· ≠ 10)).length + if (s.dropWhile (· ≠ 10)).isEmpty then 0 else 1) else none

/-- The rest of a name: letters, digits, and signs followed by letters. -/
def nameTail (seps : List Nat) : List Nat → Nat
  | [] => 0
  | c :: s =>
    if isLetter c || isDigit c then 1 + nameTail seps s
    else match s with
      | [] => 0
      | d :: s => if c ∈ seps ∧ isLetter d then 2 + nameTail seps s else 0

/-- Names with signs inside. -/
def nameMatch (seps : List Nat) : Matcher
  | [] => none
  | c :: s => if isLetter c then some (1 + nameTail seps s) else none

/-- `\S` for ASCII. -/
def isVisible (c : Nat) : Bool := c ∉ [9, 10, 12, 13, 32]

/-- Expressions of the grammar. -/
def confRe (r : List Nat) : Option Matcher :=
  match (tokens.map (·.re)).idxOf? (some r) with
  | some 0 => some (run (fun c => c = 32 ∨ c = 9) 1)
  | some 1 => some commentMatch
  | some 2 => some (startRun (· = 10) fun _ => false)
  | some 3 => some (nameMatch [46, 45])
  | some 4 => some (nameMatch [45])
  | some 5 => some (startRun (fun c => c ∈ [91, 93, 61]) fun _ => false)
  | some 6 => some (startRun isVisible fun c => c ∉ [10, 35])
  | _ => none

/-- Lexers with these expressions. -/
def confLexers : List Lexer :=
  match newLexers confRe tokens with
  | some (some ls) => ls
  | _ => []

theorem nameTail_le (seps : List Nat) : ∀ s : List Nat, nameTail seps s ≤ s.length
  | [] => by simp [nameTail]
  | [c] => by
    rw [nameTail]
    split
    · simp [nameTail]
    · simp
  | c :: d :: s => by
    rw [nameTail]
    split
    · have := nameTail_le seps (d :: s)
      simp only [List.length_cons] at this ⊢
      omega
    · split
      · have := nameTail_le seps s
        simp only [List.length_cons]
        omega
      · simp

theorem nameMatch_le (seps : List Nat) (s : List Nat) (n : Nat) (h : nameMatch seps s = some n) : n ≤ s.length := by
  unfold nameMatch at h
  split at h
  · cases h
  · split at h
    · cases h
      rename_i c s' _
      have := nameTail_le seps s'
      simp only [List.length_cons]
      omega
    · cases h

theorem commentMatch_le (s : List Nat) (n : Nat) (h : commentMatch s = some n) : n ≤ s.length := by
  unfold commentMatch at h
  split at h
  · cases h
  · rename_i c s
    split at h
    · cases h
      have h1 : (s.takeWhile (· ≠ 10)).length + (s.dropWhile (· ≠ 10)).length = s.length := by
        rw [← List.length_append, List.takeWhile_append_dropWhile]
      simp only [List.length_cons]
      split
      · omega
      · rename_i hne
        have : 0 < (s.dropWhile (· ≠ 10)).length := by
          rw [List.length_pos_iff]
          intro e
          rw [e] at hne
          simp at hne
        omega
    · cases h

/-- The hypothesis about lexers is met by these expressions. -/
theorem confLexers_of : LexersOf confRe tokens confLexers := by
  refine ⟨?_, by simp [PlainLiterals, tokens], ?_⟩
  · have h : ∃ ls, newLexers confRe tokens = some (some ls) := by
      obtain ⟨r, h1, h2⟩ := C59_lexers_made confRe (ts := tokens) (by simp [PlainLiterals, tokens])
      cases r with
      | none =>
        have hv : ∀ t ∈ tokens, t.re.all (fun r => (confRe r).isSome) = true := by decide +kernel
        refine absurd (h2.mp rfl) (not_not_intro ?_)
        intro t ht r hr
        have := hv t ht
        rw [hr] at this
        simpa [Option.isSome_iff_ne_none] using this
      | some ls => exact ⟨ls, h1⟩
    obtain ⟨ls, h⟩ := h
    rw [confLexers, h]
  · intro r m h text n hm
    unfold confRe at h
    split at h
    all_goals cases h
    · exact run_le _ _ _ _ hm
    · exact commentMatch_le _ _ hm
    · exact startRun_le _ _ _ _ hm
    · exact nameMatch_le _ _ _ hm
    · exact nameMatch_le _ _ _ hm
    · exact startRun_le _ _ _ _ hm
    · exact startRun_le _ _ _ _ hm

/-- `IsValidName`: the whole text matches. -/
def confValid (s : List Nat) : Bool := nameMatch [46, 45] s = some s.length

/-- There is a change in the default section or in the list of sections. -/
def changed (c : ConfEdit.Conf) : Bool := c.updated || (c.sections []).any (·.updated)

theorem changed_updated {c : ConfEdit.Conf} (h : changed c = true) : c.Updated := by
  unfold changed at h
  rw [Bool.or_eq_true] at h
  rcases h with h | h
  · exact .inl h
  · cases hs : c.sections [] with
    | none => rw [hs] at h; cases h
    | some s => rw [hs] at h; exact .inr ⟨[], s, hs, h⟩

/-- What is written to the file. -/
def saved (flags : List (Flag × String)) (file : String) : Option (Bytes) :=
  match editFile confValid trimBlank id confLexers 40 "" (flags.map fun f => (f.1, confBytes f.2)) (some (confBytes file)) with
  | .done (.edited c text) => if changed c then some text else none
  | _ => none

/-- The text of the document that is read. -/
def opened (file : String) : Except Unit Bytes :=
  match editFile confValid trimBlank id confLexers 40 "" [] (some (confBytes file)) with
  | .done (.edited _ text) => .ok text
  | _ => .error ()

example : saved [(.s, "b=2")] "" = some (confBytes "b=2\n") := by decide +kernel
example : saved [(.s, "a=2")] "a=1\r" = some (confBytes "a=2\n") := by decide +kernel
example : saved [(.s, "s.a=2")] "#c" = some (confBytes "#c\n[s]\na=2\n") := by decide +kernel
example : opened "[s]\n" = .ok (confBytes "[s]\n") := by decide +kernel

/-- Hypotheses of `C78_read` and of `C78_edit_partial` hold, and the document is read to the end: entries are not repeated. -/
example : LexersOf confRe tokens confLexers ∧ Trims trimBlank ∧ (∀ c ∈ commandsOf [(Flag.s, confBytes "a.b=1")], Accepted confValid c) ∧
    opened "a=1\n" = .ok (confBytes "a=1\n") := by
  refine ⟨confLexers_of, trimBlank_trims, ?_, by decide +kernel⟩
  intro c hc
  simp only [commandsOf, List.map_cons, List.map_nil, List.mem_singleton] at hc
  subst hc
  exact ⟨confBytes "a.b", confBytes "1", .full (confBytes "a.b") (confBytes "1") (by decide), by decide⟩

/-- C78: the rest of the file is lost, and there is no error: a line cannot be the beginning of anything described, `-s a=1`. -/
theorem C78_rest_is_lost : saved [(.s, "a=1")] "]b=2\n" = some (confBytes "a=1\n") := by decide +kernel

/-- C78: a new entry becomes a part of another one if the line of that one has a comment, `-s b=2`. -/
theorem C78_lines_are_joined : saved [(.s, "b=2")] "a=1#c\n" = some (confBytes "a=1b=2\n#c\n") := by decide +kernel

/-- C78: a comment after the name of a section is an error. -/
theorem C78_header_comment : opened "[s]#c\n" = .error () ∧ opened "[s]\n#c\n" = .ok (confBytes "[s]\n#c\n") := by decide +kernel

end Verif.Props.Conf
