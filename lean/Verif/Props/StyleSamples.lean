/-
C75: the style checker at work; what it reports wrongly.
-/
import Verif.Props.Style
import Verif.Props.TextIff

namespace Verif.Props.Style

open Verif Verif.Model Verif.Model.Style Verif.Spec Verif.Spec.Style Verif.Proof Verif.Proof.Style Verif.Props

/-- Number of leading bytes of some kind, at least `least`. -/
def run (p : Nat → Bool) (least : Nat) : Matcher := fun s =>
  let n := (s.takeWhile p).length
  if least ≤ n then some n else none

/-- `[ \t]` -/
def isBlank (c : Nat) : Bool := c = 32 ∨ c = 9
/-- `\d` -/
def isDigit (c : Nat) : Bool := decide (48 ≤ c ∧ c ≤ 57)
/-- `[A-Za-z_]` -/
def isLetter (c : Nat) : Bool := decide (65 ≤ c ∧ c ≤ 90 ∨ 97 ≤ c ∧ c ≤ 122 ∨ c = 95)

/-- A byte followed by bytes of some kind: `AB*`. -/
def startRun (a b : Nat → Bool) : Matcher
  | [] => none
  | c :: s => if a c then some (1 + (s.takeWhile b).length) else none

/-- Place after the first end of a comment. -/
def commentEnd : List Nat → Option Nat
  | [] => none
  | [_] => none
  | a :: b :: s => if a = 42 ∧ b = 47 then some 2 else (commentEnd (b :: s)).map (· + 1)

/-- `\/\*.*?\*\/` -/
def commentMatch : Matcher
  | 47 :: 42 :: s => (commentEnd s).map (· + 2)
  | _ => none

/-- Expressions of the grammar. -/
def styleRe (r : List Nat) : Option Matcher :=
  if r = [92, 110, 91, 32, 92, 116, 93, 42] then some (startRun (· = 10) isBlank)
  else if r = [91, 32, 92, 116, 93, 43] then some (run isBlank 1)
  else if r = [92, 47, 92, 42, 46, 42, 63, 92, 42, 92, 47] then some commentMatch
  else if r = [92, 100, 43] then some (run isDigit 1)
  else if r = [91, 65, 45, 90, 97, 45, 122, 95, 93, 91, 65, 45, 90, 97, 45, 122, 95, 48, 45, 57, 93, 42] then
    some (startRun isLetter fun c => isLetter c || isDigit c)
  else if r = [91, 123, 125, 92, 91, 92, 93, 44, 59, 93] then some (startRun (fun c => c ∈ [123, 125, 91, 93, 44, 59]) fun _ => false)
  else none

/-- Lexers with these expressions. -/
def styleLexers : List Lexer :=
  match newLexers styleRe tokens with
  | some (some ls) => ls
  | _ => []

theorem commentEnd_le : ∀ (s : List Nat) (n : Nat), commentEnd s = some n → n ≤ s.length
  | [], n, h => by simp [commentEnd] at h
  | [_], n, h => by simp [commentEnd] at h
  | a :: b :: s, n, h => by
    rw [commentEnd] at h
    split at h
    · cases h; simp
    · rw [Option.map_eq_some_iff] at h
      obtain ⟨m, h1, rfl⟩ := h
      have := commentEnd_le (b :: s) m h1
      simp only [List.length_cons] at this ⊢
      omega

theorem run_le (p : Nat → Bool) (k : Nat) (s : List Nat) (n : Nat) (h : run p k s = some n) : n ≤ s.length := by
  unfold run at h
  dsimp only at h
  split at h
  · cases h; exact (List.takeWhile_prefix _).length_le
  · cases h

theorem startRun_le (a b : Nat → Bool) (s : List Nat) (n : Nat) (h : startRun a b s = some n) : n ≤ s.length := by
  unfold startRun at h
  split at h
  · cases h
  · split at h
    · cases h
      rename_i c s' _
      have := (List.takeWhile_prefix (l := s') b).length_le
      simp only [List.length_cons]
      omega
    · cases h

theorem commentMatch_le (s : List Nat) (n : Nat) (h : commentMatch s = some n) : n ≤ s.length := by
  unfold commentMatch at h
  split at h
  · rw [Option.map_eq_some_iff] at h
    obtain ⟨m, h1, rfl⟩ := h
    have := commentEnd_le _ m h1
    simp only [List.length_cons]
    omega
  · cases h

/-- The hypothesis about lexers is met by these expressions. -/
theorem styleLexers_of : LexersOf styleRe tokens styleLexers := by
  refine ⟨?_, by simp [PlainLiterals, tokens], ?_⟩
  · have h : ∃ ls, newLexers styleRe tokens = some (some ls) := by
      obtain ⟨r, h1, h2⟩ := C59_lexers_made styleRe (ts := tokens) (by simp [PlainLiterals, tokens])
      cases r with
      | none => exact absurd (by simp [AllValid, tokens, styleRe]) (h2.mp rfl)
      | some ls => exact ⟨ls, h1⟩
    obtain ⟨ls, h⟩ := h
    rw [styleLexers, h]
  · intro r m h text n hm
    unfold styleRe at h
    repeat' split at h
    all_goals cases h
    · exact startRun_le _ _ _ _ hm
    · exact run_le _ _ _ _ hm
    · exact commentMatch_le _ _ hm
    · exact run_le _ _ _ _ hm
    · exact startRun_le _ _ _ _ hm
    · exact startRun_le _ _ _ _ hm

/-- Keys of reports about small sources. -/
def smallKeys (rs : Reports) : List Int × (Int → List Int) :=
  ((List.range 30).map (fun n => (n : Int))).filter (fun l => (rs.rm l).isSome) |>.reverse |> fun ls =>
    (ls, fun l => ((List.range 60).map (fun n => (n : Int))).filter fun c => ((rs.rm l).bind (· c)).isSome)

/-- What is reported about a text; `none` if it is not parsed. -/
def reported (s : String) : Option (List (Int × Int × String)) :=
  match check smallKeys id styleLexers 200 (textQueue s) ⟨none, 0⟩ with
  | .done (.ok out) => some (out.map fun x => (x.1, x.2.1, x.2.2.1))
  | _ => none


/-- Texts without errors and with errors of several kinds. -/
example : reported "int a;\n" = some [] ∧ reported "typedef struct {\n    int  a;\n    char b[10];\n} t;\n" = some [] ∧
    reported "int  a;" = some [(1, 4, "spacing must be exactly one space symbol"), (1, 8, "no newline at file end")] ∧
    reported "int a ,b;\n" = some [(1, 6, "excess space before "), (1, 8, "missing space after ")] := by decide +kernel

/-- The same. -/
example : reported "typedef struct {\n    int a;\n    char b;\n} t;\n" = some [(3, 10, "inconsistent struct field align")] ∧
    reported "int a; int b;\n" = some [(1, 7, "excess space after "), (1, 8, "must be on a separate line")] ∧
    reported "int a" = none := by decide +kernel

/-- Hypotheses of `C75_check` are met. -/
example : ∃ keys, AnyOrder keys ∧ ∃ N, (∃ e, ∀ k, N ≤ k → check keys id styleLexers k (textQueue "int a;") ⟨none, 0⟩ = .done (.error e)) ∨
    ∃ (pc : PC (LState Unit)) (h : Tree.Heap) (F : Trees.Forest) (T : Trees.Tree) (items : List Item) (out : List Line),
      (∀ k, N ≤ k → parse (styleEnv id styleLexers k) k ⟨[[]], ⟨textQueue "int a;", ()⟩⟩ ⟨none, 0⟩ = .done (.ok pc)) ∧
      Parsed id ⟨none, 0⟩ h F T items (consumedBy pc.steps).reduceOption ∧ Report (docOf h T).wrong out ∧
      ∀ k, N ≤ k → check keys id styleLexers k (textQueue "int a;") ⟨none, 0⟩ = .done (.ok out) := by
  obtain ⟨keys, hk⟩ := anyOrder_exists
  exact ⟨keys, hk, C75_check styleLexers_of id hk (textQueue "int a;") (textQueue_holds _) (by decide) _⟩

/-- C75 is not about comments: spaces before a comment at the end of a line are trailing spaces, a definition after a comment is not at the
beginning of the line, because comments are dropped by the token hook. -/
theorem C75_comments_dropped : reported "int a; /* c */\n" = some [(1, 7, "trailing spaces are not allowed")] ∧
    reported "/* c */ int a;\n" = some [(1, 9, "must be on a separate line")] := by decide +kernel

/-- C75: spaces in the first line, when there is nothing else in it, are reported for the second line. -/
theorem C75_first_line : reported "  \nint a;\n" = some [(2, 1, "trailing spaces are not allowed")] ∧
    reported "int a;\n  \nint b;\n" = some [(2, 1, "trailing spaces are not allowed")] := by decide +kernel

/-- C75: the width of a tab at the beginning of a line is one place. -/
theorem C75_tab_width : reported "typedef struct {\n\t   int a;\n} t;\n" = some [(1, 17, "no tabs allowed")] ∧
    reported "typedef struct {\n\tint a;\n} t;\n" = some [(1, 17, "no tabs allowed"), (2, 2, "incorrect indent")] := by decide +kernel

/-- C75: the text after a part that is described by the grammar is ignored: it is neither a parse error nor checked. -/
theorem C75_rest_ignored : reported "int a;\n}\nint   b;" = some [] ∧ reported "}" = none := by decide +kernel

end Verif.Props.Style
