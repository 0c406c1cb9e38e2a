/-
C81: the calculator at work; what it does with names that contain `help`.
-/
import Verif.Props.CalcText
import Verif.Props.StyleSamples

namespace Verif.Props

open Verif Verif.Model Verif.Model.Calc Verif.Spec Verif.Spec.Ebnf Verif.Spec.Calc Verif.Proof Verif.Proof.Calc
open Verif.Props.Style (run startRun run_le startRun_le)

/-- Number of digits at the beginning. -/
def digits (s : List Nat) : Nat := (s.takeWhile Style.isDigit).length

theorem digits_le (s : List Nat) : digits s ≤ s.length := (List.takeWhile_prefix _).length_le

/-- `-?` -/
def minusSign (s : List Nat) : Nat := if s.head? = some 45 then 1 else 0

/-- `(?:\.\d+)?` -/
def fraction : List Nat → Nat
  | 46 :: s => if digits s = 0 then 0 else 1 + digits s
  | _ => 0

/-- `(?:[Ee]-?\d+)?` -/
def exponent : List Nat → Nat
  | c :: s =>
    if c = 69 ∨ c = 101 then
      if digits (s.drop (minusSign s)) = 0 then 0 else 1 + minusSign s + digits (s.drop (minusSign s))
    else 0
  | [] => 0

theorem fraction_le (s : List Nat) : fraction s ≤ s.length := by
  unfold fraction
  split
  · rename_i s
    have := digits_le s
    split
    · omega
    · simp only [List.length_cons]; omega
  · omega

theorem exponent_le (s : List Nat) : exponent s ≤ s.length := by
  unfold exponent
  split
  · rename_i c s
    split
    · split
      · omega
      · rename_i h
        have h1 := digits_le (s.drop (minusSign s))
        rw [List.length_drop] at h1
        simp only [List.length_cons]
        omega
    · omega
  · omega

/-- `-?\d+(?:\.\d+)?(?:[Ee]-?\d+)?` -/
def numberMatch (s : List Nat) : Option Nat :=
  let neg := minusSign s
  let n := neg + digits (s.drop neg)
  if digits (s.drop neg) = 0 then none else some (n + fraction (s.drop n) + exponent (s.drop (n + fraction (s.drop n))))

theorem numberMatch_le (s : List Nat) (n : Nat) (h : numberMatch s = some n) : n ≤ s.length := by
  unfold numberMatch at h
  dsimp only at h
  split at h
  · cases h
  · cases h
    generalize minusSign s = neg at *
    have h1 := digits_le (s.drop neg)
    rw [List.length_drop] at h1
    generalize digits (s.drop neg) = d at *
    have h2 := fraction_le (s.drop (neg + d))
    rw [List.length_drop] at h2
    generalize fraction (s.drop (neg + d)) = f at *
    have h3 := exponent_le (s.drop (neg + d + f))
    rw [List.length_drop] at h3
    omega

theorem numberMatch_digit (s : List Nat) (n : Nat) (h : numberMatch s = some n) : ∃ c ∈ s.take n, 48 ≤ c ∧ c ≤ 57 := by
  unfold numberMatch at h
  dsimp only at h
  split at h
  · cases h
  · rename_i hd
    cases h
    generalize minusSign s = neg at *
    generalize fraction (s.drop (neg + digits (s.drop neg))) = f at *
    generalize exponent (s.drop (neg + digits (s.drop neg) + f)) = x at *
    cases hs : s.drop neg with
    | nil => rw [hs] at hd; simp [digits] at hd
    | cons c t =>
      have hc : Style.isDigit c = true := by
        by_contra hc
        rw [hs] at hd
        simp [digits, List.takeWhile_cons, hc] at hd
      refine ⟨c, ?_, by simpa [Style.isDigit] using hc⟩
      have hget : s[neg]? = some c := by
        have := congrArg (·[0]?) hs
        simpa using this
      refine List.mem_of_getElem? (i := neg) ?_
      rw [List.getElem?_take, if_pos (by rw [hs] at hd; omega), hget]

/-- `[A-Za-z]` -/
def isAlphaByte (c : Nat) : Bool := decide (65 ≤ c ∧ c ≤ 90 ∨ 97 ≤ c ∧ c ≤ 122)

/-- Expressions of the grammar. -/
def calcRe (r : List Nat) : Option Matcher :=
  match (Calc.tokens.map (·.re)).idxOf? (some r) with
  | some 0 => some (run (fun c => c ∈ [9, 10, 12, 13, 32]) 1)
  | some 1 => some numberMatch
  | some 2 => some (startRun isAlphaByte fun c => isAlphaByte c || Style.isDigit c || c == 95)
  | some 3 => some (startRun (fun c => c ∈ [40, 41, 44, 61, 42, 47, 94, 43, 45]) fun _ => false)
  | some 4 => some (startRun (· = 45) fun _ => false)
  | _ => none

/-- Lexers with these expressions. -/
def calcLexers : List Lexer :=
  match newLexers calcRe Calc.tokens with
  | some (some ls) => ls
  | _ => []

/-- The hypothesis about lexers is met by these expressions. -/
theorem calcLexers_of : LexersOf calcRe Calc.tokens calcLexers := by
  refine ⟨?_, by simp [PlainLiterals, Calc.tokens], ?_⟩
  · have h : ∃ ls, newLexers calcRe Calc.tokens = some (some ls) := by
      obtain ⟨r, h1, h2⟩ := C59_lexers_made calcRe (ts := Calc.tokens) (by simp [PlainLiterals, Calc.tokens])
      cases r with
      | none =>
        have hv : ∀ t ∈ Calc.tokens, t.re.all (fun r => (calcRe r).isSome) = true := by decide +kernel
        refine absurd (h2.mp rfl) (not_not_intro ?_)
        intro t ht r hr
        have := hv t ht
        rw [hr] at this
        simpa [Option.isSome_iff_ne_none] using this
      | some ls => exact ⟨ls, h1⟩
    obtain ⟨ls, h⟩ := h
    rw [calcLexers, h]
  · intro r m h text n hm
    unfold calcRe at h
    split at h
    all_goals cases h
    · exact run_le _ _ _ _ hm
    · exact numberMatch_le _ _ hm
    · exact startRun_le _ _ _ _ hm
    · exact startRun_le _ _ _ _ hm
    · exact startRun_le _ _ _ _ hm

theorem startRun_some {a b : Nat → Bool} {s : List Nat} {n : Nat} (h : startRun a b s = some n) :
    ∃ c t, s = c :: t ∧ a c = true ∧ n = 1 + (t.takeWhile b).length := by
  unfold startRun at h
  split at h
  · cases h
  · split at h
    · cases h
      exact ⟨_, _, rfl, by assumption, rfl⟩
    · cases h

theorem calcRe_type {i : Nat} {f : Matcher} (h : (Calc.tokens[i]?).bind (·.re) >>= calcRe = some f) {text : List Nat} {n : Nat}
    (ht : TypeMatches calcRe Calc.tokens i text n) : f text = some n := by
  obtain ⟨t, r, m, h1, h2, h3, h4⟩ := ht
  rw [h1] at h
  simp only [Option.bind_some, h2, bind, h3] at h
  cases h
  exact h4

/-- The hypothesis about expressions is met by these expressions. -/
theorem calcRe_known : MatchersKnown calcRe := by
  refine ⟨fun text n h => ?_, fun text n h => ?_, fun text n h => ?_, fun text n h => ?_⟩
  · exact numberMatch_digit _ _ (calcRe_type (f := numberMatch) rfl h)
  · obtain ⟨c, t, rfl, hc, rfl⟩ := startRun_some (calcRe_type (f := startRun _ _) rfl h)
    refine ⟨c, t.take _, by rw [Nat.add_comm, List.take_succ_cons], ?_⟩
    simpa [isAlphaByte] using hc
  · obtain ⟨c, t, rfl, hc, rfl⟩ := startRun_some (calcRe_type (f := startRun _ _) rfl h)
    have hcs : ∀ c ∈ [40, 41, 44, 61, 42, 47, 94, 43, 45], ∃ d ∈ "(),=*/^+-".toList, c = d.toNat := by decide
    obtain ⟨d, h1, h2⟩ := hcs c (by simpa using hc)
    refine ⟨d, h1, ?_⟩
    cases t <;> simp [List.takeWhile_cons, h2]
  · obtain ⟨c, t, rfl, hc, rfl⟩ := startRun_some (calcRe_type (f := startRun _ _) rfl h)
    have : c = 45 := by simpa using hc
    subst this
    cases t <;> simp [List.takeWhile_cons]

/-- Bytes of a line. -/
def typed (s : String) : List Nat := s.toList.map Char.toNat

/-- Integers. -/
def decimal (s : List Nat) : Except Nat ℚ :=
  let d := s.filter (· ≠ 45)
  if d.all Style.isDigit then .ok ((if s.head? = some 45 then -1 else 1) * ((d.foldl (fun n c => 10 * n + (c - 48)) 0 : Nat) : ℚ)) else .error 0

/-- What is seen: 0 is the help, 1 is an error, 2 is nothing. -/
def seen : Run (List (Shown ℚ)) → Option (List (ℚ ⊕ Nat))
  | .done l => some (l.map fun
    | .number v => .inl v
    | .help => .inr 0
    | .error _ => .inr 1
    | .nothing => .inr 2)
  | _ => none

/-- Hypotheses of `C81_session_partial` are met. -/
example : LexersOf calcRe Calc.tokens calcLexers ∧ MatchersKnown calcRe ∧ Lawful ratArith ∧
    ∀ line ∈ ["f(x) = x *", "-2", "f(3)", "1 2"].map typed, ¬ PartOf funcText line :=
  ⟨calcLexers_of, calcRe_known, ratArith_lawful, by unfold PartOf; decide +kernel⟩

/-- A definition in two lines, a call of the function, and a line with more than a command. -/
example : seen (repl ratArith decimal id calcLexers 40 5 {} (["f(x) = x *", "-2", "f(3)", "1 2"].map typed)) =
    some [.inr 2, .inl 0, .inl (-6), .inr 1] := by decide +kernel

/-- A name that contains `help` cannot be used: the command `helper=2` shows the help, it is not performed. -/
theorem C81_help_in_names : seen (repl ratArith decimal id calcLexers 40 5 {} (["helper=2", "helper"].map typed)) = some [.inr 0, .inr 0] ∧
    IsCmd decimal (.assign (typed "helper") (.num 2))
      [⟨2, "name", typed "helper", ⟨none, 0⟩⟩, ⟨3, "op", typed "=", ⟨none, 0⟩⟩, ⟨1, "number", typed "2", ⟨none, 0⟩⟩] := by
  refine ⟨by decide +kernel, ?_⟩
  exact IsCmd.assign (x := ⟨2, "name", typed "helper", ⟨none, 0⟩⟩) rfl ⟨.inl rfl, rfl⟩ (.one (.one (.one (.num rfl (by decide +kernel)))))

/-- What is left from lines before is dropped when the help is shown. -/
theorem C81_help_drops_input : seen (repl ratArith decimal id calcLexers 40 5 {} (["1+", "help", "2"].map typed)) = some [.inr 2, .inr 0, .inl 2] := by
  decide +kernel

end Verif.Props
