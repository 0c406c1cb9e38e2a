/-
C67: the grammar checking tool splits files into samples.
-/
import Verif.Proof.Samples
import Verif.Props.Source

namespace Verif.Props

open Verif.Model Verif.Model.GrammarTool Verif.Spec.Samples Verif.Proof.Samples
open Verif.Model.Tree (bindRun)

theorem lines_count (l : List Nat) : (lines l).length ≤ l.length := by
  induction l with
  | nil => exact Nat.le_refl _
  | cons b t ih =>
    rw [lines]
    split
    · simp; omega
    · cases h : lines t with
      | nil => simp
      | cons x xs => rw [h] at ih; simp at ih ⊢; omega

theorem separator_chars (l : List Nat) : ∀ b ∈ separator l, 32 < b := by
  unfold separator
  induction l with
  | nil => simp
  | cons c l ih =>
    rw [List.takeWhile_cons]
    split
    · rename_i h
      exact List.forall_mem_cons.2 ⟨by simpa using h, ih⟩
    · simp

/-- C67, partial: if there are no empty lines in a file then its samples are made of whole lines between separator lines (those
that start with the non-spacing characters that start the first line), and they are numbered in order; line numbers reported for a sample
are those of its lines (`first = last + 1` for a sample with no lines). Missing: the last newline of a sample is documented as not
included, but it is (`C67_newline_kept`); files with empty lines are not split after the first of them (`C67_empty_line`). -/
theorem C67_samples_partial (valid : List Nat → Bool) (content sep : List Nat) (multi : Bool)
    (hm : multi = true ∨ (sep ≠ [] ∧ sep <+: content))
    (hne : ∀ l ∈ lines (Spec.Text.normalize content), l ≠ [10]) (fuel : Nat) (hf : (Spec.Text.normalize content).length < fuel) :
    ∃ ss, makeSources valid fuel content multi sep = .done (some (.samples ss)) ∧
      ss.map (·.content) = (sampleLines (Spec.Text.normalize content)).map (·.flatten) ∧
      ∀ j s, ss[j]? = some s → s.index = j + 1 ∧ 1 < s.first ∧ s.first ≤ s.last + 1 ∧ s.last ≤ (lines (Spec.Text.normalize content)).length ∧
        s.content = (((lines (Spec.Text.normalize content)).drop (s.first - 1)).take (s.last + 1 - s.first)).flatten := by
  have hm' : ¬ ¬ (multi = true ∨ (sep.length ≠ 0 ∧ sep.isPrefixOf content = true)) := by
    rw [not_not]
    rcases hm with h | ⟨h1, h2⟩
    · exact .inl h
    · exact .inr ⟨by simpa using h1, by simpa using h2⟩
  rw [makeSources, if_neg hm', (C08_normalizeNls content).1]
  generalize hc : Spec.Text.normalize content = text at *
  simp only [orPanic]
  rw [contentLines_spec fuel 0 (by omega) (by omega) (by simpa using hne), List.drop_zero]
  simp only [bindRun]
  cases hl : lines text with
  | nil => exact ⟨[], by simp [entriesOf], by simp [sampleLines, hl], by simp⟩
  | cons l ls =>
    have hflat := lines_flatten text
    rw [hl] at hflat
    have hslice : Go.slice text ((0 : Nat) : Int) ((0 + (body l).length : Nat) : Int) = some (body l) := by
      have hb := (body_prefix l).length_le
      rw [slice_nat _ _ _ (Nat.zero_le _) (by rw [← hflat]; simp; omega), List.drop_zero, Nat.zero_add, Nat.sub_zero, ← hflat, List.flatten_cons,
        List.take_append_of_le_length hb]
      congr 1
      exact (List.prefix_iff_eq_take.1 (body_prefix l)).symm
    have hsep : ∀ b ∈ separator l, 32 < b := separator_chars l
    have hcount := lines_count text
    rw [hl] at hcount
    have hloop := samplesLoop_spec (i := 1) (n := 1) hsep hflat.symm fuel (by omega)
    refine ⟨numbered 1 1 (groups (separator l) [] ((l :: ls).drop 1)), ?_, ?_, ?_⟩
    · simp only [entriesOf] at hloop ⊢
      rw [hslice]
      simp only [linePrefix_eq, separator_body]
      rw [hloop]
    · rw [numbered_content, sampleLines, hl]
      rfl
    · intro j s hs
      obtain ⟨h1, h2⟩ := numbered_lines (separator l) (l :: ls) _ 1 1 (Nat.le_refl _) j s hs
      exact ⟨by omega, h2⟩

/-- A sample of the files from the documentation. -/
def sampleFile (s : String) : List Nat := s.toList.map Char.toNat

/-- The hypotheses are met. -/
example : ∃ ss, makeSources (fun _ => true) 100 (sampleFile "== first\na\nb\n== second\n==\r\nc\n") true [] = .done (some (.samples ss)) ∧
    ss.map (·.content) = [sampleFile "a\nb\n", [], sampleFile "c\n"] ∧ ss.map (fun s => (s.first, s.last)) = [(2, 3), (5, 4), (6, 6)] := by
  obtain ⟨ss, h, -⟩ := C67_samples_partial (fun _ => true) (sampleFile "== first\na\nb\n== second\n==\r\nc\n") [] true (.inl rfl)
    (by decide +kernel) 100 (by decide +kernel)
  have : (match makeSources (fun _ => true) 100 (sampleFile "== first\na\nb\n== second\n==\r\nc\n") true [] with
    | .done (some (.samples ss)) => decide (ss.map (·.content) = [sampleFile "a\nb\n", [], sampleFile "c\n"] ∧ ss.map (fun s => (s.first, s.last)) = [(2, 3), (5, 4), (6, 6)])
    | _ => false) = true := by decide +kernel
  rw [h] at this
  exact ⟨ss, h, of_decide_eq_true this⟩

/-- C67 is false: the last newline of a sample is included. -/
theorem C67_newline_kept :
    makeSources (fun _ => true) 100 (sampleFile "=\na\n=\nb\n") true [] =
      .done (some (.samples [⟨1, 2, 2, sampleFile "a\n"⟩, ⟨2, 4, 4, sampleFile "b\n"⟩])) ∧
    documented (sampleFile "=\na\n=\nb\n") = [sampleFile "a", sampleFile "b"] := by decide +kernel

/-- C67 is false: a file is not split after its first empty line (an empty line is the documented way to add a newline to a sample). -/
theorem C67_empty_line :
    makeSources (fun _ => true) 100 (sampleFile "=\na\n\n=\nb\n") true [] =
      .done (some (.samples [⟨1, 2, 3, sampleFile "a\n\n=\nb\n"⟩])) ∧
    documented (sampleFile "=\na\n\n=\nb\n") = [sampleFile "a\n", sampleFile "b"] := by decide +kernel

/-- C67 is false: texts of samples are not checked to be UTF-8 (error code 3), a whole file is. -/
theorem C67_not_checked (valid : List Nat → Bool) (content : List Nat) (hv : valid content = false) (fuel : Nat) :
    makeSources valid fuel content false [] = .done none ∧
    (∀ x, makeSources valid fuel content true [] = .done x → x ≠ none) := by
  constructor
  · simp [makeSources, hv]
  · rintro x h rfl
    rw [makeSources, if_neg (by simp), (C08_normalizeNls content).1] at h
    simp only [orPanic] at h
    obtain ⟨ls, -, h⟩ := Verif.Proof.bindRun_done.1 h
    cases ls with
    | nil => cases h
    | cons e ls =>
      obtain ⟨line, -, h⟩ := Verif.Proof.orPanic_done.1 h
      obtain ⟨l, -, h⟩ := Verif.Proof.bindRun_done.1 h
      cases h

/-- There are texts that are not UTF-8 in samples. -/
example : makeSources (fun l => l.all (· < 128)) 100 [61, 10, 255, 10] true [] = .done (some (.samples [⟨1, 2, 2, [255, 10]⟩])) := by decide +kernel

end Verif.Props
