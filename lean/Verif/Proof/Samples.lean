/-
Lemmas about splitting files into samples.
-/
import Verif.Model.GrammarTool
import Verif.Spec.Samples
import Verif.Proof.Parse

namespace Verif.Proof.Samples

open Verif.Model Verif.Model.GrammarTool Verif.Spec.Samples
open Verif.Model.Tree (bindRun)

theorem lines_none {l : List Nat} (hl : l ≠ []) (h : 10 ∉ l) : lines l = [l] := by
  induction l with
  | nil => exact absurd rfl hl
  | cons b t ih =>
    rw [lines, if_neg (fun e => h (by simp [e]))]
    cases t with
    | nil => rfl
    | cons c t => rw [ih (by simp) (fun hm => h (by simp [hm]))]

theorem lines_some (a b : List Nat) (h : 10 ∉ a) : lines (a ++ 10 :: b) = (a ++ [10]) :: lines b := by
  induction a with
  | nil => rw [List.nil_append, lines, if_pos rfl]; rfl
  | cons c a ih =>
    rw [List.cons_append, lines, if_neg (fun e => h (by simp [e])), ih (fun hm => h (by simp [hm]))]
    rfl

theorem lines_flatten (l : List Nat) : (lines l).flatten = l := by
  induction l with
  | nil => rfl
  | cons b t ih =>
    rw [lines]
    split
    · rename_i h; subst h; rw [List.flatten_cons, ih]; rfl
    · cases h : lines t with
      | nil => rw [h] at ih; simp at ih; subst ih; rfl
      | cons x xs => rw [h] at ih; simp only [List.flatten_cons, List.cons_append] at ih ⊢; rw [ih]

/-- A line without its newline. -/
def body (l : List Nat) : List Nat := l.takeWhile (· ≠ 10)

theorem body_some (a : List Nat) (h : 10 ∉ a) : body (a ++ [10]) = a := by
  unfold body
  rw [List.takeWhile_append_of_pos]
  · simp
  · intro x hx
    have : x ≠ 10 := fun e => h (e ▸ hx)
    simpa using this

theorem takeWhile_all {α : Type} {p : α → Bool} {l : List α} (h : ∀ x ∈ l, p x = true) : l.takeWhile p = l := by
  have := List.takeWhile_append_of_pos (l₂ := []) h
  simpa using this

theorem body_none {a : List Nat} (h : 10 ∉ a) : body a = a := by
  refine takeWhile_all ?_
  intro x hx
  have : x ≠ 10 := fun e => h (e ▸ hx)
  simpa using this

/-- Entries of lines starting at a position. -/
def entriesOf : Nat → List (List Nat) → List LineEntry
  | _, [] => []
  | pos, l :: ls => ⟨pos, pos + (body l).length⟩ :: entriesOf (pos + l.length) ls

theorem entriesOf_length (pos : Nat) (ls : List (List Nat)) : (entriesOf pos ls).length = ls.length := by
  induction ls generalizing pos with
  | nil => rfl
  | cons l ls ih => simp [entriesOf, ih]

theorem entriesOf_drop (pos : Nat) (ls : List (List Nat)) (n : Nat) :
    (entriesOf pos ls).drop n = entriesOf (pos + (ls.take n).flatten.length) (ls.drop n) := by
  induction ls generalizing pos n with
  | nil => simp [entriesOf]
  | cons l ls ih =>
    cases n with
    | zero => simp
    | succ n =>
      rw [entriesOf, List.drop_succ_cons, ih, List.take_succ_cons, List.drop_succ_cons, List.flatten_cons, List.length_append, Nat.add_assoc]

theorem slice_nat {α : Type} (l : List α) (a b : Nat) (h1 : a ≤ b) (h2 : b ≤ l.length) :
    Go.slice l (a : Int) (b : Int) = some ((l.drop a).take (b - a)) := by
  unfold Go.slice
  rw [if_pos ⟨by omega, by omega, by omega⟩]
  simp

theorem contentLines_spec {content : List Nat} (fuel pos : Nat) (hf : content.length - pos < fuel) (hpos : pos ≤ content.length)
    (hne : ∀ l ∈ lines (content.drop pos), l ≠ [10]) : contentLines content fuel pos = .done (entriesOf pos (lines (content.drop pos))) := by
  induction fuel generalizing pos with
  | zero => omega
  | succ fuel ih =>
    rw [contentLines]
    split
    · rename_i hlt
      rw [slice_nat _ _ _ hpos (Nat.le_refl _)]
      have hl : (content.drop pos).length = content.length - pos := List.length_drop
      rw [List.take_of_length_le (by omega)]
      dsimp only [orPanic]
      generalize hr : content.drop pos = rest at *
      cases hi : rest.idxOf? 10 with
      | none =>
        rw [List.idxOf?_eq_none_iff] at hi
        rw [lines_none (by intro h; subst h; simp at hl; omega) hi]
        simp only [entriesOf, body_none hi]
        rw [hl, Nat.add_sub_cancel' hpos]
      | some n =>
        obtain ⟨hn, h1, h2⟩ := List.findIdx?_eq_some_iff_getElem.1 (show rest.findIdx? (· == 10) = some n from hi)
        simp only [beq_iff_eq] at h1
        have hsplit : rest = rest.take n ++ 10 :: rest.drop (n + 1) := by
          conv_lhs => rw [← List.take_append_drop n rest, List.drop_eq_getElem_cons hn, h1]
        have hnot : 10 ∉ rest.take n := by
          intro hm
          obtain ⟨i, hi1, hi2⟩ := List.getElem_of_mem hm
          rw [List.length_take] at hi1
          have := h2 i (by omega)
          rw [List.getElem_take] at hi2
          simp [hi2] at this
        have hlines : lines rest = (rest.take n ++ [10]) :: lines (rest.drop (n + 1)) := by
          conv_lhs => rw [hsplit]
          exact lines_some _ _ hnot
        cases n with
        | zero =>
          exfalso
          exact hne [10] (by rw [hlines]; simp) rfl
        | succ m =>
          have hd : content.drop (pos + (m + 1) + 1) = rest.drop (m + 1 + 1) := by rw [← hr, List.drop_drop, Nat.add_assoc]
          simp only
          rw [ih (pos + (m + 1) + 1) (by omega) (by omega) (by
            rw [hd]
            intro l hm
            exact hne l (by rw [hlines]; simp [hm]))]
          rw [hlines, entriesOf, body_some _ hnot, hd]
          simp only [bindRun, List.length_append, List.length_take, List.length_cons, List.length_nil, Nat.zero_add]
          rw [Nat.min_eq_left (by omega), Nat.add_assoc pos]
    · rename_i hge
      rw [List.drop_of_length_le (by omega)]
      rfl

theorem linePrefix_eq (line : List Nat) : linePrefix line = separator line := by
  unfold linePrefix separator
  induction line with
  | nil => rfl
  | cons b l ih =>
    rw [List.findIdx?_cons, List.takeWhile_cons]
    by_cases h : b ≤ 32
    · rw [if_pos (by simpa using h), if_neg (by simp; omega)]
      rfl
    · rw [if_neg (by simpa using h), if_pos (by simp; omega), ← ih]
      cases List.findIdx? (fun x => decide (x ≤ 32)) l <;> rfl

theorem separator_body (l : List Nat) : separator (body l) = separator l := by
  unfold separator body
  induction l with
  | nil => rfl
  | cons b l ih =>
    by_cases h : b = 10
    · subst h; simp
    · rw [List.takeWhile_cons, if_pos (by simpa using h), List.takeWhile_cons, List.takeWhile_cons, ih]

theorem prefix_body {sep l : List Nat} (h : ∀ b ∈ sep, 32 < b) : sep.isPrefixOf (body l) = sep.isPrefixOf l := by
  unfold body
  induction sep generalizing l with
  | nil => simp
  | cons b sep ih =>
    cases l with
    | nil => rfl
    | cons c l =>
      by_cases hc : c = 10
      · subst hc
        have : b ≠ 10 := by have := h b (by simp); omega
        rw [List.takeWhile_cons, if_neg (by simp)]
        simp [List.isPrefixOf, this]
      · rw [List.takeWhile_cons, if_pos (by simpa using hc)]
        simp only [List.isPrefixOf_cons_cons]
        rw [ih (fun x hx => h x (by simp [hx]))]

theorem body_prefix (l : List Nat) : body l <+: l := List.takeWhile_prefix _

theorem groups_takeWhile (sep : List Nat) (acc ls : List (List Nat)) (h : acc ++ ls ≠ []) :
    groups sep acc ls = (acc ++ ls.takeWhile (fun l => !sep.isPrefixOf l)) :: groups sep [] (ls.drop ((ls.takeWhile (fun l => !sep.isPrefixOf l)).length + 1)) := by
  induction ls generalizing acc with
  | nil =>
    rw [groups, if_neg (by simpa using h)]
    simp [groups]
  | cons l ls ih =>
    rw [groups]
    by_cases hp : sep.isPrefixOf l = true
    · rw [if_pos hp, List.takeWhile_cons, if_neg (by simp [hp])]
      simp
    · rw [if_neg hp, List.takeWhile_cons, if_pos (by simp [hp]), ih _ (by simp)]
      simp

theorem sampleLoop_spec {content sep : List Nat} (hsep : ∀ b ∈ sep, 32 < b) {first : Nat} (ls : List (List Nat)) (pos i : Nat)
    (hfirst : first ≤ pos) (hdrop : content.drop pos = ls.flatten) (hpos : pos ≤ content.length) :
    sampleLoop content sep first (entriesOf pos ls) i =
      .done (if ls.all (fun l => !sep.isPrefixOf l) then none else
        some ((content.drop first).take (pos + (ls.takeWhile (fun l => !sep.isPrefixOf l)).flatten.length - first),
          i + (ls.takeWhile (fun l => !sep.isPrefixOf l)).length)) := by
  induction ls generalizing pos i with
  | nil => rfl
  | cons l ls ih =>
    have hlen : (content.drop pos).length = content.length - pos := List.length_drop
    rw [hdrop, List.flatten_cons, List.length_append] at hlen
    have hb := (body_prefix l).length_le
    rw [entriesOf, sampleLoop, slice_nat _ _ _ (by dsimp only; omega) (by dsimp only; omega), hdrop]
    have hline : ((l :: ls).flatten).take (pos + (body l).length - pos) = body l := by
      rw [Nat.add_sub_cancel_left, List.flatten_cons, List.take_append_of_le_length hb]
      exact (List.prefix_iff_eq_take.1 (body_prefix l)).symm
    simp only [orPanic, hline]
    rw [prefix_body hsep]
    by_cases hp : sep.isPrefixOf l = true
    · rw [if_pos hp, slice_nat _ _ _ hfirst hpos]
      simp [hp]
    · rw [if_neg hp, ih (pos + l.length) (i + 1) (by omega) (by
        rw [← List.drop_drop, hdrop, List.flatten_cons, List.drop_left]) (by omega)]
      have hp' : sep.isPrefixOf l = false := Bool.eq_false_iff.2 hp
      simp only [List.all_cons, hp', Bool.not_false, Bool.true_and, List.takeWhile_cons, if_true, List.flatten_cons, List.length_append, List.length_cons]
      congr 1
      split
      · rfl
      · rw [Nat.add_assoc pos, Nat.add_assoc i, Nat.add_comm 1]

theorem sourceSample_spec {content sep : List Nat} (hsep : ∀ b ∈ sep, 32 < b) {pos : Nat} {ls : List (List Nat)} (hne : ls ≠ [])
    (hdrop : content.drop pos = ls.flatten) (hpos : pos ≤ content.length) :
    sourceSample content (entriesOf pos ls) sep =
      .done ((ls.takeWhile (fun l => !sep.isPrefixOf l)).flatten, (ls.takeWhile (fun l => !sep.isPrefixOf l)).length) := by
  cases hc : ls with
  | nil => exact absurd hc hne
  | cons l ls' =>
    rw [entriesOf, sourceSample]
    have := sampleLoop_spec hsep (first := pos) ls pos 0 (Nat.le_refl _) hdrop hpos
    rw [hc, entriesOf] at this
    simp only [this, bindRun]
    rw [← hc]
    split
    · rename_i h
      split at h
      · cases h
      · cases h
        have hpre : (ls.takeWhile (fun l => !sep.isPrefixOf l)).flatten <+: ls.flatten := by
          conv_rhs => rw [← List.takeWhile_append_dropWhile (p := fun l => !sep.isPrefixOf l) (l := ls)]
          rw [List.flatten_append]
          exact List.prefix_append _ _
        rw [Nat.zero_add, Nat.add_sub_cancel_left, hdrop]
        rw [← List.prefix_iff_eq_take.1 hpre]
    · rename_i h
      split at h
      · rename_i hall
        rw [slice_nat _ _ _ hpos (Nat.le_refl _)]
        have hlen : (content.drop pos).length = content.length - pos := List.length_drop
        rw [List.take_of_length_le (by omega), hdrop, takeWhile_all (List.all_eq_true.1 hall)]
        simp only [orPanic]
        rw [hc]
        simp [entriesOf_length]
      · cases h

/-- Numbered samples. -/
def numbered : Nat → Nat → List (List (List Nat)) → List Sample
  | _, _, [] => []
  | i, n, g :: gs => ⟨i, n + 1, n + g.length, g.flatten⟩ :: numbered (i + 1) (n + (g.length + 1)) gs

theorem samplesLoop_spec {content sep : List Nat} (hsep : ∀ b ∈ sep, 32 < b) {ls : List (List Nat)} (hcont : content = ls.flatten)
    (fuel i n : Nat) (hf : ls.length - n < fuel) :
    samplesLoop content (entriesOf 0 ls) sep fuel i n = .done (numbered i n (groups sep [] (ls.drop n))) := by
  induction fuel generalizing i n with
  | zero => omega
  | succ fuel ih =>
    rw [samplesLoop, entriesOf_length]
    split
    · rename_i hlt
      rw [entriesOf_drop, Nat.zero_add]
      have hne : ls.drop n ≠ [] := by simp; omega
      have hsplit : ls.flatten = (ls.take n).flatten ++ (ls.drop n).flatten := by rw [← List.flatten_append, List.take_append_drop]
      rw [sourceSample_spec hsep hne (by rw [hcont, hsplit, List.drop_left]) (by rw [hcont, hsplit, List.length_append]; omega)]
      simp only [bindRun]
      rw [ih _ _ (by omega), groups_takeWhile sep [] (ls.drop n) (by simpa using hne), List.drop_drop]
      rfl
    · rename_i hge
      rw [List.drop_of_length_le (by omega)]
      rfl

theorem numbered_content (i n : Nat) (gs : List (List (List Nat))) : (numbered i n gs).map (·.content) = gs.map (·.flatten) := by
  induction gs generalizing i n with
  | nil => rfl
  | cons g gs ih => simp [numbered, ih]

/-- Numbers in names of samples: samples are counted from `i`, and the lines are those of the sample. -/
theorem numbered_lines (sep : List Nat) (ls : List (List Nat)) (k : Nat) : ∀ i n, ls.length - n ≤ k → ∀ j s,
    (numbered i n (groups sep [] (ls.drop n)))[j]? = some s →
      s.index = i + j ∧ n < s.first ∧ s.first ≤ s.last + 1 ∧ s.last ≤ ls.length ∧ s.content = ((ls.drop (s.first - 1)).take (s.last + 1 - s.first)).flatten := by
  induction k with
  | zero =>
    intro i n hk j s h
    rw [List.drop_of_length_le (by omega)] at h
    simp [groups, numbered] at h
  | succ k ih =>
    intro i n hk j s h
    by_cases hlt : n < ls.length
    · have hne : ls.drop n ≠ [] := by simp; omega
      rw [groups_takeWhile sep [] _ (by simpa using hne), List.nil_append, numbered] at h
      have hpre : (ls.drop n).takeWhile (fun l => !sep.isPrefixOf l) <+: ls.drop n := List.takeWhile_prefix _
      have hle := hpre.length_le
      rw [List.length_drop] at hle
      cases j with
      | zero =>
        simp only [List.getElem?_cons_zero, Option.some.injEq] at h
        subst h
        refine ⟨rfl, by simp, by simp, by simp; omega, ?_⟩
        simp only [Nat.add_sub_cancel]
        rw [show n + _ + 1 - (n + 1) = ((ls.drop n).takeWhile (fun l => !sep.isPrefixOf l)).length from by omega, ← List.prefix_iff_eq_take.1 hpre]
      | succ j =>
        rw [List.getElem?_cons_succ, List.drop_drop] at h
        obtain ⟨h1, h2, h3⟩ := ih (i + 1) _ (by omega) j s h
        exact ⟨by omega, by omega, h3⟩
    · rw [List.drop_of_length_le (by omega)] at h
      simp [groups, numbered] at h

end Verif.Proof.Samples
