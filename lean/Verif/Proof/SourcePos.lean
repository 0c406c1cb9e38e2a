import Verif.Proof.Source

namespace Verif.Model.Source

open Verif.Spec.Text
open Verif.Model.Utf8 (width width_pos width_le width_take width_append_nl no_nl_in_rune rune_nl runeCount
  runeCount_nil runeCount_cons)

/-- The part of a text up to its first newline. -/
def firstLine (l : List Nat) : List Nat := l.takeWhile (· ≠ 10)

theorem firstLine_cons_nl (t : List Nat) : firstLine (10 :: t) = [] := by simp [firstLine]

theorem firstLine_cons {b : Nat} (h : b ≠ 10) (t : List Nat) : firstLine (b :: t) = b :: firstLine t := by
  simp [firstLine, h]

theorem firstLine_no_nl (l : List Nat) : 10 ∉ firstLine l := by
  induction l with
  | nil => simp [firstLine]
  | cons b t ih =>
    by_cases h : b = 10
    · subst h; simp [firstLine_cons_nl]
    · rw [firstLine_cons h]
      simp only [List.mem_cons, not_or]
      exact ⟨fun e => h e.symm, ih⟩

theorem firstLine_split (l : List Nat) : l = firstLine l ∨ ∃ q, l = firstLine l ++ 10 :: q := by
  induction l with
  | nil => left; rfl
  | cons b t ih =>
    by_cases h : b = 10
    · subst h; right; exact ⟨t, by simp [firstLine_cons_nl]⟩
    · rw [firstLine_cons h]
      rcases ih with ih | ⟨q, ih⟩
      · left; rw [← ih]
      · right; exact ⟨q, by rw [List.cons_append, ← ih]⟩

/-- The first rune of a text starting with anything but a newline lies within the first line. -/
theorem width_firstLine {b : Nat} (_ : b ≠ 10) (t : List Nat) :
    width (b :: firstLine t) = width (b :: t) := by
  rcases firstLine_split t with e | ⟨q, e⟩
  · rw [← e]
  · conv_rhs => rw [e, ← List.cons_append]
    exact (width_append_nl _ _ _).symm

theorem drop_firstLine {b : Nat} (h : b ≠ 10) (t : List Nat) :
    firstLine ((b :: t).drop (width (b :: t))) = (b :: firstLine t).drop (width (b :: t)) := by
  have hw := width_firstLine h t
  have hle := width_le (b :: firstLine t)
  have key : ∀ (w : Nat) (l : List Nat), w ≤ (firstLine l).length → firstLine (l.drop w) = (firstLine l).drop w := by
    intro w
    induction w with
    | zero => simp
    | succ w ih =>
      intro l hl
      cases l with
      | nil => simp [firstLine]
      | cons x l =>
        by_cases hx : x = 10
        · subst hx; rw [firstLine_cons_nl] at hl; simp at hl
        · rw [firstLine_cons hx] at hl ⊢
          simp only [List.drop_succ_cons]
          exact ih l (by simpa using hl)
  have := key (width (b :: t)) (b :: t) (by rw [firstLine_cons h, ← hw]; exact hle)
  rw [this, firstLine_cons h]

theorem skipRunes_cons (n b : Nat) (t : List Nat) :
    skipRunes width (n + 1) (b :: t) =
      width (b :: t) + skipRunes width n ((b :: t).drop (width (b :: t))) := rfl

theorem skipRunes_nil (n : Nat) : skipRunes width n [] = 0 := by cases n <;> rfl

theorem skipRunes_le (n : Nat) (l : List Nat) : skipRunes width n l ≤ l.length := by
  induction n generalizing l with
  | zero => simp [skipRunes]
  | succ n ih =>
    cases l with
    | nil => simp [skipRunes]
    | cons b t =>
      rw [skipRunes_cons]
      have h1 := width_le (b :: t)
      have h2 := ih ((b :: t).drop (width (b :: t)))
      rw [List.length_drop] at h2
      omega

theorem posLoop_eq (n : Nat) (l : List Nat) (res : Nat) :
    posLoop n l res = res + skipRunes width n (firstLine l) := by
  induction n generalizing l res with
  | zero => simp [posLoop, skipRunes]
  | succ n ih =>
    cases l with
    | nil => simp [posLoop, firstLine, skipRunes_nil]
    | cons b t =>
      unfold posLoop
      by_cases h : b = 10
      · have : (Utf8.decodeRune (b :: t)).1 = LF := (rune_nl b t).2 h
        simp only [this, if_true]
        subst h
        simp [firstLine_cons_nl, skipRunes_nil]
      · have : ¬ (Utf8.decodeRune (b :: t)).1 = LF := fun e => h ((rune_nl b t).1 e)
        simp only [this, if_false]
        rw [ih, firstLine_cons h, skipRunes_cons, width_firstLine h]
        have e := drop_firstLine h t
        have ew : (Utf8.decodeRune (b :: t)).2 = width (b :: t) := rfl
        rw [ew, e]; omega

theorem splitLines_ne (c : List Nat) : splitLines c ≠ [] := by
  cases c with
  | nil => simp [splitLines]
  | cons b t =>
    unfold splitLines
    split
    · simp
    · split <;> simp

theorem splitLines_cons {b : Nat} (h : b ≠ 10) (t : List Nat) :
    ∃ l ls, splitLines t = l :: ls ∧ splitLines (b :: t) = (b :: l) :: ls := by
  cases e : splitLines t with
  | nil => exact absurd e (splitLines_ne t)
  | cons l ls => exact ⟨l, ls, rfl, by simp [splitLines, h, e]⟩

theorem splitLines_length (c : List Nat) : (splitLines c).length = c.count 10 + 1 := by
  induction c with
  | nil => simp [splitLines]
  | cons b t ih =>
    by_cases h : b = 10
    · simp [splitLines, h, ih]
    · obtain ⟨l, ls, e1, e2⟩ := splitLines_cons h t
      rw [e2, List.count_cons_of_ne h, ← ih, e1]; simp

theorem lineStart_succ (l : List Nat) (ls : List (List Nat)) (i : Nat) :
    lineStart (l :: ls) (i + 1) = l.length + 1 + lineStart ls i := by
  simp [lineStart]

theorem nls_lineStart (c : List Nat) (o i : Nat) (h : i + 1 < (splitLines c).length) :
    (nls c o)[i]? = some (o + lineStart (splitLines c) (i + 1)) := by
  induction c generalizing o i with
  | nil => simp [splitLines] at h
  | cons b t ih =>
    by_cases hb : b = 10
    · subst hb
      simp only [splitLines, if_true] at h ⊢
      rw [lineStart_succ]
      simp only [nls, if_true]
      cases i with
      | zero => simp [lineStart]
      | succ i =>
        rw [List.getElem?_cons_succ, ih _ _ (by simpa using h)]
        simp; omega
    · obtain ⟨l, ls, e1, e2⟩ := splitLines_cons hb t
      rw [e2] at h ⊢
      simp only [nls, if_neg hb]
      rw [ih _ _ (by rw [e1]; simpa using h), e1, lineStart_succ, lineStart_succ]
      simp; omega

theorem starts_lineStart (c : List Nat) (i : Nat) (h : i < (splitLines c).length) :
    (startsOf c)[i]? = some (lineStart (splitLines c) i) := by
  cases i with
  | zero => simp [startsOf, lineStart]
  | succ i => simpa [startsOf] using nls_lineStart c 0 i h

theorem splitLines_get (c : List Nat) (i : Nat) (h : i < (splitLines c).length) :
    (splitLines c)[i]? = some (firstLine (c.drop (lineStart (splitLines c) i))) := by
  induction c generalizing i with
  | nil => simp [splitLines] at h; subst h; simp [splitLines, firstLine]
  | cons b t ih =>
    by_cases hb : b = 10
    · subst hb
      simp only [splitLines, if_true] at h ⊢
      cases i with
      | zero => simp [lineStart, firstLine]
      | succ i =>
        rw [lineStart_succ, List.getElem?_cons_succ, ih i (by simpa using h)]
        simp [Nat.add_comm 1, List.drop_succ_cons]
    · obtain ⟨l, ls, e1, e2⟩ := splitLines_cons hb t
      rw [e2] at h ⊢
      have h0 := ih 0 (by rw [e1]; simp)
      cases i with
      | zero =>
        rw [e1] at h0
        simp [lineStart] at h0
        simp [lineStart, firstLine_cons hb, h0]
      | succ i =>
        have h1 := ih (i + 1) (by rw [e1]; simpa using h)
        rw [e1, lineStart_succ] at h1
        rw [lineStart_succ, List.getElem?_cons_succ]
        rw [List.getElem?_cons_succ] at h1
        rw [h1, List.length_cons, show l.length + 1 + 1 + lineStart ls i = (l.length + 1 + lineStart ls i) + 1 by omega,
          List.drop_succ_cons]

/-- Closed form of `Pos`. -/
theorem pos_spec {s : Source} (h : Wf s) (line col : Int) :
    s.pos line col = some
      (if line ≤ 0 ∨ col ≤ 0 then 0
       else match (splitLines s.content)[(line - 1).toNat]? with
         | none => (s.content.length : Int)
         | some l => (lineStart (splitLines s.content) (line - 1).toNat + skipRunes width (col - 1).toNat l : Nat)) := by
  unfold pos
  by_cases h0 : line ≤ 0 ∨ col ≤ 0
  · simp [h0]
  · rw [if_neg h0, if_neg h0]
    have hlen : s.lineStarts.length = (splitLines s.content).length := by
      rw [h.starts, startsOf_length, splitLines_length]
    by_cases h1 : line > s.lineStarts.length
    · have : (splitLines s.content)[(line - 1).toNat]? = none := List.getElem?_eq_none (by omega)
      rw [this]
      simp [h1]
    · have hlt : (line - 1).toNat < (splitLines s.content).length := by omega
      have e1 := starts_lineStart s.content _ hlt
      have e2 := splitLines_get s.content _ hlt
      have hle := starts_le e1
      have e3 : Go.index s.lineStarts (line - 1) = some (lineStart (splitLines s.content) (line - 1).toNat) := by
        rw [← e1, ← Go.index_nat, h.starts]; congr 1; omega
      rw [e2]
      simp only [if_neg h1]
      rw [e3]
      simp only [Option.bind_eq_bind, Option.bind_some]
      rw [Go.slice_nat hle (Nat.le_refl _)]
      simp only [Option.bind_some, Option.pure_def]
      rw [List.take_of_length_le (by simp), posLoop_eq]
      have hb := skipRunes_le (col - 1).toNat (firstLine (s.content.drop (lineStart (splitLines s.content) (line - 1).toNat)))
      have hb2 : (firstLine (s.content.drop (lineStart (splitLines s.content) (line - 1).toNat))).length ≤
          s.content.length - lineStart (splitLines s.content) (line - 1).toNat := by
        rw [← List.length_drop]; exact List.Sublist.length_le (List.takeWhile_sublist _)
      rw [if_neg (by omega)]

/-! ### Round trips -/

theorem runeCount_take_skip (n : Nat) (l : List Nat) :
    runeCount (l.take (skipRunes width n l)) = min n (runeCount l) ∧
    skipRunes width (min n (runeCount l)) l = skipRunes width n l := by
  induction n generalizing l with
  | zero => simp [skipRunes, runeCount_nil]
  | succ n ih =>
    cases l with
    | nil => simp [skipRunes, runeCount_nil]
    | cons b t =>
      have hw := width_pos b t
      obtain ⟨i1, i2⟩ := ih ((b :: t).drop (width (b :: t)))
      rw [skipRunes_cons]
      constructor
      · obtain ⟨m, hm⟩ : ∃ m, width (b :: t) + skipRunes width n ((b :: t).drop (width (b :: t))) = m + 1 :=
          ⟨_, (Nat.sub_add_cancel (by omega)).symm⟩
        have hwt : width ((b :: t).take (m + 1)) = width (b :: t) := width_take (by omega)
        rw [hm, List.take_succ_cons, runeCount_cons, ← List.take_succ_cons, hwt, List.drop_take,
          show m + 1 - width (b :: t) = skipRunes width n ((b :: t).drop (width (b :: t))) by omega, i1]
        rw [runeCount_cons b t]; omega
      · rw [runeCount_cons, Nat.add_min_add_right, skipRunes_cons, i2]

theorem boundary_drop {c : List Nat} {n s : Nat} (hs : s = 0 ∨ c[s - 1]? = some 10)
    (hle : s ≤ skipRunes width n c) : ∃ m, skipRunes width n c - s = skipRunes width m (c.drop s) := by
  induction n generalizing c s with
  | zero =>
    have : s = 0 := by simp [skipRunes] at hle; omega
    subst this; exact ⟨0, by simp [skipRunes]⟩
  | succ n ih =>
    rcases hs with rfl | hs
    · exact ⟨n + 1, by simp⟩
    cases c with
    | nil => simp at hs
    | cons b t =>
      rw [skipRunes_cons] at hle ⊢
      by_cases h0 : s = 0
      · subst h0; exact ⟨n + 1, by rw [List.drop_zero, skipRunes_cons]; omega⟩
      have hw : width (b :: t) ≤ s := by
        by_contra hc
        by_cases hb : b = 10
        · subst hb; rw [Utf8.width_nl] at hc; omega
        · apply no_nl_in_rune b t hb
          rw [List.mem_take_iff_getElem]
          obtain ⟨hlt, h3⟩ := List.getElem?_eq_some_iff.1 hs
          exact ⟨s - 1, by omega, h3⟩
      have hs' : s - width (b :: t) = 0 ∨ ((b :: t).drop (width (b :: t)))[s - width (b :: t) - 1]? = some 10 := by
        by_cases hx : s - width (b :: t) = 0
        · exact Or.inl hx
        · right
          rw [List.getElem?_drop, ← hs]; congr 1; omega
      obtain ⟨m, hm⟩ := ih hs' (by omega)
      refine ⟨m, ?_⟩
      rw [List.drop_drop, show width (b :: t) + (s - width (b :: t)) = s by omega] at hm
      rw [← hm]; omega

theorem boundary_firstLine {l : List Nat} {n : Nat} (h : 10 ∉ l.take (skipRunes width n l)) :
    skipRunes width n (firstLine l) = skipRunes width n l := by
  induction n generalizing l with
  | zero => rfl
  | succ n ih =>
    cases l with
    | nil => rfl
    | cons b t =>
      rw [skipRunes_cons] at h ⊢
      have hw := width_pos b t
      have hb : b ≠ 10 := by
        rintro rfl
        apply h
        obtain ⟨m, hm⟩ : ∃ m, width (10 :: t) + skipRunes width n ((10 :: t).drop (width (10 :: t))) = m + 1 :=
          ⟨_, (Nat.sub_add_cancel (by omega)).symm⟩
        rw [hm]; simp
      rw [firstLine_cons hb, skipRunes_cons, width_firstLine hb, ← drop_firstLine hb, ih]
      intro hm
      apply h
      rw [List.take_add]
      exact List.mem_append_right _ hm

theorem firstLine_drop_length {c : List Nat} (s : Nat) : (firstLine (c.drop s)).length ≤ c.length - s := by
  rw [← List.length_drop]; exact List.Sublist.length_le (List.takeWhile_sublist _)

theorem idx_eq {c : List Nat} {p k : Nat} (h : IsIdx (startsOf c) p k) : k < (splitLines c).length := by
  rw [splitLines_length, ← startsOf_length]; exact h.lt

theorem take_firstLine (l : List Nat) (q : Nat) (h : q ≤ (firstLine l).length) : (firstLine l).take q = l.take q := by
  rcases firstLine_split l with e | ⟨r, e⟩
  · rw [← e]
  · conv_rhs => rw [e]
    rw [List.take_append_of_le_length h]

/-- Number of line with offset `lineStart + q`, where `q` does not exceed the length of the line. -/
theorem isIdx_of {c : List Nat} {i q : Nat} (h : i < (splitLines c).length)
    (hq : q ≤ (firstLine (c.drop (lineStart (splitLines c) i))).length) :
    IsIdx (startsOf c) (lineStart (splitLines c) i + q) i := by
  refine ⟨_, starts_lineStart c i h, by omega, ?_⟩
  intro t ht
  have hi : i + 1 < (splitLines c).length := by
    have := (List.getElem?_eq_some_iff.1 ht).1
    rw [startsOf_length] at this; rw [splitLines_length]; exact this
  rw [starts_lineStart c _ hi] at ht
  have hs : lineStart (splitLines c) (i + 1) =
      lineStart (splitLines c) i + ((firstLine (c.drop (lineStart (splitLines c) i))).length + 1) := by
    have e := splitLines_get c i h
    have hg := (List.getElem?_eq_some_iff.1 e).2
    unfold lineStart
    rw [List.take_succ_eq_append_getElem h, List.map_append, List.sum_append, hg]
    simp [lineStart]
  have := Option.some.inj ht
  omega

end Verif.Model.Source
