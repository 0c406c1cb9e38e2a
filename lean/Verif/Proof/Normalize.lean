import Verif.Model.Source
import Verif.Proof.Go
import Verif.Spec.Text

namespace Verif.Model

open Verif.Spec.Text

/-- Replacement of newlines with a flag "previous byte is a carriage return (already replaced)". -/
def normF : Bool → List Nat → List Nat
  | _, [] => []
  | cr, b :: t =>
    if b = 10 then (if cr then normF false t else 10 :: normF false t)
    else if b = 13 then 10 :: normF true t
    else b :: normF false t

theorem normalize_cr_cons (b : Nat) (t : List Nat) (h : b ≠ 10) : normalize (13 :: b :: t) = 10 :: normalize (b :: t) := by
  rw [normalize]
  intro t' e
  simp at e
  exact h e.1

theorem normalize_cons {b : Nat} (h : b ≠ 13) (t : List Nat) : normalize (b :: t) = b :: normalize t := by
  rw [normalize]
  · intro t' e; exact absurd e h
  · intro e; exact absurd e h

theorem normF_eq (c : List Nat) :
    normF false c = normalize c ∧ 10 :: normF true c = normalize (13 :: c) := by
  induction c with
  | nil => simp [normF, normalize]
  | cons b t ih =>
    by_cases h1 : b = 10
    · subst h1
      refine ⟨by rw [normalize_cons (by omega)]; simp [normF, ih.1], ?_⟩
      rw [normalize, ← ih.1]; simp [normF]
    · by_cases h2 : b = 13
      · subst h2
        refine ⟨by rw [← ih.2]; simp [normF], ?_⟩
        rw [normalize_cr_cons _ _ (by omega), ← ih.2]; simp [normF]
      · refine ⟨by rw [normalize_cons h2]; simp [normF, h1, h2, ih.1], ?_⟩
        rw [normalize_cr_cons _ _ h1, normalize_cons h2, ← ih.1]; simp [normF, h1, h2]

/-- Output collected so far. -/
def outOf (a : List Nat) (w r i : Nat) : List Nat := a.take w ++ (a.drop r).take (i - r)

theorem outOf_append (a : List Nat) (w r i b : Nat) (hr : r ≤ i) (hb : a[i]? = some b) :
    outOf a w r (i + 1) = outOf a w r i ++ [b] := by
  unfold outOf
  obtain ⟨hlt, hb⟩ := List.getElem?_eq_some_iff.1 hb
  rw [show i + 1 - r = (i - r) + 1 by omega, List.take_succ_eq_append_getElem (by simp; omega)]
  simp [show r + (i - r) = i by omega, hb]

theorem copyAt_out (a : List Nat) (w r i : Nat) (hw : w ≤ r) (hr : r ≤ i) (hi : i ≤ a.length) :
    Go.copyAt a w ((a.drop r).take (i - r)) = some (outOf a w r i ++ a.drop (w + (i - r))) := by
  rw [Go.copyAt_nat (by omega)]
  unfold Go.copy outOf
  have e : ((a.drop r).take (i - r)).length = i - r := by rw [List.length_take, List.length_drop]; omega
  have e2 : ((a.drop r).take (i - r)).take (a.drop w).length = (a.drop r).take (i - r) :=
    List.take_of_length_le (by rw [e, List.length_drop]; omega)
  rw [e2, List.append_assoc, e, List.drop_drop]

theorem outOf_length (a : List Nat) (w r i : Nat) (hw : w ≤ r) (hr : r ≤ i) (hi : i ≤ a.length) :
    (outOf a w r i).length = w + (i - r) := by
  simp [outOf]; omega

theorem normalizeLoop_spec (c : List Nat) (n i : Nat) (a : List Nat) (w r : Nat) (cr : Bool)
    (hn : i + n = c.length) (hl : a.length = c.length) (hd : a.drop i = c.drop i)
    (hw : w ≤ r) (hr : r ≤ i) (h0 : r = 0 → w = 0)
    (hout : outOf a w r i ++ normF cr (c.drop i) = normalize c) :
    ∃ a' w' r' cr', normalizeLoop n i (a, w, r, cr) = some (a', w', r', cr') ∧ a'.length = c.length ∧
      w' ≤ r' ∧ r' ≤ c.length ∧ (r' = 0 → w' = 0) ∧ outOf a' w' r' c.length = normalize c := by
  induction n generalizing i a w r cr with
  | zero =>
    refine ⟨a, w, r, cr, rfl, hl, hw, by omega, h0, ?_⟩
    rw [List.drop_of_length_le (by omega)] at hout
    rw [← hout, show c.length = i by omega]; simp [normF]
  | succ n ih =>
    have hlt : i < c.length := by omega
    have hcd : c.drop i = c[i] :: c.drop (i + 1) := List.drop_eq_getElem_cons hlt
    have hai : a[i]? = some c[i] := by
      have := congrArg (fun l => l[0]?) hd
      simpa [List.getElem?_drop, List.getElem?_eq_getElem hlt] using this
    have had : a.drop (i + 1) = c.drop (i + 1) := by
      have := congrArg (fun l => l.drop 1) hd
      simpa [List.drop_drop] using this
    rw [hcd] at hout
    unfold normalizeLoop
    rw [hai]
    simp only [Option.bind_eq_bind, Option.bind_some]
    by_cases h1 : c[i] = 10
    · rw [if_pos h1]
      rw [h1] at hout hai
      cases cr with
      | true =>
        simp only [if_true]
        have this := outOf_length a w r i hw hr (by omega)
        have hfin : ∃ a' w' r' cr', normalizeLoop n (i + 1)
            (outOf a w r i ++ a.drop (w + (i - r)), w + (i - r), i + 1, false) = some (a', w', r', cr') ∧
            a'.length = c.length ∧ w' ≤ r' ∧ r' ≤ c.length ∧ (r' = 0 → w' = 0) ∧
            outOf a' w' r' c.length = normalize c := by
          apply ih (i + 1)
          · omega
          · simp [this]; omega
          · rw [List.drop_append, List.drop_of_length_le (by omega), List.nil_append, this, List.drop_drop, ← had]
            congr 1; omega
          · omega
          · omega
          · omega
          · rw [outOf, List.take_left' this, Nat.sub_self, List.take_zero, List.append_nil, ← hout]
            simp [normF]
        by_cases hz : r = 0
        · have hw0 := h0 hz
          subst hz; subst hw0
          simpa [outOf] using hfin
        · rw [if_pos hz, Go.slice_nat hr (by omega), Option.bind_some, copyAt_out a w r i hw hr (by omega)]
          exact hfin
      | false =>
        simp only [Bool.false_eq_true, if_false]
        apply ih (i + 1) _ _ _ _ (by omega) hl had hw (by omega) h0
        rw [outOf_append a w r i 10 hr hai, ← hout]
        simp [normF]
    · rw [if_neg h1]
      by_cases h2 : c[i] = 13
      · rw [if_pos h2, Go.setIndex_nat (by omega), Option.bind_some]
        have hout' : outOf (a.set i 10) w r i = outOf a w r i := by
          unfold outOf
          rw [List.take_set_of_le (by omega), List.drop_set, if_neg (by omega), List.take_set_of_le (Nat.le_refl _)]
        apply ih (i + 1) _ _ _ _ (by omega) (by simpa using hl)
        · rw [List.drop_set_of_lt (by omega), had]
        · exact hw
        · omega
        · exact h0
        · rw [outOf_append (a.set i 10) w r i 10 hr (by rw [List.getElem?_set_self (by omega)]), hout', ← hout, h2]
          simp [normF]
      · rw [if_neg h2]
        apply ih (i + 1) _ _ _ _ (by omega) hl had hw (by omega) h0
        rw [outOf_append a w r i _ hr hai, ← hout]
        simp [normF, h1, h2]

theorem normalizeNls_eq (c : List Nat) : normalizeNls c = some (normalize c) := by
  obtain ⟨a, w, r, cr, e, hl, hw, hr, h0, hout⟩ :=
    normalizeLoop_spec c c.length 0 c 0 0 false (by omega) rfl rfl (by omega) (by omega) (by omega)
      (by simp [outOf, (normF_eq c).1])
  unfold normalizeNls
  simp only [Option.bind_eq_bind]
  rw [e]
  simp only [Option.bind_some]
  by_cases hc : r ≠ 0 ∧ r < c.length
  · simp only [if_pos hc]
    rw [Go.slice_nat hr (by omega)]
    simp only [Option.bind_some]
    have hlen := outOf_length a w r c.length hw hr (by omega)
    rw [copyAt_out a w r c.length hw hr (by omega), Option.bind_some]
    rw [show ((c.length : Int) - r + w) = ((c.length - r + w : Nat) : Int) by omega]
    have := Go.slice_nat (a := outOf a w r c.length ++ a.drop (w + (c.length - r))) (lo := 0)
      (hi := c.length - r + w) (by omega) (by simp [hlen]; omega)
    rw [Int.ofNat_zero] at this
    rw [this, List.drop_zero, Nat.sub_zero, List.take_left' (by omega), hout]
  · simp only [if_neg hc, Option.bind_some]
    rw [show ((c.length : Int) - r + w) = ((c.length - r + w : Nat) : Int) by omega]
    have := Go.slice_nat (a := a) (lo := 0) (hi := c.length - r + w) (by omega) (by omega)
    rw [Int.ofNat_zero] at this
    rw [this, List.drop_zero, Nat.sub_zero, ← hout]
    by_cases hz : r = 0
    · have hw0 := h0 hz
      subst hz; subst hw0
      simp [outOf]
    · have : r = c.length := by omega
      subst this
      simp [outOf]

theorem normalize_no_cr (c : List Nat) : 13 ∉ normalize c := by
  have : ∀ cr, 13 ∉ normF cr c := by
    induction c with
    | nil => simp [normF]
    | cons b t ih =>
      intro cr
      by_cases h1 : b = 10
      · cases cr <;> simp [normF, h1, ih]
      · by_cases h2 : b = 13
        · simp [normF, h2, ih]
        · simp [normF, h1, h2, ih]; omega
  rw [← (normF_eq c).1]; exact this false

theorem normalize_id {c : List Nat} (h : 13 ∉ c) : normalize c = c := by
  induction c with
  | nil => rfl
  | cons b t ih =>
    simp only [List.mem_cons, not_or] at h
    rw [normalize_cons (fun e => h.1 e.symm), ih h.2]

end Verif.Model
