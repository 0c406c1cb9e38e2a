import Verif.Model.Utf8
import Verif.Spec.Text

namespace Verif.Model.Utf8

open Verif.Spec

theorem first_cases (b : Nat) :
    ((b < 0xC2 ∨ 0xF5 ≤ b) ∧ first b = (0, 0, 0)) ∨
    ((0xC2 ≤ b ∧ b ≤ 0xDF) ∧ first b = (2, 0x80, 0xBF)) ∨
    (b = 0xE0 ∧ first b = (3, 0xA0, 0xBF)) ∨
    ((0xE1 ≤ b ∧ b ≤ 0xEF ∧ b ≠ 0xED) ∧ first b = (3, 0x80, 0xBF)) ∨
    (b = 0xED ∧ first b = (3, 0x80, 0x9F)) ∨
    (b = 0xF0 ∧ first b = (4, 0x90, 0xBF)) ∨
    ((0xF1 ≤ b ∧ b ≤ 0xF3) ∧ first b = (4, 0x80, 0xBF)) ∨
    (b = 0xF4 ∧ first b = (4, 0x80, 0x8F)) := by
  unfold first
  by_cases h1 : b < 0xC2
  · exact Or.inl ⟨Or.inl h1, if_pos h1⟩
  rw [if_neg h1]
  by_cases h2 : b ≤ 0xDF
  · exact Or.inr (Or.inl ⟨by omega, if_pos h2⟩)
  rw [if_neg h2]
  by_cases h3 : b = 0xE0
  · exact Or.inr (Or.inr (Or.inl ⟨h3, if_pos h3⟩))
  rw [if_neg h3]
  by_cases h4 : b ≤ 0xEC
  · exact Or.inr (Or.inr (Or.inr (Or.inl ⟨by omega, if_pos h4⟩)))
  rw [if_neg h4]
  by_cases h5 : b = 0xED
  · exact Or.inr (Or.inr (Or.inr (Or.inr (Or.inl ⟨by omega, if_pos h5⟩))))
  rw [if_neg h5]
  by_cases h6 : b ≤ 0xEF
  · exact Or.inr (Or.inr (Or.inr (Or.inl ⟨by omega, if_pos h6⟩)))
  rw [if_neg h6]
  by_cases h7 : b = 0xF0
  · exact Or.inr (Or.inr (Or.inr (Or.inr (Or.inr (Or.inl ⟨by omega, if_pos h7⟩)))))
  rw [if_neg h7]
  by_cases h8 : b ≤ 0xF3
  · exact Or.inr (Or.inr (Or.inr (Or.inr (Or.inr (Or.inr (Or.inl ⟨by omega, if_pos h8⟩))))))
  rw [if_neg h8]
  by_cases h9 : b = 0xF4
  · exact Or.inr (Or.inr (Or.inr (Or.inr (Or.inr (Or.inr (Or.inr ⟨by omega, if_pos h9⟩))))))
  rw [if_neg h9]
  exact Or.inl ⟨by omega, rfl⟩

theorem decode_cases (b0 : Nat) (t : List Nat) :
    (0x80 ≤ b0 ∧ decodeRune (b0 :: t) = (runeError, 1)) ∨
    ∃ pre rest, t = pre ++ rest ∧ (∀ b ∈ pre, 0x80 ≤ b) ∧ (decodeRune (b0 :: t)).2 = pre.length + 1 ∧
      (∀ rest', decodeRune (b0 :: (pre ++ rest')) = decodeRune (b0 :: t)) ∧
      (0x80 ≤ b0 → 0x80 ≤ (decodeRune (b0 :: t)).1) ∧
      (b0 < 0x80 → pre = [] ∧ (decodeRune (b0 :: t)).1 = b0) := by
  by_cases h0 : b0 < 0x80
  · right
    refine ⟨[], t, rfl, by simp, by simp [decodeRune, h0], by simp [decodeRune, h0], by omega,
      by simp [decodeRune, h0]⟩
  · have h0' : 0x80 ≤ b0 := by omega
    by_cases hc : decodeRune (b0 :: t) = (runeError, 1)
    · exact Or.inl ⟨h0', hc⟩
    · right
      have hf : first b0 = (0, 0, 0) ∨
          (∃ lo hi, first b0 = (2, lo, hi) ∧ 0x80 ≤ lo ∧ 0xC2 ≤ b0) ∨
          (∃ lo hi, first b0 = (3, lo, hi) ∧ 0x80 ≤ lo ∧ 0xE0 ≤ b0 ∧ (b0 = 0xE0 → 0xA0 ≤ lo)) ∨
          (∃ lo hi, first b0 = (4, lo, hi) ∧ 0x80 ≤ lo ∧ 0xF0 ≤ b0 ∧ (b0 = 0xF0 → 0x90 ≤ lo)) := by
        rcases first_cases b0 with ⟨h, e⟩ | ⟨h, e⟩ | ⟨h, e⟩ | ⟨h, e⟩ | ⟨h, e⟩ | ⟨h, e⟩ | ⟨h, e⟩ | ⟨h, e⟩
        · exact Or.inl e
        · exact Or.inr (Or.inl ⟨_, _, e, by omega, by omega⟩)
        · exact Or.inr (Or.inr (Or.inl ⟨_, _, e, by omega, by omega, by omega⟩))
        · exact Or.inr (Or.inr (Or.inl ⟨_, _, e, by omega, by omega, by omega⟩))
        · exact Or.inr (Or.inr (Or.inl ⟨_, _, e, by omega, by omega, by omega⟩))
        · exact Or.inr (Or.inr (Or.inr ⟨_, _, e, by omega, by omega, by omega⟩))
        · exact Or.inr (Or.inr (Or.inr ⟨_, _, e, by omega, by omega, by omega⟩))
        · exact Or.inr (Or.inr (Or.inr ⟨_, _, e, by omega, by omega, by omega⟩))
      rcases hf with hf | ⟨lo, hi, hf, hlo, hb⟩ | ⟨lo, hi, hf, hlo, hb, hb2⟩ | ⟨lo, hi, hf, hlo, hb, hb2⟩
      · exact absurd (by simp [decodeRune, h0, hf]) hc
      · match t with
        | [] => exact absurd (by simp [decodeRune, h0, hf]) hc
        | b1 :: t' =>
          by_cases hr : lo ≤ b1 ∧ b1 ≤ hi
          · refine ⟨[b1], t', rfl, by simp; omega, by simp [decodeRune, h0, hf, hr],
              by simp [decodeRune, h0, hf, hr], ?_, by omega⟩
            intro _
            simp only [decodeRune, h0, hf, hr, if_false]
            simp; omega
          · exact absurd (by simp [decodeRune, h0, hf, hr]) hc
      · match t with
        | [] => exact absurd (by simp [decodeRune, h0, hf]) hc
        | [b1] => exact absurd (by simp [decodeRune, h0, hf]) hc
        | b1 :: b2 :: t' =>
          by_cases hr : lo ≤ b1 ∧ b1 ≤ hi ∧ cont b2
          · have h2 : 0x80 ≤ b2 ∧ b2 ≤ 0xBF := by simpa [cont] using hr.2.2
            refine ⟨[b1, b2], t', rfl, by simp; omega, by simp [decodeRune, h0, hf, hr],
              by simp [decodeRune, h0, hf, hr], ?_, by omega⟩
            intro _
            simp only [decodeRune, h0, hf, hr, if_false]
            simp; omega
          · exact absurd (by simp only [decodeRune, h0, hf, hr, if_false]) hc
      · match t with
        | [] => exact absurd (by simp [decodeRune, h0, hf]) hc
        | [b1] => exact absurd (by simp [decodeRune, h0, hf]) hc
        | [b1, b2] => exact absurd (by simp [decodeRune, h0, hf]) hc
        | b1 :: b2 :: b3 :: t' =>
          by_cases hr : lo ≤ b1 ∧ b1 ≤ hi ∧ cont b2 ∧ cont b3
          · have h2 : 0x80 ≤ b2 ∧ b2 ≤ 0xBF := by simpa [cont] using hr.2.2.1
            have h3 : 0x80 ≤ b3 ∧ b3 ≤ 0xBF := by simpa [cont] using hr.2.2.2
            refine ⟨[b1, b2, b3], t', rfl, by simp; omega, by simp [decodeRune, h0, hf, hr],
              by simp [decodeRune, h0, hf, hr], ?_, by omega⟩
            intro _
            simp only [decodeRune, h0, hf, hr, if_false]
            simp; omega
          · exact absurd (by simp only [decodeRune, h0, hf, hr, if_false]) hc

/-- Width of the first rune. -/
def width (l : List Nat) : Nat := (decodeRune l).2

theorem width_pos (b : Nat) (t : List Nat) : 1 ≤ width (b :: t) := decodeRune_width_pos b t

theorem width_le (l : List Nat) : width l ≤ l.length := by
  cases l with
  | nil => simp [width, decodeRune]
  | cons b t =>
    rcases decode_cases b t with ⟨_, h⟩ | ⟨pre, rest, ht, _, h, _⟩
    · simp [width, h]
    · rw [width, h, ht]; simp

theorem rune_nl (b : Nat) (t : List Nat) : (decodeRune (b :: t)).1 = 10 ↔ b = 10 := by
  rcases decode_cases b t with ⟨h1, h⟩ | ⟨pre, rest, ht, _, h, _, h1, h2⟩
  · simp only [h, runeError]; omega
  · by_cases hb : b < 0x80
    · rw [(h2 hb).2]
    · have := h1 (by omega); omega

theorem width_nl (t : List Nat) : width (10 :: t) = 1 := by
  simp [width, decodeRune]

/-- Decoding depends only on the bytes of the rune: cutting the rest off does not matter. -/
theorem decode_take (l : List Nat) (n : Nat) (h : width l ≤ n) : decodeRune (l.take n) = decodeRune l := by
  cases l with
  | nil => simp
  | cons b t =>
    have hw := width_pos b t
    obtain ⟨m, rfl⟩ : ∃ m, n = m + 1 := ⟨n - 1, by omega⟩
    rw [List.take_succ_cons]
    rcases decode_cases b t with ⟨h1, e⟩ | ⟨pre, rest, ht, _, e, hr, _⟩
    · rcases decode_cases b (t.take m) with ⟨_, e'⟩ | ⟨pre, rest, ht, _, e', hr, _⟩
      · rw [e, e']
      · have := hr (rest ++ t.drop m)
        rw [← List.append_assoc, ← ht, List.take_append_drop] at this
        exact this.symm
    · have hl : pre.length ≤ m := by rw [width, e] at h; omega
      have : t.take m = pre ++ rest.take (m - pre.length) := by
        rw [ht, List.take_append, List.take_of_length_le hl]
      rw [this, hr]

/-- Decoding stops at a newline: what follows a non-empty string after a newline does not matter. -/
theorem decode_append_nl (b : Nat) (t q : List Nat) :
    decodeRune (b :: t ++ 10 :: q) = decodeRune (b :: t) := by
  rw [List.cons_append]
  rcases decode_cases b t with ⟨h1, e⟩ | ⟨pre, rest, ht, _, e, hr, _⟩
  · rcases decode_cases b (t ++ 10 :: q) with ⟨_, e'⟩ | ⟨pre, rest, ht, hp, e', hr, _⟩
    · rw [e, e']
    · -- the bytes of the rune lie inside `t`
      obtain ⟨t', h⟩ : ∃ t', t = pre ++ t' := by
        rcases List.append_eq_append_iff.1 ht with ⟨a, h1, h2⟩ | ⟨a, h1, h2⟩
        · cases a with
          | nil => exact ⟨[], by simpa using h1.symm⟩
          | cons x a =>
            exfalso
            have : x = 10 := by simp at h2; exact h2.1.symm
            have := hp x (by rw [h1]; simp)
            omega
        · exact ⟨a, h1⟩
      rw [← hr (t'), ← h]
  · rw [ht, List.append_assoc, hr, ht]

theorem width_take {l : List Nat} {n : Nat} (h : width l ≤ n) : width (l.take n) = width l := by
  rw [width, decode_take l n h, width]

theorem width_append_nl (b : Nat) (t q : List Nat) : width (b :: t ++ 10 :: q) = width (b :: t) := by
  rw [width, decode_append_nl, width]

/-- A rune starting with something else than a newline contains no newline. -/
theorem no_nl_in_rune (b : Nat) (t : List Nat) (hb : b ≠ 10) : 10 ∉ (b :: t).take (width (b :: t)) := by
  rcases decode_cases b t with ⟨h1, e⟩ | ⟨pre, rest, ht, hp, e, hr, _⟩
  · simp only [width, e, List.take_succ_cons, List.take_zero, List.mem_singleton]; omega
  · rw [width, e, List.take_succ_cons, ht, List.take_left]
    simp only [List.mem_cons, not_or]
    exact ⟨fun h => hb h.symm, fun h => by have := hp 10 h; omega⟩

theorem runeCount_nil : runeCount [] = 0 := by rw [runeCount]

theorem runeCount_cons (b : Nat) (t : List Nat) :
    runeCount (b :: t) = runeCount ((b :: t).drop (width (b :: t))) + 1 := by
  rw [runeCount]; rfl

/-! ### Encoding of scalar values -/

theorem decode_encode (r : Nat) (hr : Text.IsScalar r) (rest : List Nat) :
    decodeRune (Text.encodeRune r ++ rest) = (r, (Text.encodeRune r).length) := by
  unfold Text.encodeRune
  have hmax : r < 0x110000 := by rcases hr with h | h <;> omega
  split
  · rename_i h; simp [decodeRune, h]
  · split
    · rename_i h1 h2
      have hf : first (0xC0 + r / 64) = (2, 0x80, 0xBF) := by
        rcases first_cases (0xC0 + r / 64) with ⟨h, e⟩ | ⟨h, e⟩ | ⟨h, e⟩ | ⟨h, e⟩ | ⟨h, e⟩ | ⟨h, e⟩ | ⟨h, e⟩ | ⟨h, e⟩ <;> first | exact e | omega
      have h0 : ¬ (0xC0 + r / 64 < 0x80) := by omega
      simp only [List.cons_append, List.nil_append, decodeRune, h0, hf, if_false]
      rw [if_pos (by omega)]
      simp; omega
    · split
      · rename_i h1 h2 h3
        have h0 : ¬ (0xE0 + r / 4096 < 0x80) := by omega
        have hf : ∃ lo hi, first (0xE0 + r / 4096) = (3, lo, hi) ∧ lo ≤ 0x80 + r / 64 % 64 ∧
            0x80 + r / 64 % 64 ≤ hi := by
          unfold Text.IsScalar at hr
          rcases first_cases (0xE0 + r / 4096) with ⟨h, e⟩ | ⟨h, e⟩ | ⟨h, e⟩ | ⟨h, e⟩ | ⟨h, e⟩ | ⟨h, e⟩ | ⟨h, e⟩ | ⟨h, e⟩ <;>
            first | exact ⟨_, _, e, by omega, by omega⟩ | omega
        obtain ⟨lo, hi, hf, hlo, hhi⟩ := hf
        simp only [List.cons_append, List.nil_append, decodeRune, h0, hf, if_false]
        have hc : cont (0x80 + r % 64) = true := by simp [cont]; omega
        rw [if_pos ⟨hlo, hhi, hc⟩]
        simp; omega
      · rename_i h1 h2 h3
        have h0 : ¬ (0xF0 + r / 262144 < 0x80) := by omega
        have hf : ∃ lo hi, first (0xF0 + r / 262144) = (4, lo, hi) ∧ lo ≤ 0x80 + r / 4096 % 64 ∧
            0x80 + r / 4096 % 64 ≤ hi := by
          rcases first_cases (0xF0 + r / 262144) with ⟨h, e⟩ | ⟨h, e⟩ | ⟨h, e⟩ | ⟨h, e⟩ | ⟨h, e⟩ | ⟨h, e⟩ | ⟨h, e⟩ | ⟨h, e⟩ <;>
            first | exact ⟨_, _, e, by omega, by omega⟩ | omega
        obtain ⟨lo, hi, hf, hlo, hhi⟩ := hf
        simp only [List.cons_append, List.nil_append, decodeRune, h0, hf, if_false]
        have hc : cont (0x80 + r % 64) = true := by simp [cont]; omega
        have hc2 : cont (0x80 + r / 64 % 64) = true := by simp [cont]; omega
        rw [if_pos ⟨hlo, hhi, hc2, hc⟩]
        simp; omega

theorem encodeRune_ne_nil (r : Nat) : Text.encodeRune r ≠ [] := by
  unfold Text.encodeRune; split_ifs <;> simp

/-- Number of runes of a well-formed text. -/
theorem runeCount_encode (rs : List Nat) (h : ∀ r ∈ rs, Text.IsScalar r) :
    runeCount (Text.encode rs) = rs.length := by
  induction rs with
  | nil => exact runeCount_nil
  | cons r rs ih =>
    have e : Text.encode (r :: rs) = Text.encodeRune r ++ Text.encode rs := by simp [Text.encode]
    have hd := decode_encode r (h r (by simp)) (Text.encode rs)
    obtain ⟨b, t, hbt⟩ : ∃ b t, Text.encodeRune r = b :: t := by
      cases hx : Text.encodeRune r with
      | nil => exact absurd hx (encodeRune_ne_nil r)
      | cons b t => exact ⟨b, t, rfl⟩
    have hw : width (Text.encodeRune r ++ Text.encode rs) = (Text.encodeRune r).length := by
      rw [width, hd]
    rw [e]
    have := runeCount_cons b (t ++ Text.encode rs)
    rw [← List.cons_append, ← hbt, hw, List.drop_left, ih (fun x hx => h x (by simp [hx]))] at this
    rw [this]; rfl

end Verif.Model.Utf8
