/-
String literals of grammar descriptions.
-/
import Verif.Spec.Escape
import Mathlib.Data.List.Basic

namespace Verif.Proof.Escape

open Verif.Model Verif.Spec.Escape

theorem hexDigit_spec (c d : Nat) : hexDigit c = some d ↔ (c, d) ∈ digits := by
  unfold hexDigit digits
  simp only [List.mem_append, List.mem_map, List.mem_range, Prod.mk.injEq]
  constructor
  · intro h
    split at h
    · left; left; exact ⟨c - 48, by omega, by omega, by simpa using h⟩
    · split at h
      · left; right; refine ⟨c - 97, by omega, by omega, ?_⟩; simp only [Option.some.injEq] at h; omega
      · split at h
        · right; refine ⟨c - 65, by omega, by omega, ?_⟩; simp only [Option.some.injEq] at h; omega
        · cases h
  · rintro ((⟨k, h1, rfl, rfl⟩ | ⟨k, h1, rfl, rfl⟩) | ⟨k, h1, rfl, rfl⟩)
    · rw [if_pos (by omega)]; simp
    · rw [if_neg (by omega), if_pos (by omega)]; simp; omega
    · rw [if_neg (by omega), if_neg (by omega), if_pos (by omega)]; simp; omega

theorem digit_plain {c d : Nat} (h : (c, d) ∈ digits) : c ≠ 34 ∧ c ≠ 92 ∧ d < 16 := by
  rw [← hexDigit_spec] at h
  unfold hexDigit at h
  split at h
  · simp only [Option.some.injEq] at h; omega
  · split at h
    · simp only [Option.some.injEq] at h; omega
    · split at h
      · simp only [Option.some.injEq] at h; omega
      · cases h

theorem hex_snoc {ds : List Nat} {c n : Nat} : Hex (ds ++ [c]) n ↔ ∃ m d, Hex ds m ∧ (c, d) ∈ digits ∧ n = m * 16 + d := by
  constructor
  · intro h
    generalize he : ds ++ [c] = l at h
    cases h with
    | nil => simp at he
    | @snoc ds' m c' d h hd =>
      obtain ⟨rfl, h2⟩ := List.append_inj' he rfl
      cases h2
      exact ⟨m, d, h, hd, rfl⟩
  · rintro ⟨m, d, h, hd, rfl⟩; exact .snoc h hd

theorem hex_bound {ds : List Nat} {n : Nat} (h : Hex ds n) : n < 16 ^ ds.length ∧ ∀ c ∈ ds, c ≠ 34 ∧ c ≠ 92 := by
  induction h with
  | nil => simp
  | @snoc ds n c d h hd ih =>
    obtain ⟨k1, k2, k3⟩ := digit_plain hd
    refine ⟨?_, ?_⟩
    · rw [List.length_append, List.length_singleton, pow_succ]; omega
    · intro x hx
      rcases List.mem_append.1 hx with hx | hx
      · exact ih.2 x hx
      · rw [List.mem_singleton.1 hx]; exact ⟨k1, k2⟩

theorem parseHexLoop_append (a b : List Nat) (n : Nat) : parseHexLoop (a ++ b) n = (parseHexLoop a n).bind (parseHexLoop b) := by
  induction a generalizing n with
  | nil => rfl
  | cons c a ih =>
    simp only [List.cons_append, parseHexLoop]
    cases hexDigit c with
    | none => rfl
    | some d =>
      simp only
      split
      · rfl
      · exact ih _

theorem parseHexLoop_spec (ds : List Nat) (hl : ds.length ≤ 8) (n : Nat) : parseHexLoop ds 0 = some n ↔ Hex ds n := by
  induction ds using List.reverseRecOn generalizing n with
  | nil =>
    simp only [parseHexLoop, Option.some.injEq]
    constructor
    · rintro rfl; exact .nil
    · intro h
      generalize he : ([] : List Nat) = l at h
      cases h with
      | nil => rfl
      | snoc => simp at he
  | append_singleton ds c ih =>
    rw [List.length_append, List.length_singleton] at hl
    have ih := fun n => ih (by omega) n
    rw [hex_snoc, parseHexLoop_append]
    simp only [Option.bind_eq_some_iff, ih, parseHexLoop]
    constructor
    · rintro ⟨m, hm, h⟩
      cases hd : hexDigit c with
      | none => rw [hd] at h; cases h
      | some d =>
        rw [hd] at h
        simp only at h
        split at h
        · cases h
        · simp only [Option.some.injEq] at h
          exact ⟨m, d, hm, (hexDigit_spec c d).1 hd, h.symm⟩
    · rintro ⟨m, d, hm, hd, rfl⟩
      refine ⟨m, hm, ?_⟩
      rw [(hexDigit_spec c d).2 hd]
      simp only
      have h1 := (hex_bound hm).1
      have h2 := (digit_plain hd).2.2
      have : 16 ^ ds.length ≤ 16 ^ 7 := Nat.pow_le_pow_right (by omega) (by omega)
      rw [if_neg (by norm_num at this ⊢; omega)]

theorem validRune_spec (n : Nat) : validRune n = true ↔ ∃ c : Char, c.toNat = n := by
  simp only [validRune, Bool.or_eq_true, decide_eq_true_eq, Bool.and_eq_true]
  constructor
  · intro h
    have hv : n.isValidChar := by unfold Nat.isValidChar; omega
    exact ⟨Char.ofNatAux n hv, by simp [Char.ofNatAux, Char.toNat]⟩
  · rintro ⟨c, rfl⟩
    have := c.valid
    simp only [UInt32.isValidChar, Nat.isValidChar] at this
    simp only [Char.toNat]
    omega

theorem appendRune_spec (p : List Nat) (c : Char) : appendRune p c.toNat = p ++ utf8 c := by
  have hv := (validRune_spec c.toNat).2 ⟨c, rfl⟩
  simp only [validRune, Bool.or_eq_true, decide_eq_true_eq, Bool.and_eq_true] at hv
  unfold appendRune utf8 String.utf8EncodeChar
  simp only [show c.val.toNat = c.toNat from rfl]
  generalize c.toNat = n at hv
  have hm : ∀ k, k < 256 → (UInt8.ofNat k).toNat = k := by
    intro k hk
    rw [UInt8.toNat_ofNat']
    exact Nat.mod_eq_of_lt hk
  by_cases h1 : n ≤ 0x7f
  · rw [if_pos h1, if_pos h1]
    simp only [List.map_cons, List.map_nil]
    rw [hm n (by omega)]
  rw [if_neg h1, if_neg h1]
  by_cases h2 : n ≤ 0x7ff
  · rw [if_pos h2, if_pos h2]
    simp only [List.map_cons, List.map_nil]
    rw [hm _ (by omega), hm _ (by omega)]
    congr 2
    · omega
    · congr 1; omega
  rw [if_neg h2, if_neg h2]
  rw [if_neg (c := n > 0x10FFFF ∨ 0xD800 ≤ n ∧ n ≤ 0xDFFF) (by omega)]
  by_cases h3 : n ≤ 0xffff
  · rw [if_pos h3, if_pos h3]
    simp only [List.map_cons, List.map_nil]
    rw [hm _ (by omega), hm _ (by omega), hm _ (by omega)]
    congr 2
    · omega
    · congr 1
      · omega
      · congr 1; omega
  · rw [if_neg h3, if_neg h3]
    simp only [List.map_cons, List.map_nil]
    rw [hm _ (by omega), hm _ (by omega), hm _ (by omega), hm _ (by omega)]
    congr 2
    · omega
    · congr 1
      · omega
      · congr 1
        · omega
        · congr 1; omega

theorem loop_plain (fuel : Nat) (b : Nat) (hb : b ≠ 92) (c res : List Nat) :
    escapeLoop (fuel + 1) (b :: c) res = escapeLoop (fuel + 1) c (res ++ [b]) := by
  simp only [escapeLoop, List.findIdx?_cons, hb, decide_false, Bool.false_eq_true, if_false]
  cases List.findIdx? (fun x => decide (x = 92)) c with
  | none => simp
  | some p => simp

/-- A pair at the beginning. -/
theorem loop_pair (fuel b : Nat) (c res : List Nat) : escapeLoop (fuel + 1) (92 :: b :: c) res =
    match escapeEntry b with
    | none => .done (.error .escape)
    | some (substitute, hexLen) =>
      if hexLen = 0 then escapeLoop fuel c (res ++ [substitute])
      else orPanic (peekRune (92 :: b :: c) hexLen) fun r =>
        match r with
        | .error e => .done (.error e)
        | .ok r => escapeLoop fuel (c.drop hexLen) (appendRune res r) := by
  rw [escapeLoop]
  simp only [List.findIdx?_cons, decide_true, if_true, List.take_zero, List.append_nil, List.drop_zero]
  simp only [Go.index, show (0 : Int) ≤ 1 from by decide, if_true, show (1 : Int).toNat = 1 from rfl, List.getElem?_cons_succ,
    List.getElem?_cons_zero, orPanic]
  rfl

theorem body_drop {ds t : List Nat} (hd : ∀ c ∈ ds, c ≠ 34 ∧ c ≠ 92) (h : Body (ds ++ t)) : Body t := by
  induction ds with
  | nil => exact h
  | cons c ds ih =>
    rw [List.cons_append] at h
    generalize hw : c :: (ds ++ t) = w at h
    cases h with
    | nil => cases hw
    | plain _ _ h => cases hw; exact ih (fun c hc => hd c (by simp [hc])) h
    | pair _ =>
      rw [List.cons.injEq] at hw
      exact absurd hw.1 (hd c (by simp)).2

/-- How `\x`, `\u`, `\U` work. -/
theorem peek_spec {t : List Nat} (b : Nat) (k : Nat) (hk : 0 < k) (hk8 : k ≤ 8) :
    ∃ x, peekRune (92 :: b :: (t ++ [34])) k = some x ∧
      ∀ n, x = .ok n ↔ ∃ ds t', t = ds ++ t' ∧ ds.length = k ∧ Hex ds n ∧ ∃ c : Char, c.toNat = n := by
  unfold peekRune
  by_cases hl : t.length < k
  · rw [if_pos (by simp; omega)]
    refine ⟨_, rfl, ?_⟩
    intro n
    simp only [reduceCtorEq, false_iff]
    rintro ⟨ds, t', rfl, h, -⟩
    rw [List.length_append] at hl
    omega
  · rw [if_neg (by simp; omega)]
    have hs : Go.slice (92 :: b :: (t ++ [34])) 2 (k + 2) = some (t.take k) := by
      rw [Go.slice, if_pos (by simp; omega)]
      have : ((k : Int) + 2).toNat - (2 : Int).toNat = k := by omega
      rw [this, show (2 : Int).toNat = 2 from rfl]
      simp only [List.drop_succ_cons, List.drop_zero, List.take_append_of_le_length (by omega : k ≤ t.length)]
    rw [hs, Option.map_some]
    refine ⟨_, rfl, ?_⟩
    intro n
    have hne : t.take k ≠ [] := by
      intro hc
      have := congrArg List.length hc
      simp at this
      rcases this with h | h
      · omega
      · rw [h] at hl; simp at hl; omega
    have hlen : (t.take k).length = k := by rw [List.length_take]; omega
    have hx := parseHexLoop_spec (t.take k) (by omega)
    unfold parseHex
    rw [if_neg hne]
    constructor
    · intro h
      cases hp : parseHexLoop (t.take k) 0 with
      | none => rw [hp] at h; cases h
      | some m =>
        rw [hp] at h
        simp only at h
        split at h
        · next hv =>
          simp only [Except.ok.injEq] at h
          subst h
          exact ⟨t.take k, t.drop k, (List.take_append_drop k t).symm, hlen, (hx m).1 hp, (validRune_spec m).1 hv⟩
        · cases h
    · rintro ⟨ds, t', rfl, hl', hd, hc⟩
      have ht : (ds ++ t').take k = ds := by rw [← hl', List.take_left']; rfl
      rw [ht] at hx ⊢
      rw [(hx n).2 hd]
      simp only
      rw [if_pos ((validRune_spec n).2 hc)]

theorem hex_unique {ds : List Nat} {n m : Nat} (h1 : Hex ds n) (h2 : Hex ds m) (hl : ds.length ≤ 8) : n = m := by
  rw [← parseHexLoop_spec ds hl] at h1 h2
  rw [h1] at h2
  exact Option.some.inj h2

/-- The loop. -/
theorem loop_spec : ∀ (k : Nat) (w res : List Nat) (fuel : Nat), w.length ≤ k → Body w → w.length < fuel →
    ∃ x, escapeLoop fuel (w ++ [34]) res = .done x ∧
      ∀ r, x = .ok r ↔ ∃ r', Denotes asRune w r' ∧ r = res ++ r' ++ [34]
  | k, w, res, fuel, hk, hb, hf => by
    obtain ⟨fuel, rfl⟩ : ∃ f, fuel = f + 1 := ⟨fuel - 1, by omega⟩
    cases hb with
    | nil =>
      refine ⟨.ok (res ++ [34]), by simp [escapeLoop], ?_⟩
      intro r
      simp only [Except.ok.injEq]
      constructor
      · rintro rfl; exact ⟨[], .nil, by simp⟩
      · rintro ⟨r', h, rfl⟩
        cases h
        simp
    | @plain b t h1 h2 hb =>
      rw [List.cons_append, loop_plain fuel b h2]
      rw [List.length_cons] at hk hf
      obtain ⟨k, rfl⟩ : ∃ j, k = j + 1 := ⟨k - 1, by omega⟩
      obtain ⟨x, e1, e2⟩ := loop_spec k t (res ++ [b]) (fuel + 1) (by omega) hb (by omega)
      refine ⟨x, e1, ?_⟩
      intro r
      rw [e2]
      constructor
      · rintro ⟨r', h, rfl⟩; exact ⟨b :: r', .plain h1 h2 h, by simp⟩
      · rintro ⟨r', h, rfl⟩
        generalize hw : b :: t = w at h
        cases h with
        | plain _ _ h => cases hw; exact ⟨_, h, by simp⟩
        | nil => cases hw
        | _ => cases hw; exact absurd rfl h2
    | @pair b t hb =>
      rw [List.length_cons, List.length_cons] at hk hf
      obtain ⟨k, rfl⟩ : ∃ j, k = j + 1 := ⟨k - 1, by omega⟩
      rw [List.cons_append, List.cons_append, loop_pair]
      -- simple pairs
      have simple : ∀ s, escapeEntry b = some (s, 0) → (∀ r, Denotes asRune (92 :: b :: t) r ↔ ∃ r', Denotes asRune t r' ∧ r = s :: r') →
          ∃ x, (match escapeEntry b with
            | none => .done (.error .escape)
            | some (substitute, hexLen) =>
              if hexLen = 0 then escapeLoop fuel (t ++ [34]) (res ++ [substitute])
              else orPanic (peekRune (92 :: b :: (t ++ [34])) hexLen) fun r =>
                match r with
                | .error e => .done (.error e)
                | .ok r => escapeLoop fuel ((t ++ [34]).drop hexLen) (appendRune res r)) = Run.done x ∧
            ∀ r, x = .ok r ↔ ∃ r', Denotes asRune (92 :: b :: t) r' ∧ r = res ++ r' ++ [34] := by
        intro s hs hd
        rw [hs]
        simp only [if_true]
        obtain ⟨x, e1, e2⟩ := loop_spec k t (res ++ [s]) fuel (by omega) hb (by omega)
        refine ⟨x, e1, ?_⟩
        intro r
        rw [e2]
        constructor
        · rintro ⟨r', h, rfl⟩; exact ⟨s :: r', (hd _).2 ⟨r', h, rfl⟩, by simp⟩
        · rintro ⟨r', h, rfl⟩
          obtain ⟨r'', h', rfl⟩ := (hd _).1 h
          exact ⟨r'', h', by simp⟩
      -- pairs with digits
      have coded : ∀ j, 0 < j → j ≤ 8 → escapeEntry b = some (0, j) →
          (∀ r, Denotes asRune (92 :: b :: t) r ↔ ∃ ds t' r' c, t = ds ++ t' ∧ ds.length = j ∧ Hex ds c.toNat ∧ Denotes asRune t' r' ∧ r = utf8 c ++ r') →
          ∃ x, (match escapeEntry b with
            | none => .done (.error .escape)
            | some (substitute, hexLen) =>
              if hexLen = 0 then escapeLoop fuel (t ++ [34]) (res ++ [substitute])
              else orPanic (peekRune (92 :: b :: (t ++ [34])) hexLen) fun r =>
                match r with
                | .error e => .done (.error e)
                | .ok r => escapeLoop fuel ((t ++ [34]).drop hexLen) (appendRune res r)) = Run.done x ∧
            ∀ r, x = .ok r ↔ ∃ r', Denotes asRune (92 :: b :: t) r' ∧ r = res ++ r' ++ [34] := by
        intro j hj hj8 hs hd
        rw [hs]
        simp only [if_neg (show j ≠ 0 by omega)]
        obtain ⟨y, p1, p2⟩ := peek_spec (t := t) b j hj hj8
        rw [p1]
        cases y with
        | error e =>
          refine ⟨.error e, rfl, ?_⟩
          intro r
          simp only [reduceCtorEq, false_iff]
          rintro ⟨r', h, -⟩
          obtain ⟨ds, t', r'', c, h1, h2, h3, -, -⟩ := (hd _).1 h
          have := (p2 c.toNat).2 ⟨ds, t', h1, h2, h3, c, rfl⟩
          cases this
        | ok n =>
          obtain ⟨ds, t', rfl, h2, h3, c, rfl⟩ := (p2 n).1 rfl
          simp only [orPanic]
          have hdrop : (ds ++ t' ++ [34]).drop j = t' ++ [34] := by
            rw [List.append_assoc, ← h2, List.drop_left']; rfl
          rw [hdrop, appendRune_spec]
          rw [List.length_append] at hk hf
          obtain ⟨x, e1, e2⟩ := loop_spec k t' (res ++ utf8 c) fuel (by omega) (body_drop (hex_bound h3).2 hb) (by omega)
          refine ⟨x, e1, ?_⟩
          intro r
          rw [e2]
          constructor
          · rintro ⟨r', h, rfl⟩; exact ⟨utf8 c ++ r', (hd _).2 ⟨ds, t', r', c, rfl, h2, h3, h, rfl⟩, by simp⟩
          · rintro ⟨r', h, rfl⟩
            obtain ⟨ds', t'', r'', c', g1, g2, g3, g4, rfl⟩ := (hd _).1 h
            obtain ⟨rfl, rfl⟩ := List.append_inj g1 (by omega)
            have := hex_unique h3 g3 (by omega)
            have hc : c = c' := Char.toNat_inj.1 this
            subst hc
            exact ⟨r'', g4, by simp⟩
      by_cases b1 : b = 92
      · subst b1
        refine simple 92 rfl fun r => ⟨fun h => ?_, fun ⟨r', h, hr⟩ => hr ▸ .backslash h⟩
        cases h with
        | backslash h => exact ⟨_, h, rfl⟩
        | plain _ h2 => exact absurd rfl h2
      by_cases b2 : b = 34
      · subst b2
        refine simple 34 rfl fun r => ⟨fun h => ?_, fun ⟨r', h, hr⟩ => hr ▸ .quote h⟩
        cases h with
        | quote h => exact ⟨_, h, rfl⟩
        | plain _ h2 => exact absurd rfl h2
      by_cases b3 : b = 110
      · subst b3
        refine simple 10 rfl fun r => ⟨fun h => ?_, fun ⟨r', h, hr⟩ => hr ▸ .n h⟩
        cases h with
        | n h => exact ⟨_, h, rfl⟩
        | plain _ h2 => exact absurd rfl h2
      by_cases b4 : b = 114
      · subst b4
        refine simple 13 rfl fun r => ⟨fun h => ?_, fun ⟨r', h, hr⟩ => hr ▸ .r h⟩
        cases h with
        | r h => exact ⟨_, h, rfl⟩
        | plain _ h2 => exact absurd rfl h2
      by_cases b5 : b = 116
      · subst b5
        refine simple 9 rfl fun r => ⟨fun h => ?_, fun ⟨r', h, hr⟩ => hr ▸ .t h⟩
        cases h with
        | t h => exact ⟨_, h, rfl⟩
        | plain _ h2 => exact absurd rfl h2
      by_cases b6 : b = 120
      · subst b6
        refine coded 2 (by omega) (by omega) rfl fun r => ⟨fun h => ?_, ?_⟩
        · generalize hw : 92 :: 120 :: t = w at h
          cases h with
          | x h1 h2 h3 h4 =>
            simp only [List.cons_append, List.cons.injEq, true_and] at hw
            obtain ⟨c, rfl, rfl⟩ := h3
            exact ⟨_, _, _, c, hw, h2, h1, h4, rfl⟩
          | plain _ h2 => cases hw; exact absurd rfl h2
          | _ => cases hw
        · rintro ⟨ds, t', r', c, rfl, h1, h2, h3, rfl⟩
          exact .x h2 h1 ⟨c, rfl, rfl⟩ h3
      by_cases b7 : b = 117
      · subst b7
        refine coded 4 (by omega) (by omega) rfl fun r => ⟨fun h => ?_, ?_⟩
        · generalize hw : 92 :: 117 :: t = w at h
          cases h with
          | u h1 h2 h3 =>
            simp only [List.cons_append, List.cons.injEq, true_and] at hw
            exact ⟨_, _, _, _, hw, h2, h1, h3, rfl⟩
          | plain _ h2 => cases hw; exact absurd rfl h2
          | _ => cases hw
        · rintro ⟨ds, t', r', c, rfl, h1, h2, h3, rfl⟩
          exact .u h2 h1 h3
      by_cases b8 : b = 85
      · subst b8
        refine coded 8 (by omega) (by omega) rfl fun r => ⟨fun h => ?_, ?_⟩
        · generalize hw : 92 :: 85 :: t = w at h
          cases h with
          | U h1 h2 h3 =>
            simp only [List.cons_append, List.cons.injEq, true_and] at hw
            exact ⟨_, _, _, _, hw, h2, h1, h3, rfl⟩
          | plain _ h2 => cases hw; exact absurd rfl h2
          | _ => cases hw
        · rintro ⟨ds, t', r', c, rfl, h1, h2, h3, rfl⟩
          exact .U h2 h1 h3
      have hnone : escapeEntry b = none := by
        simp only [escapeEntry, b1, b2, b3, b4, b5, b6, b7, b8, if_false]
      rw [hnone]
      refine ⟨_, rfl, ?_⟩
      intro r
      simp only [reduceCtorEq, false_iff]
      rintro ⟨r', h, -⟩
      generalize hw : 92 :: b :: t = w at h
      cases h with
      | nil => cases hw
      | plain _ h2 => cases hw; exact absurd rfl h2
      | backslash => cases hw; exact b1 rfl
      | quote => cases hw; exact b2 rfl
      | n => cases hw; exact b3 rfl
      | r => cases hw; exact b4 rfl
      | t => cases hw; exact b5 rfl
      | x => simp only [List.cons_append, List.cons.injEq, true_and] at hw; exact b6 hw.1
      | u => simp only [List.cons_append, List.cons.injEq, true_and] at hw; exact b7 hw.1
      | U => simp only [List.cons_append, List.cons.injEq, true_and] at hw; exact b8 hw.1

theorem denotes_plain {x : Nat → List Nat → Prop} : ∀ {w : List Nat}, Body w → 92 ∉ w → ∀ r, Denotes x w r ↔ r = w
  | _, .nil, _, r => ⟨fun h => by cases h; rfl, fun h => by rw [h]; exact .nil⟩
  | _, .plain (b := b) (t := t) h1 h2 h3, hn, r => by
    have ih := denotes_plain (x := x) h3 (fun h => hn (by simp [h]))
    constructor
    · intro h
      generalize hw : b :: t = w at h
      cases h with
      | plain _ _ h => cases hw; rw [(ih _).1 h]
      | nil => cases hw
      | _ => cases hw; exact absurd rfl h2
    · rintro rfl
      exact .plain h1 h2 ((ih t).2 rfl)
  | _, .pair h, hn, _ => absurd (by simp) hn

theorem low_rune {w r : List Nat} (h : Denotes asLowByte w r) : Denotes asRune w r := by
  induction h with
  | nil => exact .nil
  | plain h1 h2 _ ih => exact .plain h1 h2 ih
  | backslash _ ih => exact .backslash ih
  | quote _ ih => exact .quote ih
  | n _ ih => exact .n ih
  | r _ ih => exact .r ih
  | t _ ih => exact .t ih
  | @x ds t b r n h1 h2 h3 _ ih =>
    refine .x h1 h2 ?_ ih
    obtain ⟨h3, rfl⟩ := h3
    obtain ⟨c, hc⟩ := (validRune_spec n).1 (by simp [validRune]; omega)
    refine ⟨c, hc, ?_⟩
    have := appendRune_spec [] c
    rw [hc, appendRune, if_pos (by omega)] at this
    exact this
  | u h1 h2 _ ih => exact .u h1 h2 ih
  | U h1 h2 _ ih => exact .U h1 h2 ih

end Verif.Proof.Escape
