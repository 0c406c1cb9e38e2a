/-
Expected token types of states.
-/
import Verif.Proof.CompileMeans

namespace Verif.Proof

open Verif.Model Verif.Spec Verif.Spec.Ebnf Verif.Props

theorem bit_get {i j : Nat} (hj : j < 64) : (bit i).getLsbD j = true ↔ i = j := by
  unfold bit
  rw [BitVec.getLsbD_shiftLeft]
  simp only [hj, decide_true, Bool.true_and, BitVec.getLsbD_one]
  simp
  omega

/-- Keys and types are kept. -/
theorem dropUnused_entry {pr : PR} {fs : List Nat} {s : Nat} {e : Entry} (h : (pr.dropUnused fs).1.states[s]? = some e) :
    ∃ (i : Nat) (e0 : Entry), pr.states[i]? = some e0 ∧ e.types = e0.types ∧ e.keys = e0.keys := by
  by_cases hc : (pr.usedStates fs).card = pr.states.length
  · rw [dropUnused_same hc] at h
    exact ⟨s, e, h, rfl, rfl⟩
  · unfold PR.dropUnused at h
    simp only [length_sorted] at h
    rw [if_neg hc] at h
    dsimp only at h
    rw [fold_states _ _ (List.nodup_range)] at h
    dsimp only at h
    rw [kept_get _ (fun i hi => mem_used_lt (mem_sorted.mp hi))] at h
    rw [Option.map_eq_some_iff] at h
    obtain ⟨e0, h0, rfl⟩ := h
    rw [Option.bind_eq_some_iff] at h0
    obtain ⟨i, -, h0⟩ := h0
    refine ⟨i, e0, h0, ?_⟩
    split <;> exact ⟨rfl, rfl⟩

theorem fold_types {ttypes : List (BitVec 64)} (l : List Int) {start : Option (BitVec 64)} {r : BitVec 64}
    (h : l.foldl (fun acc k => acc.bind fun a => (ttypes[k.toNat]?).map (a ||| ·)) start = some r) :
    ∃ a, start = some a ∧ ∀ j, r.getLsbD j = true ↔ a.getLsbD j = true ∨ ∃ k ∈ l, ∃ x, ttypes[k.toNat]? = some x ∧ x.getLsbD j = true := by
  induction l generalizing start with
  | nil => exact ⟨r, h, by simp⟩
  | cons k ks ih =>
    rw [List.foldl_cons] at h
    obtain ⟨a, h1, h2⟩ := ih h
    rw [Option.bind_eq_some_iff] at h1
    obtain ⟨a0, h3, h4⟩ := h1
    rw [Option.map_eq_some_iff] at h4
    obtain ⟨x, h5, rfl⟩ := h4
    refine ⟨a0, h3, fun j => ?_⟩
    rw [h2 j, BitVec.getLsbD_or, Bool.or_eq_true]
    simp only [List.mem_cons, exists_eq_or_imp, h5, Option.some.injEq, exists_eq_left']
    tauto

/-- Expected types of a state: default ones and those of its keys. -/
theorem stateTypes_get {default : BitVec 64} {ttypes : List (BitVec 64)} {keys : Finset Int} {r : BitVec 64}
    (h : stateTypes default ttypes keys = some r) (j : Nat) :
    r.getLsbD j = true ↔ default.getLsbD j = true ∨
      ∃ k ∈ keys, 0 ≤ k ∧ ∃ x, ttypes[k.toNat]? = some x ∧ x.getLsbD j = true := by
  unfold stateTypes at h
  obtain ⟨a, h1, h2⟩ := fold_types _ h
  cases h1
  rw [h2 j]
  simp only [mem_sorted, Finset.mem_filter]
  constructor
  · rintro (h | ⟨k, ⟨h1, h2⟩, h3⟩)
    · exact .inl h
    · exact .inr ⟨k, h1, h2, h3⟩
  · rintro (h | ⟨k, h1, h2, h3⟩)
    · exact .inl h
    · exact .inr ⟨k, ⟨h1, h2⟩, h3⟩

theorem sideTypes_get {ts : List GToken} {j : Nat} (hj : j < 64) :
    (sideTypes ts).getLsbD j = true ↔ ∃ t, ts[j]? = some t ∧ t.flags.side = true := by
  have key : ∀ (l : List Nat) (acc : BitVec 64), (l.foldl (fun acc i => if (ts[i]?).any (·.flags.side) then acc ||| bit i else acc) acc).getLsbD j = true ↔
      acc.getLsbD j = true ∨ (j ∈ l ∧ (ts[j]?).any (·.flags.side) = true) := by
    intro l
    induction l with
    | nil => simp
    | cons a l ih =>
      intro acc
      rw [List.foldl_cons, ih]
      split
      · rename_i ha
        rw [BitVec.getLsbD_or, Bool.or_eq_true, bit_get hj, List.mem_cons]
        constructor
        · rintro ((h | rfl) | h)
          · exact .inl h
          · exact .inr ⟨.inl rfl, ha⟩
          · exact .inr ⟨.inr h.1, h.2⟩
        · rintro (h | ⟨rfl | h, h2⟩)
          · exact .inl (.inl h)
          · exact .inl (.inr rfl)
          · exact .inr ⟨h, h2⟩
      · rename_i ha
        rw [List.mem_cons]
        constructor
        · rintro (h | h)
          · exact .inl h
          · exact .inr ⟨.inr h.1, h.2⟩
        · rintro (h | ⟨rfl | h, h2⟩)
          · exact .inl h
          · exact absurd h2 ha
          · exact .inr ⟨h, h2⟩
  unfold sideTypes
  rw [key]
  have hz : (0 : BitVec 64).getLsbD j = false := by simp
  rw [hz]
  simp only [Bool.false_eq_true, false_or, List.mem_range]
  constructor
  · rintro ⟨-, h⟩
    cases ht : ts[j]? with
    | none => rw [ht] at h; simp at h
    | some t => rw [ht] at h; exact ⟨t, rfl, by simpa using h⟩
  · rintro ⟨t, h1, h2⟩
    exact ⟨(List.getElem?_eq_some_iff.mp h1).1, by simp [h1, h2]⟩

theorem literalTypes_get {upper : List Nat → List Nat} {find : Nat → List Nat → List Nat} {ts : List GToken} {lt : GToken} {j : Nat}
    (hj : j < 64) : (literalTypes upper find ts lt).getLsbD j = true ↔ j < reCount ts ∧ ∃ rt, ts[j]? = some rt ∧
      rt.flags.noLiterals = false ∧ (rt.flags.caseless = true → lt.name = upper lt.name) ∧ find j lt.name = lt.name := by
  have key : ∀ (l : List Nat) (acc : BitVec 64), (l.foldl (fun acc j =>
      match ts[j]? with
      | some rt =>
        if ¬ rt.flags.noLiterals ∧ (¬ rt.flags.caseless ∨ lt.name = upper lt.name) ∧ find j lt.name = lt.name then
          acc ||| bit j
        else acc
      | none => acc) acc).getLsbD j = true ↔ acc.getLsbD j = true ∨ (j ∈ l ∧ ∃ rt, ts[j]? = some rt ∧
      rt.flags.noLiterals = false ∧ (rt.flags.caseless = true → lt.name = upper lt.name) ∧ find j lt.name = lt.name) := by
    intro l
    induction l with
    | nil => simp
    | cons a l ih =>
      intro acc
      rw [List.foldl_cons, ih]
      by_cases haj : a = j
      · subst haj
        cases hta : ts[a]? with
        | none => simp
        | some rt =>
          dsimp only
          split
          · rename_i hc
            rw [BitVec.getLsbD_or, Bool.or_eq_true, bit_get hj]
            simp only [List.mem_cons, true_or, true_and, Option.some.injEq, exists_eq_left']
            constructor
            · intro _
              refine .inr ⟨by simpa using hc.1, fun h => ?_, hc.2.2⟩
              rcases hc.2.1 with h' | h'
              · exact absurd h h'
              · exact h'
            · intro _; exact .inl (.inr trivial)
          · rename_i hc
            simp only [List.mem_cons, true_or, true_and, Option.some.injEq, exists_eq_left']
            have hno : ¬ (rt.flags.noLiterals = false ∧ (rt.flags.caseless = true → lt.name = upper lt.name) ∧ find a lt.name = lt.name) := by
              rintro ⟨h1, h2, h3⟩
              apply hc
              refine ⟨by simp [h1], ?_, h3⟩
              by_cases h : rt.flags.caseless = true
              · exact .inr (h2 h)
              · exact .inl h
            simp [hno]
      · have hstep : (match ts[a]? with
          | some rt =>
            if ¬ rt.flags.noLiterals ∧ (¬ rt.flags.caseless ∨ lt.name = upper lt.name) ∧ find a lt.name = lt.name then
              acc ||| bit a
            else acc
          | none => acc).getLsbD j = acc.getLsbD j := by
          split
          · split
            · rw [BitVec.getLsbD_or]
              have : (bit a).getLsbD j = false := by
                by_contra h
                exact haj ((bit_get hj).mp (by simpa using h))
              simp [this]
            · rfl
          · rfl
        rw [hstep]
        have : (j = a) = False := by simp; exact fun h => haj h.symm
        simp only [List.mem_cons, this, false_or]
  have hz : (0 : BitVec 64).getLsbD j = false := by simp
  refine (key _ _).trans ?_
  rw [hz]
  simp only [Bool.false_eq_true, false_or, List.mem_range]

end Verif.Proof
