/-
Lemmas about building states from chunks.
-/
import Verif.Spec.Machine

namespace Verif.Model

open Verif.Spec Verif.Spec.Ebnf

namespace PR

/-- Invariant of the states under construction. -/
structure Ok (pr : PR) : Prop where
  ref : ∀ (s : Nat) (e : Entry) (k : Int) (r : Nat), pr.states[s]? = some e → e.neg k = some r → r < pr.cells.length
  keys : ∀ (s : Nat) (e : Entry) (k : Int), pr.states[s]? = some e → (k ∈ e.keys ↔ pr.slot e k ≠ [])
  tok : ∀ s k r, r ∈ pr.rules s k → r.token = k
  one : ∀ s k, k < 0 → (pr.rules s k).length ≤ 1
  tgt : ∀ s k r, r ∈ pr.rules s k → finalState ≤ r.state ∧ r.state < pr.states.length

theorem rules_of_ge {pr : PR} {s : Nat} (h : pr.states.length ≤ s) (k : Int) : pr.rules s k = [] := by
  unfold rules
  rw [List.getElem?_eq_none h]

theorem rules_lt {pr : PR} {s : Nat} {k : Int} {r : Rule} (h : r ∈ pr.rules s k) : s < pr.states.length := by
  by_contra hc
  rw [rules_of_ge (by omega)] at h
  simp at h

theorem addState_length (pr : PR) : pr.addState.states.length = pr.states.length + 1 := by simp [addState]

theorem addState_get (pr : PR) (s : Nat) :
    pr.addState.states[s]? = if s = pr.states.length then some {} else pr.states[s]? := by
  unfold addState
  simp only
  split
  · next h => subst h; simp
  · next h =>
    rcases Nat.lt_or_ge s pr.states.length with h' | h'
    · rw [List.getElem?_append_left h']
    · rw [List.getElem?_eq_none (by simp; omega), List.getElem?_eq_none h']

theorem slot_empty (pr : PR) (k : Int) : pr.slot {} k = [] := by
  unfold slot; split <;> rfl

theorem addState_slot (pr : PR) (e : Entry) (k : Int) : pr.addState.slot e k = pr.slot e k := rfl

theorem addState_rules (pr : PR) (s : Nat) (k : Int) : pr.addState.rules s k = pr.rules s k := by
  unfold rules
  rw [addState_get]
  by_cases h : s = pr.states.length
  · subst h
    simp only [if_true]
    rw [addState_slot, slot_empty, List.getElem?_eq_none (le_refl _)]
  · rw [if_neg h]; rfl

theorem addState_ok {pr : PR} (h : pr.Ok) : pr.addState.Ok where
  ref s e k r hs hr := by
    rw [addState_get] at hs
    split at hs
    · simp at hs; subst hs; simp at hr
    · exact h.ref s e k r hs hr
  keys s e k hs := by
    rw [addState_get] at hs
    split at hs
    · cases hs; rw [addState_slot, slot_empty]; simp
    · exact h.keys s e k hs
  tok s k r hr := by rw [addState_rules] at hr; exact h.tok s k r hr
  one s k hk := by rw [addState_rules]; exact h.one s k hk
  tgt s k r hr := by
    rw [addState_rules] at hr
    have := h.tgt s k r hr
    rw [addState_length]
    push_cast
    omega

theorem addStates_length (n : Nat) (pr : PR) : (addStates n pr).states.length = pr.states.length + n := by
  induction n generalizing pr with
  | zero => rfl
  | succ n ih => rw [addStates, ih, addState_length]; omega

theorem addStates_rules (n : Nat) (pr : PR) (s : Nat) (k : Int) : (addStates n pr).rules s k = pr.rules s k := by
  induction n generalizing pr with
  | zero => rfl
  | succ n ih => rw [addStates, ih, addState_rules]

theorem addStates_ok (n : Nat) {pr : PR} (h : pr.Ok) : (addStates n pr).Ok := by
  induction n generalizing pr with
  | zero => exact h
  | succ n ih => exact ih (addState_ok h)

/-- All about `addRule`. -/
theorem addRule_spec {pr : PR} (h : pr.Ok) {s : Nat} (hs : s < pr.states.length) (st nd k : Int)
    (h1 : finalState ≤ st) (h2 : st < pr.states.length) :
    ∃ pr', pr.addRule s st nd k = some pr' ∧ pr'.Ok ∧ pr'.states.length = pr.states.length ∧
      ∀ j k', pr'.rules j k' = if j = s ∧ k' = k then (if 0 ≤ k then pr.rules s k else []) ++ [⟨k, st, nd⟩]
        else pr.rules j k' := by
  obtain ⟨e, he⟩ : ∃ e, pr.states[s]? = some e := ⟨_, List.getElem?_eq_getElem hs⟩
  by_cases hk : 0 ≤ k
  · let e' : Entry := { e with
        keys := insert k e.keys
        pos := Function.update e.pos k (e.pos k ++ [⟨k, st, nd⟩]) }
    let pr' : PR := { pr with states := pr.states.set s e' }
    have hl : pr'.states.length = pr.states.length := by simp [pr']
    have hg : ∀ j, pr'.states[j]? = if j = s then some e' else pr.states[j]? := by
      intro j
      simp only [pr', List.getElem?_set, hs]
      by_cases hj : s = j
      · simp [hj]
      · simp [hj, Ne.symm hj]
    have hsl : ∀ e k, pr'.slot e k = pr.slot e k := fun _ _ => rfl
    have hsl' : ∀ k', pr.slot e' k' = if k' = k then pr.slot e k ++ [⟨k, st, nd⟩] else pr.slot e k' := by
      intro k'
      unfold slot
      by_cases hkk : k' = k
      · subst hkk; simp [hk, e']
      · simp only [hkk, if_false]
        by_cases h0 : 0 ≤ k'
        · simp [h0, e', hkk]
        · simp [h0, e']
    have hr : ∀ j k', pr'.rules j k' = if j = s ∧ k' = k then (if 0 ≤ k then pr.rules s k else []) ++ [⟨k, st, nd⟩]
        else pr.rules j k' := by
      intro j k'
      unfold rules
      rw [hg]
      by_cases hj : j = s
      · subst hj
        simp only [if_true, he, hk, true_and]
        rw [hsl, hsl']
      · simp [hj, hsl]
    refine ⟨pr', by simp [addRule, he, hk, pr', e'], ⟨?_, ?_, ?_, ?_, ?_⟩, hl, hr⟩
    · intro j f k' r hj hn
      rw [hg] at hj
      split at hj
      · cases hj
        exact h.ref s e k' r he hn
      · exact h.ref j f k' r hj hn
    · intro j f k' hj
      rw [hg] at hj
      rw [hsl]
      split at hj
      · cases hj
        rw [hsl']
        by_cases hkk : k' = k
        · simp [hkk, e']
        · simp [hkk, e', h.keys s e k' he]
      · exact h.keys j f k' hj
    · intro j k' r hr'
      rw [hr] at hr'
      split at hr'
      · next hc =>
        simp only [hk, if_true, List.mem_append, List.mem_singleton] at hr'
        rcases hr' with hr' | hr'
        · rw [hc.2]; exact h.tok _ _ _ hr'
        · rw [hr', hc.2]
      · exact h.tok _ _ _ hr'
    · intro j k' hneg
      rw [hr]
      have : ¬ (j = s ∧ k' = k) := by intro hc; omega
      rw [if_neg this]
      exact h.one j k' hneg
    · intro j k' r hr'
      rw [hl]
      rw [hr] at hr'
      split at hr'
      · simp only [hk, if_true, List.mem_append, List.mem_singleton] at hr'
        rcases hr' with hr' | hr'
        · exact h.tgt _ _ _ hr'
        · subst hr'; exact ⟨h1, h2⟩
      · exact h.tgt _ _ _ hr'
  · let e' : Entry := { e with
        keys := insert k e.keys
        neg := Function.update e.neg k (some pr.cells.length) }
    let pr' : PR := { states := pr.states.set s e', cells := pr.cells ++ [⟨k, st, nd⟩] }
    have hl : pr'.states.length = pr.states.length := by simp [pr']
    have hg : ∀ j, pr'.states[j]? = if j = s then some e' else pr.states[j]? := by
      intro j
      simp only [pr', List.getElem?_set, hs]
      by_cases hj : s = j
      · simp [hj]
      · simp [hj, Ne.symm hj]
    have hsl : ∀ (j : Nat) (f : Entry) (k' : Int), pr.states[j]? = some f → pr'.slot f k' = pr.slot f k' := by
      intro j f k' hj
      unfold slot
      split
      · rfl
      · cases hn : f.neg k' with
        | none => rfl
        | some r =>
          have hlt := h.ref j f k' r hj hn
          simp only [pr']
          rw [List.getElem?_append_left hlt]
    have hsl' : ∀ k', pr'.slot e' k' = if k' = k then [⟨k, st, nd⟩] else pr.slot e k' := by
      intro k'
      by_cases hkk : k' = k
      · subst hkk
        simp [slot, hk, e', pr']
      · simp only [hkk, if_false]
        rw [← hsl s e k' he]
        unfold slot
        simp [e', hkk]
    have hr : ∀ j k', pr'.rules j k' = if j = s ∧ k' = k then (if 0 ≤ k then pr.rules s k else []) ++ [⟨k, st, nd⟩]
        else pr.rules j k' := by
      intro j k'
      unfold rules
      rw [hg]
      by_cases hj : j = s
      · subst hj
        simp only [if_true, he, hk, true_and, if_false, List.nil_append]
        rw [hsl']
      · simp only [hj, if_false, false_and]
        cases hjj : pr.states[j]? with
        | none => rfl
        | some f => exact hsl j f k' hjj
    refine ⟨pr', by simp [addRule, he, hk, pr', e'], ⟨?_, ?_, ?_, ?_, ?_⟩, hl, hr⟩
    · intro j f k' r hj hn
      have : pr'.cells.length = pr.cells.length + 1 := by simp [pr']
      rw [this]
      rw [hg] at hj
      split at hj
      · cases hj
        by_cases hkk : k' = k
        · subst hkk
          simp [e'] at hn
          omega
        · simp only [e', Function.update_of_ne hkk] at hn
          have := h.ref s e k' r he hn
          omega
      · have := h.ref j f k' r hj hn
        omega
    · intro j f k' hj
      rw [hg] at hj
      split at hj
      · cases hj
        rw [hsl']
        by_cases hkk : k' = k
        · simp [hkk, e']
        · simp [hkk, e', h.keys s e k' he]
      · rw [hsl j f k' hj]; exact h.keys j f k' hj
    · intro j k' r hr'
      rw [hr] at hr'
      split at hr'
      · next hc =>
        simp only [hk, if_false, List.nil_append, List.mem_singleton] at hr'
        rw [hr', hc.2]
      · exact h.tok _ _ _ hr'
    · intro j k' hneg
      rw [hr]
      split
      · simp [hk]
      · exact h.one j k' hneg
    · intro j k' r hr'
      rw [hl]
      rw [hr] at hr'
      split at hr'
      · simp only [hk, if_false, List.nil_append, List.mem_singleton] at hr'
        subst hr'; exact ⟨h1, h2⟩
      · exact h.tgt _ _ _ hr'

/-- All about `copyRules`. -/
theorem copyRules_spec {pr : PR} (h : pr.Ok) {d s : Nat} (hd : d < pr.states.length) (hs : s < pr.states.length) :
    ∃ pr', pr.copyRules d s = some pr' ∧ pr'.Ok ∧ pr'.states.length = pr.states.length ∧
      ∀ j k, pr'.rules j k = if j = d then
          (if 0 ≤ k then pr.rules d k ++ pr.rules s k
            else if pr.rules s k = [] then pr.rules d k else pr.rules s k)
        else pr.rules j k := by
  obtain ⟨e, he⟩ : ∃ e, pr.states[d]? = some e := ⟨_, List.getElem?_eq_getElem hd⟩
  obtain ⟨f, hf⟩ : ∃ e, pr.states[s]? = some e := ⟨_, List.getElem?_eq_getElem hs⟩
  let e' := Entry.copy e f
  let pr' : PR := { pr with states := pr.states.set d e' }
  have hl : pr'.states.length = pr.states.length := by simp [pr']
  have hg : ∀ j, pr'.states[j]? = if j = d then some e' else pr.states[j]? := by
    intro j
    simp only [pr', List.getElem?_set, hd]
    by_cases hj : d = j
    · simp [hj]
    · simp [hj, Ne.symm hj]
  have hsl : ∀ e k, pr'.slot e k = pr.slot e k := fun _ _ => rfl
  have hsl' : ∀ k, pr.slot e' k = if 0 ≤ k then pr.slot e k ++ pr.slot f k
      else if pr.slot f k = [] then pr.slot e k else pr.slot f k := by
    intro k
    unfold slot
    by_cases hk : 0 ≤ k
    · simp [hk, e', Entry.copy]
    · simp only [hk, if_false, e', Entry.copy]
      cases hn : f.neg k with
      | none => simp
      | some r =>
        have := h.ref s f k r hf hn
        simp [List.getElem?_eq_getElem this]
  have hr : ∀ j k, pr'.rules j k = if j = d then
          (if 0 ≤ k then pr.rules d k ++ pr.rules s k
            else if pr.rules s k = [] then pr.rules d k else pr.rules s k)
        else pr.rules j k := by
    intro j k
    unfold rules
    rw [hg]
    by_cases hj : j = d
    · subst hj
      simp only [if_true, he, hf]
      rw [hsl, hsl']
    · simp [hj, hsl]
  have hmem : ∀ j k r, r ∈ pr'.rules j k → r ∈ pr.rules j k ∨ r ∈ pr.rules s k := by
    intro j k r hr'
    rw [hr] at hr'
    split at hr'
    · next hj =>
      subst hj
      split at hr'
      · simpa using hr'
      · split at hr'
        · exact Or.inl hr'
        · exact Or.inr hr'
    · exact Or.inl hr'
  refine ⟨pr', by simp [copyRules, he, hf, pr', e'], ⟨?_, ?_, ?_, ?_, ?_⟩, hl, hr⟩
  · intro j g k r hj hn
    rw [hg] at hj
    split at hj
    · cases hj
      simp only [e', Entry.copy] at hn
      cases hfn : f.neg k with
      | none => rw [hfn] at hn; exact h.ref d e k r he hn
      | some r' =>
        rw [hfn] at hn
        simp at hn
        subst hn
        exact h.ref s f k r' hf hfn
    · exact h.ref j g k r hj hn
  · intro j g k hj
    rw [hg] at hj
    rw [hsl]
    split at hj
    · cases hj
      rw [hsl']
      have h1 := h.keys d e k he
      have h2 := h.keys s f k hf
      simp only [e', Entry.copy, Finset.mem_union, h1, h2]
      split
      · simp only [ne_eq, List.append_eq_nil_iff]; tauto
      · split <;> simp_all
    · exact h.keys j g k hj
  · intro j k r hr'
    rcases hmem j k r hr' with h' | h'
    · exact h.tok _ _ _ h'
    · exact h.tok _ _ _ h'
  · intro j k hneg
    rw [hr]
    have := h.one j k hneg
    have h2 := h.one d k hneg
    have h3 := h.one s k hneg
    have : ¬ 0 ≤ k := by omega
    rw [if_neg this]
    split
    · split <;> assumption
    · assumption
  · intro j k r hr'
    rw [hl]
    rcases hmem j k r hr' with h' | h'
    · exact h.tgt _ _ _ h'
    · exact h.tgt _ _ _ h'

end PR

end Verif.Model
