/-
Rules that use no ordinary token decrease the weight of the stack.
-/
import Verif.Spec.Weights
import Verif.Proof.Conflict
import Verif.Proof.Calm

namespace Verif.Proof

open Verif.Model Verif.Spec Verif.Props

variable {g : Grammar} {upper : List Nat → List Nat} {m : Nat → Int → List Rule} {w : Int → Nat} {skip : Int → Bool}

/-- Weight of a stack of states. -/
def cost (w : Int → Nat) (skip : Int → Bool) : List Int → Nat
  | [] => 0
  | s :: rest => w s + if skip s then cost w skip rest else 0

theorem cost_drop (h : skip (-1) = true) (l : List Int) : cost w skip (l.dropWhile (· = -1)) ≤ cost w skip l := by
  induction l with
  | nil => exact le_refl _
  | cons s l ih =>
    rw [List.dropWhile_cons]
    split
    · rename_i hs
      have hs : s = -1 := by simpa using hs
      subst hs
      rw [cost, if_pos h]
      omega
    · exact le_refl _

/-- States after a rule is used. -/
def Hop (g : Grammar) (m : Nat → Int → List Rule) (st : List Int) (r : Rule) (st' : List Int) : Prop :=
  ∃ s rest top, st = s :: rest ∧ (Idle r → ∃ n : Nat, s = n ∧ r ∈ m n r.token) ∧
    ((r.node = -1 ∧ top = [after r s]) ∨ ∃ i f : Nat, r.node = (i : Int) ∧ g.firsts[i]? = some f ∧ top = [(f : Int), after r s]) ∧
    st' = (top ++ rest).dropWhile (· = -1)

theorem hop_cost (hd : Descends g m w skip) {st st' : List Int} {r : Rule} (hi : Idle r) (h : Hop g m st r st') :
    cost w skip st' < cost w skip st := by
  obtain ⟨s, rest, top, rfl, h1, h2, rfl⟩ := h
  refine lt_of_le_of_lt (cost_drop hd.ended _) ?_
  obtain ⟨n, rfl, hr⟩ := h1 hi
  rcases h2 with ⟨hn, rfl⟩ | ⟨i, f, hn, hf, rfl⟩
  · obtain ⟨a, b⟩ := hd.stay n r.token r hr hn (hi.resolve_left (fun x => x hn))
    simp only [List.cons_append, List.nil_append, cost]
    by_cases hsk : skip (after r n) = true
    · rw [if_pos hsk, if_pos (b hsk)]; omega
    · rw [if_neg hsk]; omega
  · obtain ⟨a, b⟩ := hd.push n r.token r hr i f hn hf
    simp only [List.cons_append, List.nil_append, cost]
    by_cases hsf : skip f = true
    · rw [if_pos hsf] at a ⊢
      by_cases hsk : skip (after r n) = true
      · rw [if_pos hsk, if_pos (b hsf hsk)]; omega
      · rw [if_neg hsk]; omega
    · rw [if_neg hsf] at a ⊢
      omega

/-- Rules are used one after another. -/
inductive Hops (g : Grammar) (m : Nat → Int → List Rule) : List Int → List Rule → List Int → Prop
  | nil {st} : Hops g m st [] st
  | cons {st r st1 rs st'} : Hop g m st r st1 → Hops g m st1 rs st' → Hops g m st (r :: rs) st'

theorem Hops.snoc {st st1 st' : List Int} {rs : List Rule} {r : Rule} (h : Hops g m st rs st1) (h1 : Hop g m st1 r st') :
    Hops g m st (rs ++ [r]) st' := by
  induction h with
  | nil => exact .cons h1 .nil
  | cons h2 _ ih => exact .cons h2 (ih h1)

theorem hops_nil {rs : List Rule} {st' : List Int} (h : Hops g m [] rs st') : rs = [] := by
  cases h with
  | nil => rfl
  | cons h _ => obtain ⟨_, _, _, h, _⟩ := h; cases h

theorem Hops.extend {st st' : List Int} {rs : List Rule} (h : Hops g m st rs st') (below : List Int) :
    ∃ st'', Hops g m (st ++ below) rs st'' := by
  induction h with
  | nil => exact ⟨_, .nil⟩
  | @cons st r st1 rs st' h1 h2 ih =>
    obtain ⟨s, rest, top, rfl, e1, e2, e3⟩ := h1
    by_cases he : st1 = []
    · subst he
      rw [hops_nil h2]
      exact ⟨_, .cons ⟨s, rest ++ below, top, rfl, e1, e2, rfl⟩ .nil⟩
    · obtain ⟨st'', ih⟩ := ih
      refine ⟨st'', .cons ⟨s, rest ++ below, top, rfl, e1, e2, ?_⟩ ih⟩
      rw [e3] at he
      rw [e3, ← List.append_assoc]
      rw [List.dropWhile_append (xs := top ++ rest), if_neg (by simpa using he)]

/-- A token that is not the end of input. -/
def Real (tok : Option Token) : Prop := ∃ t, tok = some t ∧ t.type ≠ -3

theorem mem_firstRules {f : Int → List Rule} {keys : List Int} {r : Rule} (h : r ∈ firstRules f keys) : ∃ k ∈ keys, r ∈ f k := by
  unfold firstRules at h
  cases hf : ((keys.map f).find? fun x => decide (x ≠ [])) with
  | none => rw [hf] at h; cases h
  | some l =>
    rw [hf] at h
    obtain ⟨k, hk, rfl⟩ := List.mem_map.mp (List.mem_of_find?_eq_some hf)
    exact ⟨k, hk, h⟩

/-- Rules found for a token: idle ones are in the table; without a real token all are idle. -/
theorem found_idle (hm : Means g.tables m) {tok : Option Token} {s : Int} {rules : List Rule}
    (h : findRules g upper tok s = some rules) {r : Rule} (hr : r ∈ rules) :
    (Idle r → ∃ n : Nat, s = n ∧ r ∈ m n r.token) ∧ (¬ Real tok → Idle r) := by
  rw [findRules, Option.bind_eq_some_iff] at h
  obtain ⟨gs, hgs, h⟩ := h
  have hn : ∃ n : Nat, s = n ∧ g.tables.states[n]? = some gs := by
    unfold Go.index at hgs
    split at hgs
    · exact ⟨s.toNat, by omega, hgs⟩
    · cases hgs
  obtain ⟨n, rfl, hn⟩ := hn
  have key : ∀ {keys}, (possibleRuleKeys g upper tok) = some keys → findRulesBy g.tables gs keys = some rules →
      (Idle r → ∃ n' : Nat, (n : Int) = n' ∧ r ∈ m n' r.token) ∧ (¬ Real tok → Idle r) := by
    intro keys hk h
    rw [hm.find n gs hn] at h
    cases h
    obtain ⟨k, hkm, hrk⟩ := mem_firstRules hr
    have ht := hm.token n k r hrk
    refine ⟨fun _ => ⟨n, rfl, by rw [ht]; exact hrk⟩, fun hnr => ?_⟩
    refine .inr ?_
    rw [ht]
    cases tok with
    | none =>
      cases hk
      left
      simpa [anyToken] using hkm
    | some t =>
      have ht3 : t.type = -3 := by
        by_contra hc
        exact hnr ⟨t, rfl, hc⟩
      simp [possibleRuleKeys, ht3, anyToken] at hk
      subst hk
      simp at hkm
      omega
  cases tok with
  | none =>
    dsimp only at h
    rw [Option.bind_eq_some_iff] at h
    obtain ⟨keys, hk, h⟩ := h
    exact key hk h
  | some t =>
    dsimp only at h
    split at h
    · rename_i hside
      cases h
      rw [List.mem_singleton] at hr
      subst hr
      have hpos : 0 ≤ t.type := by
        unfold Grammar.isSideType at hside
        split at hside
        · assumption
        · cases hside
      constructor
      · rintro (h | h | h)
        · exact absurd rfl h
        · dsimp only at h; omega
        · dsimp only at h; omega
      · intro hnr
        exact absurd ⟨t, rfl, by omega⟩ hnr
    · rw [Option.bind_eq_some_iff] at h
      obtain ⟨keys, hk, h⟩ := h
      exact key hk h

theorem applyQuiet_hop (hm : Means g.tables m) {tok : Option Token} {f : Frame} {rest st' : List Frame} {r : Rule} {b : Bool}
    {rules : List Rule} (hf : findRules g upper tok f.state = some rules) (hr : r ∈ rules)
    (h : applyQuiet g tok r (f :: rest) = some (st', b)) :
    Hop g m (statesOf (f :: rest)) r (statesOf st') ∧ b = consumes r tok := by
  rw [applyQuiet, Option.bind_eq_some_iff] at h
  obtain ⟨f', hmv, h⟩ := h
  have hst := moveFrame_state hmv
  rw [Option.map_eq_some_iff] at h
  obtain ⟨st1, h1, h⟩ := h
  cases h
  refine ⟨?_, rfl⟩
  by_cases hn : r.node = -1
  · rw [if_neg (by simpa [sameNode] using hn)] at h1
    cases h1
    refine ⟨f.state, statesOf rest, _, rfl, (found_idle hm hf hr).1, .inl ⟨hn, rfl⟩, ?_⟩
    rw [popFrames_states]
    simp [statesOf, hst]
  · rw [if_pos (by simpa [sameNode] using hn)] at h1
    split at h1
    · rename_i h0
      rw [Option.bind_eq_some_iff] at h1
      obtain ⟨first, hf1, h1⟩ := h1
      rw [Option.map_eq_some_iff] at h1
      obtain ⟨gs, hgs, rfl⟩ := h1
      refine ⟨f.state, statesOf rest, _, rfl, (found_idle hm hf hr).1, .inr ⟨r.node.toNat, first, by omega, hf1, rfl⟩, ?_⟩
      rw [popFrames_states]
      simp [statesOf, hst]
    · cases h1

end Verif.Proof
