/-
Consequences of the structure of node hook calls.
-/
import Verif.Spec.ParseTree
import Verif.Spec.Hooks

namespace Verif.Proof

open Verif.Model Verif.Spec

variable {σ : Type}

theorem ended_append (l i : Nat) (a b : List Event) : ended l i (a ++ b) = ended l i a + ended l i b := by
  simp [ended]

theorem layerTokens_append (l : Nat) (a b : List Event) : layerTokens l (a ++ b) = layerTokens l a ++ layerTokens l b := by
  simp [layerTokens]

theorem made_append {env : PEnv σ} {a b : List Event} {l i : Nat} (h : i < a.length) :
    Made env (a ++ b) l i ↔ Made env a l i := by
  unfold Made
  rw [List.getElem?_append_left h, List.take_append_of_le_length (by omega)]

theorem made_lt {env : PEnv σ} {a : List Event} {l i : Nat} (h : Made env a l i) : i < a.length := by
  obtain ⟨_, _, h1, -⟩ := h
  exact (List.getElem?_eq_some_iff.mp h1).1

/-- No instance is made by these calls. -/
def NoMake (es : List Event) : Prop := ∀ e ∈ es, ∀ l idx st, e ≠ .make l idx st

theorem made_noMake {env : PEnv σ} {a b : List Event} {l i : Nat} (h : NoMake b) :
    Made env (a ++ b) l i ↔ Made env a l i := by
  by_cases hi : i < a.length
  · exact made_append hi
  · constructor
    · rintro ⟨idx, st, h1, -⟩
      rw [List.getElem?_append_right (by omega)] at h1
      exact absurd rfl (h _ (List.mem_of_getElem? h1) l idx st)
    · intro h; exact absurd (made_lt h) hi

theorem mem_told {f : Nat → Nat → Event} {e : Event} (hooks : List (Option Nat)) (l : Nat) (h : e ∈ told f l hooks) :
    ∃ l' i, e = f l' i := by
  induction hooks generalizing l with
  | nil => cases h
  | cons hk hs ih =>
    cases hk with
    | none => exact ih (l + 1) h
    | some i =>
      rcases List.mem_cons.mp h with h | h
      · exact ⟨_, _, h⟩
      · exact ih (l + 1) h

theorem ended_zero {l i : Nat} {es : List Event} (h : ∀ e ∈ es, ∀ l' i', e ≠ .endNode l' i') : ended l i es = 0 := by
  rw [ended, List.countP_eq_zero]
  intro e he
  have := h e he
  cases e with
  | endNode a b => exact absurd rfl (this a b)
  | _ => simp

theorem layerTokens_nil {l : Nat} {es : List Event} (h : ∀ e ∈ es, ∀ l' i' t, e ≠ .token l' i' t) : layerTokens l es = [] := by
  rw [layerTokens, List.filterMap_eq_nil_iff]
  intro e he
  have := h e he
  cases e with
  | token a b t => exact absurd rfl (this a b t)
  | _ => simp

theorem makes_ge {env : PEnv σ} {index : Nat} {start : Option Token} {ls : List Nat} {a b : List Event}
    {hs : List (Option Nat)} (h : Makes env index start ls a hs b) (k' i' : Nat) (hk : hs[k']? = some (some i')) :
    a.length ≤ i' := by
  induction h generalizing k' with
  | nil => simp at hk
  | unhooked _ _ ih =>
    cases k' with
    | zero => simp at hk
    | succ k' => exact ih k' (by simpa using hk)
  | absent _ _ _ ih =>
    cases k' with
    | zero => simp at hk
    | succ k' => have := ih k' (by simpa using hk); simp at this; omega
  | made _ _ _ ih =>
    cases k' with
    | zero => simp at hk; omega
    | succ k' => have := ih k' (by simpa using hk); simp at this; omega

/-- What `Makes` does. -/
theorem makes_spec {env : PEnv σ} {index : Nat} {start : Option Token} {ls : List Nat} {log log' : List Event}
    {hooks : List (Option Nat)} (h : Makes env index start ls log hooks log') :
    ∃ es, log' = log ++ es ∧ hooks.length = ls.length ∧ (∀ e ∈ es, ∃ l, e = .make l index start) ∧
      ∀ l i : Nat, log.length ≤ i → (Made env log' l i ↔ ∃ k : Nat, ls[k]? = some l ∧ hooks[k]? = some (some i)) := by
  induction h with
  | @nil log =>
    refine ⟨[], by simp, rfl, by simp, fun l i hi => ?_⟩
    constructor
    · intro h; exact absurd (made_lt h) (by omega)
    · rintro ⟨k, h1, -⟩; simp at h1
  | @unhooked l ls log hs log' h1 h2 ih =>
    obtain ⟨es, h3, h4, h5, h6⟩ := ih
    refine ⟨es, h3, by simp [h4], h5, fun l' i hi => ?_⟩
    rw [h6 l' i hi]
    constructor
    · rintro ⟨k, h1, h2⟩; exact ⟨k + 1, by simpa using h1, by simpa using h2⟩
    · rintro ⟨k, h1, h2⟩
      cases k with
      | zero => simp at h2
      | succ k => exact ⟨k, by simpa using h1, by simpa using h2⟩
  | @absent l ls log hs log' h0 h1 h2 ih =>
    obtain ⟨es, h3, h4, h5, h6⟩ := ih
    refine ⟨.make l index start :: es, by simp [h3], by simp [h4], ?_, fun l' i hi => ?_⟩
    · intro e he
      rcases List.mem_cons.mp he with rfl | he
      · exact ⟨_, rfl⟩
      · exact h5 e he
    · by_cases hil : i = log.length
      · subst hil
        constructor
        · rintro ⟨idx, st, h7, h8⟩
          rw [h3, List.append_assoc] at h7 h8
          rw [List.getElem?_append_right (le_refl _)] at h7
          simp at h7 h8
          obtain ⟨rfl, rfl, rfl⟩ := h7
          rw [h1] at h8; simp at h8
        · rintro ⟨k, h7, h8⟩
          cases k with
          | zero => simp at h8
          | succ k =>
            exfalso
            have := makes_ge h2 k _ (by simpa using h8)
            simp at this
      · rw [h6 l' i (by simp; omega)]
        constructor
        · rintro ⟨k, h1, h2⟩; exact ⟨k + 1, by simpa using h1, by simpa using h2⟩
        · rintro ⟨k, h1, h2⟩
          cases k with
          | zero => simp at h2
          | succ k => exact ⟨k, by simpa using h1, by simpa using h2⟩
  | @made l ls log hs log' h0 h1 h2 ih =>
    obtain ⟨es, h3, h4, h5, h6⟩ := ih
    refine ⟨.make l index start :: es, by simp [h3], by simp [h4], ?_, fun l' i hi => ?_⟩
    · intro e he
      rcases List.mem_cons.mp he with rfl | he
      · exact ⟨_, rfl⟩
      · exact h5 e he
    · have hge : ∀ k' i' : Nat, hs[k']? = some (some i') → log.length < i' := by
        intro k' i' h
        have := makes_ge h2 k' i' h
        simp at this; omega
      by_cases hil : i = log.length
      · subst hil
        constructor
        · rintro ⟨idx, st, h7, h8⟩
          rw [h3, List.append_assoc, List.getElem?_append_right (le_refl _)] at h7
          simp at h7
          exact ⟨0, by simp [h7.1], by simp⟩
        · rintro ⟨k, h7, h8⟩
          cases k with
          | zero =>
            simp at h7
            subst h7
            exact ⟨index, start, by rw [h3]; simp, by rw [h3]; simp [h1]⟩
          | succ k =>
            have := hge k _ (by simpa using h8)
            omega
      · rw [h6 l' i (by simp; omega)]
        constructor
        · rintro ⟨k, h1, h2⟩; exact ⟨k + 1, by simpa using h1, by simpa using h2⟩
        · rintro ⟨k, h1, h2⟩
          cases k with
          | zero => simp at h2; omega
          | succ k => exact ⟨k, by simpa using h1, by simpa using h2⟩

/-- What `Ends` does. -/
theorem ends_spec {env : PEnv σ} {l0 : Nat} {hooks : List (Option Nat)} {log log' : List Event} {rs : List (Option Nat)}
    (h : Ends env l0 hooks log rs log') :
    ∃ es, log' = log ++ es ∧ (∀ e ∈ es, ∃ l i, e = .endNode l i) ∧
      ∀ l i, ended l i es = if l0 ≤ l ∧ hooks[l - l0]? = some (some i) then 1 else 0 := by
  induction h with
  | nil => exact ⟨[], by simp, by simp, by simp [ended]⟩
  | @none l0 hs log rs log' h ih =>
    obtain ⟨es, h1, h2, h3⟩ := ih
    refine ⟨es, h1, h2, fun l i => ?_⟩
    rw [h3]
    by_cases hl : l0 + 1 ≤ l
    · have : l - l0 = (l - (l0 + 1)) + 1 := by omega
      simp only [this, List.getElem?_cons_succ, hl, true_and, show l0 ≤ l by omega]
    · rw [if_neg (by omega)]
      by_cases hl' : l = l0
      · subst hl'; simp
      · rw [if_neg (by omega)]
  | @some l0 i0 hs log res rs log' h0 h ih =>
    obtain ⟨es, h1, h2, h3⟩ := ih
    refine ⟨.endNode l0 i0 :: es, by simp [h1], ?_, fun l i => ?_⟩
    · intro e he
      rcases List.mem_cons.mp he with rfl | he
      · exact ⟨_, _, rfl⟩
      · exact h2 e he
    · rw [show (Event.endNode l0 i0 :: es) = [Event.endNode l0 i0] ++ es from rfl, ended_append, h3]
      by_cases hl : l0 + 1 ≤ l
      · have : l - l0 = (l - (l0 + 1)) + 1 := by omega
        simp only [this, List.getElem?_cons_succ, hl, true_and, show l0 ≤ l by omega]
        simp [ended, show ¬ l0 = l by omega]
      · rw [if_neg (show ¬ (l0 + 1 ≤ l ∧ _) by omega)]
        by_cases hl' : l = l0
        · subst hl'; simp [ended, List.countP_cons]
        · rw [if_neg (by omega)]; simp [ended, show ¬ l0 = l by omega]

/-- Calls add to the log. -/
theorem calls_log {env : PEnv σ} {log es log' : List Event} (h : Calls env log es log') : log' = log ++ es := h.1

/-- Instances made between two moments are ended once, no other instance is ended. -/
def EndedOnce (env : PEnv σ) (l i : Nat) (log log' : List Event) : Prop :=
  ∃ es, log' = log ++ es ∧ (log.length ≤ i ∧ Made env log' l i → ended l i es = 1) ∧
    (¬ (log.length ≤ i ∧ Made env log' l i) → ended l i es = 0)

theorem ended_mk {env : PEnv σ} {index : Nat} {start : Option Token} {log log1 log2 log' : List Event}
    {hooks results : List (Option Nat)} {l i : Nat} (hm : Makes env index start (List.range env.layers) log hooks log1)
    (hi : EndedOnce env l i log1 log2) (he : Ends env 0 hooks log2 results log') : EndedOnce env l i log log' := by
  obtain ⟨es1, h1, hlen, h2, h3⟩ := makes_spec hm
  obtain ⟨es2, h4, h5, h6⟩ := hi
  obtain ⟨es3, h7, h8, h9⟩ := ends_spec he
  refine ⟨es1 ++ es2 ++ es3, by simp [h7, h4, h1], ?_⟩
  have hnm : NoMake es3 := by
    intro e he l idx st heq
    obtain ⟨_, _, h⟩ := h8 e he
    rw [h] at heq; cases heq
  have e1 : ended l i es1 = 0 := ended_zero (by
    intro e he l' i' heq
    obtain ⟨_, h⟩ := h2 e he
    rw [h] at heq; cases heq)
  have hmade : Made env log' l i ↔ Made env log2 l i := by rw [h7]; exact made_noMake hnm
  rw [hmade]
  have e3 := h9 l i
  simp only [Nat.zero_le, true_and, Nat.sub_zero] at e3
  have hhk : hooks[l]? = some (some i) ↔ log.length ≤ i ∧ i < log1.length ∧ Made env log2 l i := by
    constructor
    · intro hk
      have hl : l < hooks.length := (List.getElem?_eq_some_iff.mp hk).1
      have hge : log.length ≤ i := makes_ge hm l i hk
      have hmd : Made env log1 l i :=
        (h3 l i hge).mpr ⟨l, by rw [List.getElem?_range (by rw [hlen, List.length_range] at hl; exact hl)], hk⟩
      have hlt := made_lt hmd
      exact ⟨hge, hlt, by rw [h4]; exact (made_append hlt).mpr hmd⟩
    · rintro ⟨ha, hb, hc⟩
      rw [h4, made_append hb] at hc
      obtain ⟨k, hk1, hk2⟩ := (h3 l i ha).mp hc
      have : k = l := by
        obtain ⟨hh, hh2⟩ := List.getElem?_eq_some_iff.mp hk1
        simpa using hh2
      rw [← this]; exact hk2
  rw [ended_append, ended_append, e1, e3]
  have hle : log.length ≤ log1.length := by rw [h1]; simp
  constructor
  · rintro ⟨ha, hb⟩
    by_cases hlt : i < log1.length
    · rw [h6 (by rintro ⟨hc, -⟩; omega), if_pos (hhk.mpr ⟨ha, hlt, hb⟩)]
    · rw [h5 ⟨by omega, hb⟩, if_neg (by rw [hhk]; rintro ⟨-, hc, -⟩; omega)]
  · intro hn
    rw [h6 (by rintro ⟨hc, hd⟩; exact hn ⟨by omega, hd⟩), if_neg (by rw [hhk]; rintro ⟨hc, -, hd⟩; exact hn ⟨hc, hd⟩)]

theorem ended_refl {env : PEnv σ} {l i : Nat} {log : List Event} : EndedOnce env l i log log := by
  refine ⟨[], by simp, ?_, fun _ => rfl⟩
  rintro ⟨h1, h2⟩
  exact absurd (made_lt h2) (by omega)

theorem ended_quiet {env : PEnv σ} {l i : Nat} {log log' es : List Event} (h : log' = log ++ es) (h1 : NoMake es)
    (h2 : ended l i es = 0) : EndedOnce env l i log log' := by
  refine ⟨es, h, ?_, fun _ => h2⟩
  rintro ⟨h3, h4⟩
  rw [h, made_noMake h1] at h4
  exact absurd (made_lt h4) (by omega)

theorem ended_trans {env : PEnv σ} {l i : Nat} {a b c : List Event} (h : EndedOnce env l i a b)
    (h' : EndedOnce env l i b c) : EndedOnce env l i a c := by
  obtain ⟨es, h1, h2, h3⟩ := h
  obtain ⟨es', h1', h2', h3'⟩ := h'
  refine ⟨es ++ es', by rw [h1', h1]; simp, ?_⟩
  rw [ended_append]
  have hle : a.length ≤ b.length := by rw [h1]; simp
  by_cases hlt : i < b.length
  · have hm : Made env c l i ↔ Made env b l i := by rw [h1', made_append hlt]
    rw [h3' (by rintro ⟨hx, -⟩; omega), hm]
    exact ⟨fun h => h2 h, fun h => h3 h⟩
  · have hno : ¬ Made env b l i := fun hx => by have := made_lt hx; omega
    rw [h3 (by rintro ⟨-, hx⟩; exact hno hx), Nat.zero_add]
    constructor
    · rintro ⟨ha, hb⟩; exact h2' ⟨by omega, hb⟩
    · intro hx; exact h3' (by rintro ⟨-, hb⟩; exact hx ⟨by omega, hb⟩)

theorem ended_told {env : PEnv σ} {l i l0 : Nat} {log log' : List Event} {f : Nat → Nat → Event} {hooks : List (Option Nat)}
    (hm : ∀ l i l' idx st, f l i ≠ .make l' idx st) (he : ∀ l i l' i', f l i ≠ .endNode l' i')
    (h : Calls env log (told f l0 hooks) log') : EndedOnce env l i log log' := by
  refine ended_quiet (calls_log h) ?_ (ended_zero ?_)
  · intro e h l' idx st heq
    obtain ⟨a, b, rfl⟩ := mem_told _ _ h
    exact hm a b _ _ _ heq
  · intro e h l' i' heq
    obtain ⟨a, b, rfl⟩ := mem_told _ _ h
    exact he a b _ _ heq

/-- Instances made by a node and its descendants are ended once. -/
theorem nodeRun_ended {env : PEnv σ} {index : Nat} {start : Option Token} {items : List Item} {log log' : List Event}
    {hooks results : List (Option Nat)} (h : NodeRun env index start items log hooks results log') (l i : Nat) :
    EndedOnce env l i log log' := by
  refine NodeRun.rec (motive_1 := fun _ _ _ a _ _ b _ => EndedOnce env l i a b)
    (motive_2 := fun _ _ a b _ => EndedOnce env l i a b) ?_ ?_ ?_ ?_ h
  · intro _ _ _ _ _ _ _ _ _ hm _ he ih
    exact ended_mk hm ih he
  · intros; exact ended_refl
  · intro _ _ _ _ _ _ _ hc ih
    exact ended_trans ih (ended_told (by simp) (by simp) hc)
  · intro _ _ _ _ _ _ _ _ _ _ _ _ _ hc _ hc' ih ih'
    exact ended_trans (ended_trans ih (ended_told (by simp) (by simp) hc)) (ended_trans ih' (ended_told (by simp) (by simp) hc'))

theorem told_tokens {l l0 : Nat} {t : Token} (hooks : List (Option Nat)) :
    layerTokens l (told (fun l i => .token l i t) l0 hooks) =
      if l0 ≤ l ∧ ((hooks[l - l0]?).join).isSome then [t] else [] := by
  induction hooks generalizing l0 with
  | nil => simp [told, layerTokens]
  | cons hk hs ih =>
    cases hk with
    | none =>
      rw [told, ih]
      by_cases hl : l0 + 1 ≤ l
      · have : l - l0 = (l - (l0 + 1)) + 1 := by omega
        simp only [this, List.getElem?_cons_succ, hl, true_and, show l0 ≤ l by omega]
      · rw [if_neg (by omega)]
        by_cases hl' : l = l0
        · subst hl'; simp
        · rw [if_neg (by omega)]
    | some j =>
      rw [told, show ∀ (a : Event) b, a :: b = [a] ++ b from fun _ _ => rfl, layerTokens_append, ih]
      by_cases hl : l0 + 1 ≤ l
      · have : l - l0 = (l - (l0 + 1)) + 1 := by omega
        simp only [this, List.getElem?_cons_succ, hl, true_and, show l0 ≤ l by omega]
        simp [layerTokens, show ¬ l0 = l by omega]
      · rw [if_neg (by omega)]
        by_cases hl' : l = l0
        · subst hl'; simp [layerTokens]
        · rw [if_neg (by omega)]; simp [layerTokens, show ¬ l0 = l by omega]

theorem makes_full {env : PEnv σ} {l index : Nat} {start : Option Token} (hf : FullLayer env l) {ls : List Nat} {log log' : List Event}
    {hooks : List (Option Nat)} (h : Makes env index start ls log hooks log') (k : Nat) (hk : ls[k]? = some l) :
    ∃ i, hooks[k]? = some (some i) := by
  induction h generalizing k with
  | nil => simp at hk
  | unhooked h1 _ ih =>
    cases k with
    | zero => simp at hk; subst hk; rw [(hf.2 index).1] at h1; cases h1
    | succ k => simpa using ih k (by simpa using hk)
  | absent _ h1 _ ih =>
    cases k with
    | zero => simp at hk; subst hk; exact absurd h1 ((hf.2 index).2 _ _)
    | succ k => simpa using ih k (by simpa using hk)
  | made _ _ _ ih =>
    cases k with
    | zero => exact ⟨_, by simp; rfl⟩
    | succ k => simpa using ih k (by simpa using hk)

theorem leaves_append (a b : List Item) : leavesOf (a ++ b) = leavesOf a ++ leavesOf b := by
  induction a with
  | nil => rfl
  | cons i is ih => simp [leavesOf, ih]

theorem told_layer {env : PEnv σ} {l l0 : Nat} {log log' : List Event} {f : Nat → Nat → Event} {hooks : List (Option Nat)}
    (hm : ∀ l i l' i' t, f l i ≠ .token l' i' t) (h : Calls env log (told f l0 hooks) log') :
    layerTokens l log' = layerTokens l log := by
  rw [calls_log h, layerTokens_append, layerTokens_nil (es := told f l0 hooks), List.append_nil]
  intro e h l' idx st heq
  obtain ⟨a, b, rfl⟩ := mem_told _ _ h
  exact hm a b _ _ _ heq

/-- A full layer is told about all tokens. -/
theorem nodeRun_tokens {env : PEnv σ} {l : Nat} (hf : FullLayer env l) {index : Nat} {start : Option Token} {items : List Item}
    {log log' : List Event} {hooks results : List (Option Nat)} (h : NodeRun env index start items log hooks results log') :
    layerTokens l log' = layerTokens l log ++ leavesOf items := by
  refine NodeRun.rec (motive_1 := fun _ _ items a _ _ b _ => layerTokens l b = layerTokens l a ++ leavesOf items)
    (motive_2 := fun hooks items a b _ => (∃ i, hooks[l]? = some (some i)) → layerTokens l b = layerTokens l a ++ leavesOf items)
    ?_ ?_ ?_ ?_ h
  · intro _ _ _ _ _ _ _ _ _ hm _ he ih
    obtain ⟨es1, h1, hlen, h2, -⟩ := makes_spec hm
    obtain ⟨es3, h7, h8, -⟩ := ends_spec he
    have hk := makes_full hf hm l (by rw [List.getElem?_range hf.1])
    rw [h7, layerTokens_append, ih hk, h1, layerTokens_append, layerTokens_nil (es := es1), layerTokens_nil (es := es3)]
    · simp
    · intro e he l' i' t heq
      obtain ⟨_, _, h⟩ := h8 e he
      rw [h] at heq; cases heq
    · intro e he l' i' t heq
      obtain ⟨_, h⟩ := h2 e he
      rw [h] at heq; cases heq
  · intros; simp [leavesOf]
  · intro _ _ _ _ _ _ _ hc ih hk
    obtain ⟨i, hi⟩ := hk
    rw [calls_log hc, layerTokens_append, ih ⟨i, hi⟩, told_tokens, if_pos ⟨Nat.zero_le _, by simp [hi]⟩, leaves_append]
    simp [leavesOf, Item.leaves]
  · intro _ _ _ _ _ _ _ _ _ _ _ _ _ hc _ hc' ih ih' hk
    rw [told_layer (by simp) hc', ih', told_layer (by simp) hc, ih hk, leaves_append]
    simp [leavesOf, Item.leaves]

end Verif.Proof
