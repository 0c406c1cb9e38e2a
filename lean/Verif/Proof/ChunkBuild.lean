/-
`BuildStates` never panics, touches only its own state and new states, and never removes rules for tokens.
-/
import Verif.Proof.Chunk

namespace Verif.Model

open Verif.Spec Verif.Spec.Ebnf

namespace PR

/-- `pr'` is made of `pr` by changing states with property `P` only. -/
structure Grown (P : Nat → Prop) (pr pr' : PR) : Prop where
  ok : pr'.Ok
  len : pr.states.length ≤ pr'.states.length
  other : ∀ j k, ¬ P j → pr'.rules j k = pr.rules j k
  mono : ∀ j k, 0 ≤ k → pr.rules j k <+: pr'.rules j k

variable {P Q : Nat → Prop}

theorem Grown.refl {pr : PR} (h : pr.Ok) : Grown P pr pr :=
  ⟨h, le_refl _, fun _ _ _ => rfl, fun _ _ _ => List.prefix_refl _⟩

theorem Grown.trans {p q r : PR} (h1 : Grown P p q) (h2 : Grown P q r) : Grown P p r :=
  ⟨h2.ok, le_trans h1.len h2.len, fun j k hj => (h2.other j k hj).trans (h1.other j k hj),
    fun j k hk => (h1.mono j k hk).trans (h2.mono j k hk)⟩

theorem Grown.weaken {p q : PR} (h : Grown P p q) (hP : ∀ x, P x → Q x) : Grown Q p q :=
  ⟨h.ok, h.len, fun j k hj => h.other j k fun hp => hj (hP j hp), h.mono⟩

theorem grown_addStates {n : Nat} {pr : PR} (h : pr.Ok) : Grown P pr (addStates n pr) :=
  ⟨addStates_ok n h, by rw [addStates_length]; omega, fun j k _ => addStates_rules n pr j k,
    fun j k _ => by rw [addStates_rules]⟩

theorem grown_addState {pr : PR} (h : pr.Ok) : Grown P pr pr.addState :=
  grown_addStates (n := 1) h

theorem addRule_grown {pr : PR} (h : pr.Ok) {s : Nat} (hs : s < pr.states.length) (st nd k : Int)
    (h1 : finalState ≤ st) (h2 : st < pr.states.length) :
    ∃ pr', pr.addRule s st nd k = some pr' ∧ Grown (· = s) pr pr' ∧ pr'.states.length = pr.states.length ∧
      ∀ j k', pr'.rules j k' = if j = s ∧ k' = k then (if 0 ≤ k then pr.rules s k else []) ++ [⟨k, st, nd⟩]
        else pr.rules j k' := by
  obtain ⟨pr', he, hok, hl, hr⟩ := addRule_spec h hs st nd k h1 h2
  refine ⟨pr', he, ⟨hok, by omega, ?_, ?_⟩, hl, hr⟩
  · intro j k' hn
    rw [hr, if_neg (by tauto)]
  · intro j k' hk
    rw [hr]
    split
    · next hc => rw [hc.1, hc.2, if_pos (hc.2 ▸ hk)]; exact List.prefix_append _ _
    · exact List.prefix_refl _

theorem copyRules_grown {pr : PR} (h : pr.Ok) {d s : Nat} (hd : d < pr.states.length) (hs : s < pr.states.length) :
    ∃ pr', pr.copyRules d s = some pr' ∧ Grown (· = d) pr pr' ∧ pr'.states.length = pr.states.length ∧
      ∀ j k, pr'.rules j k = if j = d then
          (if 0 ≤ k then pr.rules d k ++ pr.rules s k
            else if pr.rules s k = [] then pr.rules d k else pr.rules s k)
        else pr.rules j k := by
  obtain ⟨pr', he, hok, hl, hr⟩ := copyRules_spec h hd hs
  refine ⟨pr', he, ⟨hok, by omega, ?_, ?_⟩, hl, hr⟩
  · intro j k hn
    rw [hr, if_neg hn]
  · intro j k hk
    rw [hr, if_pos hk]
    split
    · next hc => rw [hc]; exact List.prefix_append _ _
    · exact List.prefix_refl _

theorem addRules_grown {s : Nat} (st nd : Int) (ks : List Int) {pr : PR} (h : pr.Ok)
    (hs : s < pr.states.length) (h1 : finalState ≤ st) (h2 : st < pr.states.length) :
    ∃ pr', addRules s st nd ks pr = some pr' ∧ Grown (· = s) pr pr' ∧ pr'.states.length = pr.states.length ∧
      ((∀ k ∈ ks, 0 ≤ k) → ∀ j k r, r ∈ pr'.rules j k ↔ r ∈ pr.rules j k ∨ (j = s ∧ k ∈ ks ∧ r = ⟨k, st, nd⟩)) := by
  induction ks generalizing pr with
  | nil => exact ⟨pr, rfl, Grown.refl h, rfl, by simp⟩
  | cons k ks ih =>
    obtain ⟨p, he, hg, hl, hr⟩ := addRule_grown h hs st nd k h1 h2
    obtain ⟨q, he', hg', hl', hr'⟩ := ih hg.ok (by omega) (by omega)
    refine ⟨q, by simp [addRules, he, he'], hg.trans hg', by omega, ?_⟩
    intro hk j k' r
    rw [hr' (fun k hk' => hk k (List.mem_cons_of_mem _ hk')), hr, if_pos (hk k (List.mem_cons_self ..))]
    split
    · next hc =>
      obtain ⟨rfl, rfl⟩ := hc
      simp only [List.mem_append, List.mem_singleton, List.mem_cons, true_or, true_and]
      tauto
    · next hc =>
      simp only [List.mem_cons]
      constructor
      · tauto
      · rintro (h' | ⟨rfl, rfl | h', rfl⟩)
        · exact Or.inl h'
        · simp at hc
        · exact Or.inr ⟨rfl, h', rfl⟩

end PR

open PR

/-- States touched when a sequence is built: its first state, its own states. -/
def SeqStates (cs : List Chunk) (s j x : Nat) : Prop := x = s ∨ (j ≤ x ∧ x + 1 < j + cs.length)

/-- What `closeSeq` does. -/
theorem closeSeq_grown (cs : List Chunk) {pr : PR} (h : pr.Ok) {s j : Nat} {tail : Int}
    (hs : s < pr.states.length) (hsj : s < j) (hj : j + (cs.length - 1) ≤ pr.states.length)
    (h1 : finalState ≤ tail) (h2 : tail < pr.states.length) :
    ∃ pr', closeSeq cs pr s j tail = some pr' ∧ Grown (SeqStates cs s j) pr pr' ∧
      pr'.states.length = pr.states.length := by
  induction cs generalizing s j pr with
  | nil => exact ⟨pr, rfl, Grown.refl h, rfl⟩
  | cons c cs ih =>
    cases cs with
    | nil =>
      simp only [closeSeq, Option.bind_some, List.isEmpty_nil, if_true]
      split
      · obtain ⟨p, he, hg, hl, _⟩ := addRule_grown h hs tail sameNode anyToken h1 h2
        exact ⟨p, he, hg.weaken fun _ => Or.inl, hl⟩
      · exact ⟨pr, rfl, Grown.refl h, rfl⟩
    | cons d ds =>
      have hj' : j + (ds.length + 1) ≤ pr.states.length := by simpa using hj
      obtain ⟨p, he, hg, hl⟩ := ih h (s := j) (j := j + 1) (by omega) (by omega) (by simp; omega) h2
      have hg' : Grown (SeqStates (c :: d :: ds) s j) pr p := hg.weaken fun x hx => by
        unfold SeqStates at *
        simp only [List.length_cons] at *
        omega
      rw [closeSeq, he, Option.bind_some]
      simp only [List.isEmpty_cons, Bool.false_eq_true, if_false]
      split
      · obtain ⟨q, he', hgq, hl', _⟩ := copyRules_grown hg.ok (d := s) (s := j) (by omega) (by omega)
        exact ⟨q, he', hg'.trans (hgq.weaken fun _ => Or.inl), by omega⟩
      · exact ⟨p, rfl, hg', hl⟩

mutual

theorem Chunk.build_grown (ft : Nat → Finset Int) (c : Chunk) (hc : WF c) {pr : PR} (h : pr.Ok) {s : Nat} {t : Int}
    (hs : s < pr.states.length) (h1 : finalState ≤ t) (h2 : t < pr.states.length) :
    ∃ pr', c.build ft pr s t = some pr' ∧ Grown (fun x => x = s ∨ pr.states.length ≤ x) pr pr' := by
  cases c with
  | token k =>
    rw [Chunk.build]
    obtain ⟨p, he, hg, _⟩ := addRules_grown t sameNode [(k : Int)] h hs h1 h2
    exact ⟨p, he, hg.weaken fun _ => Or.inl⟩
  | eoi =>
    rw [Chunk.build]
    obtain ⟨p, he, hg, _⟩ := addRules_grown finalState sameNode [eoiTokenType] h hs (le_refl _)
      (by unfold finalState at *; omega)
    exact ⟨p, he, hg.weaken fun _ => Or.inl⟩
  | node i =>
    rw [Chunk.build]
    obtain ⟨p, he, hg, _⟩ := addRules_grown t i (sorted (ft i)) h hs h1 h2
    exact ⟨p, he, hg.weaken fun _ => Or.inl⟩
  | variant cs =>
    rw [Chunk.build]
    rw [WF] at hc
    exact Chunk.buildAll_grown ft cs hc.2 h hs h1 h2
  | group cs opt rep =>
    rw [WF] at hc
    rw [Chunk.build]
    have ht1 : finalState ≤ (if rep then (s : Int) else t) := by
      split
      · unfold finalState; omega
      · exact h1
    have ht2 : (if rep then (s : Int) else t) < pr.states.length := by
      split <;> omega
    generalize (if rep then (s : Int) else t) = tail at ht1 ht2
    have hcl : 0 < cs.length := List.length_pos_of_ne_nil hc.1
    simp only
    by_cases hr : rep = true ∧ cs.length > 1
    · rw [if_pos hr]
      have h0 : (addStates (cs.length - 1) pr.addState).states.length = pr.states.length + cs.length := by
        rw [addStates_length, addState_length]; omega
      have hg0 : Grown (fun x => x = s ∨ pr.states.length ≤ x) pr (addStates (cs.length - 1) pr.addState) :=
        (grown_addState h).trans (grown_addStates (addState_ok h))
      obtain ⟨p, he, hg⟩ := Chunk.buildSeq_grown ft cs hc.2.2 hg0.ok
        (s := pr.states.length) (j := pr.states.length + 1) (tail := tail) (by omega)
        (by omega) ht1 (by omega)
      have hgl := hg.len
      obtain ⟨q, he', hg', hl'⟩ := closeSeq_grown cs hg.ok (s := pr.states.length)
        (j := pr.states.length + 1) (tail := tail) (by omega) (by omega) (by omega) ht1
        (by omega)
      obtain ⟨r, he'', hg'', _⟩ := copyRules_grown hg'.ok (d := s) (s := pr.states.length)
        (by omega) (by omega)
      refine ⟨r, ?_, ?_⟩
      · rw [he, Option.bind_some, he', Option.bind_some, he'']
      · refine ((hg0.trans (hg.weaken ?_)).trans (hg'.weaken ?_)).trans (hg''.weaken fun _ => Or.inl)
        · unfold SeqStates; intro x; omega
        · unfold SeqStates; intro x; omega
    · rw [if_neg hr]
      have hne : cs.isEmpty = false := by
        cases cs with
        | nil => simp at hcl
        | cons => rfl
      rw [hne]
      simp only [Bool.false_eq_true, if_false]
      have h0 : (addStates (cs.length - 1) pr).states.length = pr.states.length + (cs.length - 1) := by
        rw [addStates_length]
      have hg0 : Grown (fun x => x = s ∨ pr.states.length ≤ x) pr (addStates (cs.length - 1) pr) :=
        grown_addStates h
      obtain ⟨p, he, hg⟩ := Chunk.buildSeq_grown ft cs hc.2.2 hg0.ok
        (s := s) (j := pr.states.length) (tail := tail) (by omega) (by omega) ht1 (by omega)
      have hgl := hg.len
      obtain ⟨q, he', hg', hl'⟩ := closeSeq_grown cs hg.ok (s := s)
        (j := pr.states.length) (tail := tail) (by omega) (by omega) (by omega) ht1
        (by omega)
      refine ⟨q, by rw [he, Option.bind_some, he'], (hg0.trans (hg.weaken ?_)).trans (hg'.weaken ?_)⟩
      · unfold SeqStates; intro x; omega
      · unfold SeqStates; intro x; omega
termination_by sizeOf c

theorem Chunk.buildAll_grown (ft : Nat → Finset Int) (cs : List Chunk) (hc : WFs cs) {pr : PR} (h : pr.Ok)
    {s : Nat} {t : Int} (hs : s < pr.states.length) (h1 : finalState ≤ t)
    (h2 : t < pr.states.length) :
    ∃ pr', Chunk.buildAll ft cs pr s t = some pr' ∧ Grown (fun x => x = s ∨ pr.states.length ≤ x) pr pr' := by
  cases cs with
  | nil => exact ⟨pr, by rw [Chunk.buildAll], Grown.refl h⟩
  | cons c cs =>
    rw [WFs] at hc
    obtain ⟨p, he, hg⟩ := Chunk.build_grown ft c hc.1 h hs h1 h2
    have hgl := hg.len
    obtain ⟨q, he', hg'⟩ := Chunk.buildAll_grown ft cs hc.2 hg.ok (s := s) (t := t) (by omega) h1
      (by omega)
    refine ⟨q, by rw [Chunk.buildAll, he, Option.bind_some, he'], hg.trans (hg'.weaken ?_)⟩
    intro x; omega
termination_by sizeOf cs

theorem Chunk.buildSeq_grown (ft : Nat → Finset Int) (cs : List Chunk) (hc : WFs cs) {pr : PR} (h : pr.Ok)
    {s j : Nat} {tail : Int} (hs : s < pr.states.length)
    (hj : j + (cs.length - 1) ≤ pr.states.length)
    (h1 : finalState ≤ tail) (h2 : tail < pr.states.length) :
    ∃ pr', Chunk.buildSeq ft cs pr s j tail = some pr' ∧
      Grown (fun x => SeqStates cs s j x ∨ pr.states.length ≤ x) pr pr' := by
  cases cs with
  | nil => exact ⟨pr, by rw [Chunk.buildSeq], Grown.refl h⟩
  | cons c cs =>
    rw [WFs] at hc
    have hx1 : finalState ≤ (if cs.isEmpty then tail else (j : Int)) := by
      split
      · exact h1
      · unfold finalState; omega
    have hx2 : (if cs.isEmpty then tail else (j : Int)) < pr.states.length := by
      cases cs with
      | nil => simpa using h2
      | cons d ds => simp at hj ⊢; omega
    obtain ⟨p, he, hg⟩ := Chunk.build_grown ft c hc.1 h hs hx1 hx2
    have hgl := hg.len
    have hgb : Grown (fun x => SeqStates (c :: cs) s j x ∨ pr.states.length ≤ x) pr p := hg.weaken fun x hx => by
      unfold SeqStates; tauto
    cases cs with
    | nil => exact ⟨p, by rw [Chunk.buildSeq, he, Option.bind_some, Chunk.buildSeq], hgb⟩
    | cons d ds =>
      have hj' : j + (ds.length + 1) ≤ pr.states.length := by simpa using hj
      obtain ⟨q, he', hg'⟩ := Chunk.buildSeq_grown ft (d :: ds) hc.2 hg.ok (s := j) (j := j + 1)
        (tail := tail) (by omega) (by simp; omega) h1 (by omega)
      refine ⟨q, ?_, hgb.trans (hg'.weaken ?_)⟩
      · rw [Chunk.buildSeq, he, Option.bind_some, he']
      · intro x
        unfold SeqStates
        simp only [List.length_cons]
        omega
termination_by sizeOf cs

end

end Verif.Model
