/-
Rules made for nested nodes: there is one for every token that can start the node.
-/
import Verif.Proof.ChunkNodes

namespace Verif.Model

open Verif.Spec Verif.Spec.Ebnf PR

/-- Keys of rules are tokens or `anyToken`; the key of a rule for a nested node can start the node, and there is the same rule for
every key that can start it. -/
def Rows (ft : Nat → Finset Int) (pr : PR) : Prop :=
  ∀ (s : Nat) (k : Int), ∀ r ∈ pr.rules s k, (0 ≤ k ∨ k = anyToken) ∧ (r.node = sameNode ∨ (0 ≤ r.node ∧ (0 ≤ k ∧ k ∈ ft r.node.toNat) ∧
    ∀ k' ∈ ft r.node.toNat, ∃ r' ∈ pr.rules s k', r'.node = r.node ∧ r'.state = r.state))

theorem Rows.congr {ft : Nat → Finset Int} {pr pr' : PR} (h : Rows ft pr) (he : ∀ s k, pr'.rules s k = pr.rules s k) : Rows ft pr' := by
  intro s k r hr
  rw [he] at hr
  obtain ⟨h1, h2⟩ := h s k r hr
  refine ⟨h1, h2.imp id fun ⟨h3, h4, h5⟩ => ⟨h3, h4, fun k' hk' => ?_⟩⟩
  rw [he]; exact h5 k' hk'

theorem rows_empty {ft : Nat → Finset Int} : Rows ft {} := by
  intro s k r hr
  simp [PR.rules] at hr

variable {ft : Nat → Finset Int}

theorem addRules_rows (hft : ∀ i, ∀ k ∈ ft i, 0 ≤ k) {s : Nat} {st nd : Int} {ks : List Int} {pr pr' : PR} (h : pr.Ok) (hr : Rows ft pr)
    (hs : s < pr.states.length) (h1 : finalState ≤ st) (h2 : st < pr.states.length) (hks : ∀ k ∈ ks, 0 ≤ k)
    (hnd : nd = sameNode ∨ (0 ≤ nd ∧ ∀ k, k ∈ ft nd.toNat ↔ k ∈ ks)) (he : addRules s st nd ks pr = some pr') : Rows ft pr' := by
  obtain ⟨p, he', -, -, hall⟩ := addRules_grown st nd ks h hs h1 h2
  rw [he] at he'; cases he'
  have hall := hall hks
  intro x k r hx
  rcases (hall x k r).mp hx with hx | ⟨rfl, hk, rfl⟩
  · obtain ⟨h3, h4⟩ := hr x k r hx
    refine ⟨h3, h4.imp id fun ⟨h5, h6, h7⟩ => ⟨h5, h6, fun k' hk' => ?_⟩⟩
    obtain ⟨r', h8, h9⟩ := h7 k' hk'
    exact ⟨r', (hall x k' r').mpr (.inl h8), h9⟩
  · refine ⟨.inl (hks k hk), ?_⟩
    dsimp only
    rcases hnd with hnd | ⟨hnd, hin⟩
    · exact .inl hnd
    · exact .inr ⟨hnd, ⟨hks k hk, (hin k).mpr hk⟩, fun k' hk' => ⟨⟨k', st, nd⟩, (hall x k' _).mpr (.inr ⟨rfl, (hin k').mp hk', rfl⟩), rfl, rfl⟩⟩

theorem addAny_rows (hft : ∀ i, ∀ k ∈ ft i, 0 ≤ k) {s : Nat} {st : Int} {pr pr' : PR} (h : pr.Ok) (hr : Rows ft pr)
    (hs : s < pr.states.length) (h1 : finalState ≤ st) (h2 : st < pr.states.length)
    (he : pr.addRule s st sameNode anyToken = some pr') : Rows ft pr' := by
  obtain ⟨p, he', -, -, hall⟩ := addRule_grown h hs st sameNode anyToken h1 h2
  rw [he] at he'; cases he'
  have hpos : ∀ x k, 0 ≤ k → pr'.rules x k = pr.rules x k := by
    intro x k hk
    rw [hall, if_neg]
    rintro ⟨-, rfl⟩
    exact absurd hk (by decide)
  intro x k r hx
  rw [hall] at hx
  split at hx
  · rename_i hc
    rw [if_neg (by decide)] at hx
    cases List.mem_singleton.mp hx
    exact ⟨.inr hc.2, .inl rfl⟩
  · obtain ⟨h3, h4⟩ := hr x k r hx
    refine ⟨h3, h4.imp id fun ⟨h5, h6, h7⟩ => ⟨h5, h6, fun k' hk' => ?_⟩⟩
    rw [hpos x k' (hft _ k' hk')]
    exact h7 k' hk'

theorem copyRules_rows (hft : ∀ i, ∀ k ∈ ft i, 0 ≤ k) {d s : Nat} {pr pr' : PR} (h : pr.Ok) (hr : Rows ft pr)
    (hd : d < pr.states.length) (hs : s < pr.states.length) (he : pr.copyRules d s = some pr') : Rows ft pr' := by
  obtain ⟨p, he', -, -, hall⟩ := copyRules_grown h hd hs
  rw [he] at he'; cases he'
  have hup : ∀ x k r, 0 ≤ k → (r ∈ pr.rules x k ∨ (x = d ∧ r ∈ pr.rules s k)) → r ∈ pr'.rules x k := by
    intro x k r hk hx
    rw [hall]
    split
    · rename_i hxd
      subst hxd
      rw [List.mem_append]
      exact hx.imp id (·.2)
    · rename_i hxd
      exact hx.resolve_right (fun h => hxd h.1)
  have key : ∀ y k r, r ∈ pr.rules y k → ∀ x, (y = x ∨ (x = d ∧ y = s)) → (0 ≤ k ∨ k = anyToken) ∧ (r.node = sameNode ∨
      (0 ≤ r.node ∧ (0 ≤ k ∧ k ∈ ft r.node.toNat) ∧ ∀ k' ∈ ft r.node.toNat, ∃ r' ∈ pr'.rules x k', r'.node = r.node ∧ r'.state = r.state)) := by
    intro y k r hy x hx
    obtain ⟨h3, h4⟩ := hr y k r hy
    refine ⟨h3, h4.imp id fun ⟨h5, h6, h7⟩ => ⟨h5, h6, fun k' hk' => ?_⟩⟩
    obtain ⟨r', h8, h9⟩ := h7 k' hk'
    refine ⟨r', hup x k' r' (hft _ k' hk') ?_, h9⟩
    rcases hx with rfl | ⟨rfl, rfl⟩
    · exact .inl h8
    · exact .inr ⟨rfl, h8⟩
  intro x k r hx
  rw [hall] at hx
  split at hx
  · rename_i hxd
    subst hxd
    split at hx
    · rcases List.mem_append.mp hx with hx | hx
      · exact key _ _ _ hx x (.inl rfl)
      · exact key _ _ _ hx x (.inr ⟨rfl, rfl⟩)
    · split at hx
      · exact key _ _ _ hx x (.inl rfl)
      · exact key _ _ _ hx x (.inr ⟨rfl, rfl⟩)
  · exact key _ _ _ hx x (.inl rfl)

theorem closeSeq_rows (hft : ∀ i, ∀ k ∈ ft i, 0 ≤ k) (cs : List Chunk) {pr pr' : PR} (h : pr.Ok) (hr : Rows ft pr) {s j : Nat} {tail : Int}
    (hs : s < pr.states.length) (hsj : s < j) (hj : j + (cs.length - 1) ≤ pr.states.length)
    (h1 : finalState ≤ tail) (h2 : tail < pr.states.length) (he : closeSeq cs pr s j tail = some pr') : Rows ft pr' := by
  induction cs generalizing s j pr pr' with
  | nil => cases he; exact hr
  | cons c cs ih =>
    cases cs with
    | nil =>
      simp only [closeSeq, Option.bind_some, List.isEmpty_nil, if_true] at he
      split at he
      · exact addAny_rows hft h hr hs h1 h2 he
      · cases he; exact hr
    | cons d ds =>
      have hj' : j + (ds.length + 1) ≤ pr.states.length := by simpa using hj
      obtain ⟨p, hep, hg, hl⟩ := closeSeq_grown (d :: ds) h (s := j) (j := j + 1) (by omega) (by omega) (by simp; omega) h1 h2
      rw [closeSeq, hep, Option.bind_some] at he
      have hrp := ih h hr (s := j) (j := j + 1) (by omega) (by omega) (by simp; omega) h2 hep
      simp only [List.isEmpty_cons, Bool.false_eq_true, if_false] at he
      split at he
      · exact copyRules_rows hft hg.ok hrp (by omega) (by omega) he
      · cases he; exact hrp

mutual

theorem Chunk.build_rows (hft : ∀ i, ∀ k ∈ ft i, 0 ≤ k) (c : Chunk) (hc : WF c) (hne : NoEoi c) {pr pr' : PR} (h : pr.Ok) (hr : Rows ft pr)
    {s : Nat} {t : Int} (hs : s < pr.states.length) (h1 : finalState ≤ t) (h2 : t < pr.states.length)
    (he : c.build ft pr s t = some pr') : Rows ft pr' := by
  cases c with
  | token k =>
    rw [Chunk.build] at he
    exact addRules_rows hft h hr hs h1 h2 (by simp) (.inl rfl) he
  | eoi => exact absurd hne (by simp [NoEoi])
  | node i =>
    rw [Chunk.build] at he
    exact addRules_rows hft h hr hs h1 h2 (fun k hk => hft i k (mem_sorted.mp hk))
      (.inr ⟨by omega, fun k => by rw [mem_sorted]; simp⟩) he
  | variant cs =>
    rw [Chunk.build] at he
    rw [WF] at hc
    rw [NoEoi] at hne
    exact Chunk.buildAll_rows hft cs hc.2 hne h hr hs h1 h2 he
  | group cs opt rep =>
    rw [WF] at hc
    rw [NoEoi] at hne
    rw [Chunk.build] at he
    have ht1 : finalState ≤ (if rep then (s : Int) else t) := by
      split
      · unfold finalState; omega
      · exact h1
    have ht2 : (if rep then (s : Int) else t) < pr.states.length := by
      split <;> omega
    generalize (if rep then (s : Int) else t) = tail at ht1 ht2 he
    have hcl : 0 < cs.length := List.length_pos_of_ne_nil hc.1
    simp only at he
    by_cases hrep : rep = true ∧ cs.length > 1
    · rw [if_pos hrep] at he
      have h0 : (addStates (cs.length - 1) pr.addState).states.length = pr.states.length + cs.length := by
        rw [addStates_length, addState_length]; omega
      have hok0 : (addStates (cs.length - 1) pr.addState).Ok := addStates_ok _ (addState_ok h)
      have hr0 : Rows ft (addStates (cs.length - 1) pr.addState) :=
        hr.congr fun x k => by rw [addStates_rules, addState_rules]
      obtain ⟨p, hep, hg⟩ := Chunk.buildSeq_grown ft cs hc.2.2 hok0
        (s := pr.states.length) (j := pr.states.length + 1) (tail := tail) (by omega)
        (by omega) ht1 (by omega)
      have hgl := hg.len
      rw [hep, Option.bind_some] at he
      have hrp := Chunk.buildSeq_rows hft cs hc.2.2 hne hok0 hr0
        (s := pr.states.length) (j := pr.states.length + 1) (tail := tail) (by omega)
        (by omega) ht1 (by omega) hep
      obtain ⟨q, heq, hg', hl'⟩ := closeSeq_grown cs hg.ok (s := pr.states.length)
        (j := pr.states.length + 1) (tail := tail) (by omega) (by omega) (by omega) ht1
        (by omega)
      rw [heq, Option.bind_some] at he
      have hrq := closeSeq_rows hft cs hg.ok hrp (s := pr.states.length)
        (j := pr.states.length + 1) (tail := tail) (by omega) (by omega) (by omega) ht1
        (by omega) heq
      exact copyRules_rows hft hg'.ok hrq (by omega) (by omega) he
    · rw [if_neg hrep] at he
      have hnem : cs.isEmpty = false := by
        cases cs with
        | nil => simp at hcl
        | cons => rfl
      rw [hnem] at he
      simp only [Bool.false_eq_true, if_false] at he
      have h0 : (addStates (cs.length - 1) pr).states.length = pr.states.length + (cs.length - 1) := by
        rw [addStates_length]
      have hok0 : (addStates (cs.length - 1) pr).Ok := addStates_ok _ h
      have hr0 : Rows ft (addStates (cs.length - 1) pr) := hr.congr fun x k => by rw [addStates_rules]
      obtain ⟨p, hep, hg⟩ := Chunk.buildSeq_grown ft cs hc.2.2 hok0
        (s := s) (j := pr.states.length) (tail := tail) (by omega) (by omega) ht1 (by omega)
      have hgl := hg.len
      rw [hep, Option.bind_some] at he
      have hrp := Chunk.buildSeq_rows hft cs hc.2.2 hne hok0 hr0
        (s := s) (j := pr.states.length) (tail := tail) (by omega) (by omega) ht1 (by omega) hep
      exact closeSeq_rows hft cs hg.ok hrp (s := s)
        (j := pr.states.length) (tail := tail) (by omega) (by omega) (by omega) ht1
        (by omega) he
termination_by sizeOf c

theorem Chunk.buildAll_rows (hft : ∀ i, ∀ k ∈ ft i, 0 ≤ k) (cs : List Chunk) (hc : WFs cs) (hne : NoEois cs) {pr pr' : PR} (h : pr.Ok)
    (hr : Rows ft pr) {s : Nat} {t : Int} (hs : s < pr.states.length) (h1 : finalState ≤ t) (h2 : t < pr.states.length)
    (he : Chunk.buildAll ft cs pr s t = some pr') : Rows ft pr' := by
  cases cs with
  | nil => rw [Chunk.buildAll] at he; cases he; exact hr
  | cons c cs =>
    rw [WFs] at hc
    rw [NoEois] at hne
    obtain ⟨p, hep, hg⟩ := Chunk.build_grown ft c hc.1 h hs h1 h2
    have hgl := hg.len
    rw [Chunk.buildAll, hep, Option.bind_some] at he
    exact Chunk.buildAll_rows hft cs hc.2 hne.2 hg.ok (Chunk.build_rows hft c hc.1 hne.1 h hr hs h1 h2 hep) (s := s) (t := t) (by omega) h1
      (by omega) he
termination_by sizeOf cs

theorem Chunk.buildSeq_rows (hft : ∀ i, ∀ k ∈ ft i, 0 ≤ k) (cs : List Chunk) (hc : WFs cs) (hne : NoEois cs) {pr pr' : PR} (h : pr.Ok)
    (hr : Rows ft pr) {s j : Nat} {tail : Int} (hs : s < pr.states.length) (hj : j + (cs.length - 1) ≤ pr.states.length)
    (h1 : finalState ≤ tail) (h2 : tail < pr.states.length) (he : Chunk.buildSeq ft cs pr s j tail = some pr') : Rows ft pr' := by
  cases cs with
  | nil => rw [Chunk.buildSeq] at he; cases he; exact hr
  | cons c cs =>
    rw [WFs] at hc
    rw [NoEois] at hne
    have hx1 : finalState ≤ (if cs.isEmpty then tail else (j : Int)) := by
      split
      · exact h1
      · unfold finalState; omega
    have hx2 : (if cs.isEmpty then tail else (j : Int)) < pr.states.length := by
      cases cs with
      | nil => simpa using h2
      | cons d ds => simp at hj ⊢; omega
    obtain ⟨p, hep, hg⟩ := Chunk.build_grown ft c hc.1 h hs hx1 hx2
    have hgl := hg.len
    rw [Chunk.buildSeq, hep, Option.bind_some] at he
    have hrp := Chunk.build_rows hft c hc.1 hne.1 h hr hs hx1 hx2 hep
    cases cs with
    | nil => rw [Chunk.buildSeq] at he; cases he; exact hrp
    | cons d ds =>
      have hj' : j + (ds.length + 1) ≤ pr.states.length := by simpa using hj
      exact Chunk.buildSeq_rows hft (d :: ds) hc.2 hne.2 hg.ok hrp (s := j) (j := j + 1)
        (tail := tail) (by omega) (by simp; omega) h1 (by omega) he
termination_by sizeOf cs

end

theorem buildNodes_rows (hft : ∀ i, ∀ k ∈ ft i, 0 ≤ k) (cs : List Chunk) (hc : ∀ c ∈ cs, WF c ∧ NoEoi c) {pr pr' : PR} (h : pr.Ok)
    (hr : Rows ft pr) {fs : List Nat} (he : buildNodes ft cs pr = some (pr', fs)) : Rows ft pr' := by
  induction cs generalizing pr fs with
  | nil => rw [buildNodes] at he; cases he; exact hr
  | cons c cs ih =>
    have hl := addState_length pr
    obtain ⟨q, heq, hg⟩ := Chunk.build_grown ft c (hc c (by simp)).1 (addState_ok h) (s := pr.states.length)
      (t := finalState) (by omega) (le_refl _) (by unfold finalState; omega)
    rw [buildNodes, heq, Option.bind_some, Option.map_eq_some_iff] at he
    obtain ⟨⟨p', fs'⟩, he, h3⟩ := he
    cases h3
    refine ih (fun c hc' => hc c (by simp [hc'])) hg.ok ?_ he
    exact Chunk.build_rows hft c (hc c (by simp)).1 (hc c (by simp)).2 (addState_ok h)
      (hr.congr fun x k => by rw [addState_rules]) (by omega) (le_refl _) (by unfold finalState; omega) heq

end Verif.Model
