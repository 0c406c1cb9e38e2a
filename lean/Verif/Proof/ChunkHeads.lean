/-
The rules of the first state of an expression are for symbols that can start it.
-/
import Verif.Proof.ChunkNodes
import Verif.Proof.First

namespace Verif.Model

open Verif.Spec Verif.Spec.Ebnf PR
open scoped Computability

/-- A rule consumes nothing or a symbol that starts a word. -/
def RuleHead (L : Language Sym) (r : Rule) : Prop :=
  Rule.reads r = none ∨ ∃ x w, (x :: w) ∈ L ∧ Rule.reads r = some x

theorem RuleHead.mono {L L' : Language Sym} {r : Rule} (h : RuleHead L r)
    (hl : ∀ x w, (x :: w) ∈ L → ∃ w', (x :: w') ∈ L') : RuleHead L' r := by
  rcases h with h | ⟨x, w, hw, hx⟩
  · exact Or.inl h
  · obtain ⟨w', hw'⟩ := hl x w hw
    exact Or.inr ⟨x, w', hw', hx⟩

theorem addRules_mem {s : Nat} (st nd : Int) (ks : List Int) {pr : PR} (h : pr.Ok)
    (hs : s < pr.states.length) (h1 : finalState ≤ st) (h2 : st < pr.states.length)
    {pr' : PR} (he : addRules s st nd ks pr = some pr') {k : Int} {r : Rule} (hr : r ∈ pr'.rules s k) :
    r ∈ pr.rules s k ∨ (k ∈ ks ∧ r = ⟨k, st, nd⟩) := by
  induction ks generalizing pr with
  | nil => rw [addRules] at he; cases he; exact Or.inl hr
  | cons x ks ih =>
    obtain ⟨p, hep, hg, hl, hrr⟩ := addRule_grown h hs st nd x h1 h2
    rw [addRules, hep, Option.bind_some] at he
    rcases ih hg.ok (by omega) (by omega) he with hm | ⟨hk, he'⟩
    · rw [hrr] at hm
      split at hm
      · next hc =>
        obtain ⟨_, rfl⟩ := hc
        rw [List.mem_append] at hm
        rcases hm with hm | hm
        · split at hm
          · exact Or.inl hm
          · simp at hm
        · exact Or.inr ⟨by simp, by simpa using hm⟩
      · exact Or.inl hm
    · exact Or.inr ⟨by simp [hk], he'⟩

/-- The rules of states of a sequence before closing it; `old` are the rules that were in its first state. -/
def SeqHeads (p : PR) : List Chunk → (Int → Rule → Prop) → Nat → Nat → Prop
  | [], _, _, _ => True
  | c :: cs, old, s, j =>
    (∀ k r, r ∈ p.rules s k → old k r ∨ RuleHead (lang c) r) ∧ SeqHeads p cs (fun _ _ => False) j (j + 1)

theorem SeqHeads.congr {p q : PR} (cs : List Chunk) {old : Int → Rule → Prop} {s j : Nat}
    (h : SeqHeads p cs old s j) (he : ∀ x k, SeqStates cs s j x → q.rules x k = p.rules x k) :
    SeqHeads q cs old s j := by
  induction cs generalizing old s j with
  | nil => exact trivial
  | cons c cs ih =>
    refine ⟨fun k r hr => h.1 k r (by rw [← he s k (Or.inl rfl)]; exact hr), ?_⟩
    cases cs with
    | nil => exact trivial
    | cons d ds =>
      refine ih h.2 (fun x k hx => he x k ?_)
      unfold SeqStates at *
      simp only [List.length_cons] at *
      omega

theorem closeSeq_heads (cs : List Chunk) (hwf : WFs cs) {old : Int → Rule → Prop} {p : PR} (h : p.Ok)
    {s j : Nat} {tail : Int} (hs : s < p.states.length) (hsj : s < j) (hj : j + (cs.length - 1) ≤ p.states.length)
    (h1 : finalState ≤ tail) (h2 : tail < p.states.length)
    (hh : SeqHeads p cs old s j) {q : PR} (he : closeSeq cs p s j tail = some q) {k : Int} {r : Rule}
    (hne : cs ≠ []) (hr : r ∈ q.rules s k) : old k r ∨ RuleHead (langSeq cs) r := by
  induction cs generalizing old s j q k r with
  | nil => exact absurd rfl hne
  | cons c cs ih =>
    rw [WFs] at hwf
    obtain ⟨v, hv⟩ := langSeq_nonempty cs hwf.2
    have hc1 : ∀ r, RuleHead (lang c) r → RuleHead (langSeq (c :: cs)) r := by
      intro r hr
      refine hr.mono (fun x w hw => ⟨w ++ v, ?_⟩)
      rw [langSeq, ← List.cons_append]
      exact Language.append_mem_mul hw hv
    cases cs with
    | nil =>
      rw [closeSeq, closeSeq, Option.bind_some] at he
      simp only [List.isEmpty_nil, if_true] at he
      by_cases ho : c.isOptional = true
      · rw [if_pos ho] at he
        obtain ⟨p', hep, _, _, hrr⟩ := addRule_grown h hs tail sameNode anyToken h1 h2
        rw [bypass, hep] at he
        cases he
        rw [hrr] at hr
        split at hr
        · next hc =>
          have : r = ⟨anyToken, tail, sameNode⟩ := by
            simpa [anyToken] using hr
          subst this
          exact Or.inr (Or.inl (by simp [Rule.reads, anyToken]))
        · exact (hh.1 k r hr).imp id (hc1 r)
      · rw [if_neg ho] at he
        cases he
        exact (hh.1 k r hr).imp id (hc1 r)
    | cons d ds =>
      have hj' : j + (ds.length + 1) ≤ p.states.length := by simpa using hj
      obtain ⟨p1, hep, hg, hl⟩ := closeSeq_grown (d :: ds) h (s := j) (j := j + 1) (by omega) (by omega)
        (by simp; omega) h1 h2
      have hIH : ∀ k r, r ∈ p1.rules j k → RuleHead (langSeq (d :: ds)) r := fun k r hr =>
        ((ih hwf.2 (s := j) (j := j + 1) (by omega) (by omega) (by simp; omega) hh.2 hep (by simp) hr)).elim
          (fun hf => hf.elim) id
      rw [closeSeq, hep, Option.bind_some] at he
      simp only [List.isEmpty_cons, Bool.false_eq_true, if_false] at he
      have hs1 : ∀ k, p1.rules s k = p.rules s k := fun k => hg.other s k (by unfold SeqStates; omega)
      by_cases ho : c.isOptional = true
      · rw [if_pos ho] at he
        have hnil : [] ∈ lang c := by rw [← nullable_iff, ← nullable_eq c hwf.1]; exact ho
        have hc2 : ∀ r, RuleHead (langSeq (d :: ds)) r → RuleHead (langSeq (c :: d :: ds)) r := by
          intro r hr
          refine hr.mono (fun x w hw => ⟨w, ?_⟩)
          rw [langSeq.eq_2 c]
          simpa using Language.append_mem_mul hnil hw
        obtain ⟨q', heq, _, _, hrr⟩ := copyRules_grown hg.ok (d := s) (s := j) (by omega) (by omega)
        rw [heq] at he
        cases he
        rw [hrr, if_pos rfl] at hr
        have hm : r ∈ p1.rules s k ∨ r ∈ p1.rules j k := by
          split at hr
          · exact List.mem_append.mp hr
          · split at hr
            · exact Or.inl hr
            · exact Or.inr hr
        rcases hm with hm | hm
        · rw [hs1] at hm
          exact (hh.1 k r hm).imp id (hc1 r)
        · exact Or.inr (hc2 r (hIH k r hm))
      · rw [if_neg ho] at he
        cases he
        rw [hs1] at hr
        exact (hh.1 k r hr).imp id (hc1 r)

mutual

theorem Chunk.build_heads (ft : Nat → Finset Int) (c : Chunk) (hc : WF c)
    {pr : PR} (h : pr.Ok) {s : Nat} {t : Int}
    (hs : s < pr.states.length) (h1 : finalState ≤ t) (h2 : t < pr.states.length)
    {pr' : PR} (he : c.build ft pr s t = some pr') {k : Int} {r : Rule} (hr : r ∈ pr'.rules s k) :
    r ∈ pr.rules s k ∨ RuleHead (lang c) r := by
  cases c with
  | token x =>
    rw [Chunk.build] at he
    rcases addRules_mem t sameNode _ h hs h1 h2 he hr with hm | ⟨hk, rfl⟩
    · exact Or.inl hm
    · rw [List.mem_singleton] at hk
      subst hk
      refine Or.inr (Or.inr ⟨.tok x, [], by rw [lang]; rfl, ?_⟩)
      have hneg : (x : Int) ≠ -1 := by omega
      simp [Rule.reads, anyToken, hneg]
  | eoi =>
    rw [Chunk.build] at he
    rcases addRules_mem finalState sameNode _ h hs (le_refl _) (by unfold finalState; omega) he hr with hm | ⟨hk, rfl⟩
    · exact Or.inl hm
    · rw [List.mem_singleton] at hk
      subst hk
      exact Or.inr (Or.inr ⟨.eoi, [], by rw [lang]; rfl, by simp [Rule.reads, anyToken, eoiTokenType]⟩)
  | node i =>
    rw [Chunk.build] at he
    rcases addRules_mem t i _ h hs h1 h2 he hr with hm | ⟨hk, rfl⟩
    · exact Or.inl hm
    · have hneg : (i : Int) ≠ -1 := by omega
      exact Or.inr (Or.inr ⟨.node i, [], by rw [lang]; rfl, by simp [Rule.reads, sameNode, hneg]⟩)
  | variant cs =>
    rw [Chunk.build] at he
    rw [WF] at hc
    rw [lang]
    exact Chunk.buildAll_heads ft cs hc.2 h hs h1 h2 he hr
  | group cs opt rep =>
    rw [WF] at hc
    rw [Chunk.build] at he
    have hcl : 0 < cs.length := List.length_pos_of_ne_nil hc.1
    have ht1 : finalState ≤ (if rep then (s : Int) else t) := by
      split
      · unfold finalState; omega
      · exact h1
    have ht2 : (if rep then (s : Int) else t) < pr.states.length := by
      split <;> omega
    have hup : ∀ r, RuleHead (langSeq cs) r → RuleHead (lang (.group cs opt rep)) r := by
      intro r hr
      refine hr.mono (fun x w hw => ⟨w, ?_⟩)
      rw [lang]
      cases rep with
      | true => exact Language.mem_kstar.mpr ⟨[x :: w], by simp, by simpa using hw⟩
      | false =>
        cases opt with
        | true => exact (Language.mem_add ..).mpr (Or.inr hw)
        | false => exact hw
    simp only at he
    by_cases hrr : rep = true ∧ cs.length > 1
    · rw [if_pos hrr] at he
      obtain ⟨hrep, hlen⟩ := hrr
      subst hrep
      simp only [if_true] at he ht1 ht2
      have h0 : (addStates (cs.length - 1) pr.addState).states.length = pr.states.length + cs.length := by
        rw [addStates_length, addState_length]; omega
      have hok0 := addStates_ok (cs.length - 1) (addState_ok h)
      have hrl0 : ∀ x k, (addStates (cs.length - 1) pr.addState).rules x k = pr.rules x k := fun x k => by
        rw [addStates_rules, addState_rules]
      generalize addStates (cs.length - 1) pr.addState = p0 at he h0 hok0 hrl0
      obtain ⟨p, hep, hg⟩ := Chunk.buildSeq_grown ft cs hc.2.2 hok0 (s := pr.states.length)
        (j := pr.states.length + 1) (tail := (s : Int)) (by omega) (by omega) ht1 (by omega)
      have hgl := hg.len
      have hheads := Chunk.buildSeq_heads ft cs hc.2.2 (fun _ _ => False) hok0 (s := pr.states.length)
        (j := pr.states.length + 1) (tail := (s : Int)) (by omega) (by omega) (by omega) ht1 (by omega)
        (fun k r hr => by rw [hrl0, rules_of_ge (le_refl _)] at hr; simp at hr)
        (fun x k hx _ => by rw [hrl0, rules_of_ge (by omega)]) hep
      rw [hep, Option.bind_some] at he
      obtain ⟨q, heq, hgq, hlq⟩ := closeSeq_grown cs hg.ok (s := pr.states.length)
        (j := pr.states.length + 1) (tail := (s : Int)) (by omega) (by omega) (by omega) ht1 (by omega)
      rw [heq, Option.bind_some] at he
      obtain ⟨z, hez, hgz, hlz, hrz⟩ := copyRules_grown hgq.ok (d := s) (s := pr.states.length)
        (by omega) (by omega)
      rw [hez] at he
      cases he
      rw [hrz, if_pos rfl] at hr
      have hm : r ∈ q.rules s k ∨ r ∈ q.rules pr.states.length k := by
        split at hr
        · exact List.mem_append.mp hr
        · split at hr
          · exact Or.inl hr
          · exact Or.inr hr
      rcases hm with hm | hm
      · rw [hgq.other s k (by unfold SeqStates; omega), hg.other s k (by unfold SeqStates; omega), hrl0] at hm
        exact Or.inl hm
      · rcases closeSeq_heads cs hc.2.2 hg.ok (by omega) (by omega) (by omega) ht1 (by omega) hheads heq hc.1 hm with
          hf | hf
        · exact hf.elim
        · exact Or.inr (hup r hf)
    · rw [if_neg hrr] at he
      have hnem : cs.isEmpty = false := by
        cases cs with
        | nil => simp at hcl
        | cons => rfl
      rw [hnem] at he
      simp only [Bool.false_eq_true, if_false] at he
      have h0 : (addStates (cs.length - 1) pr).states.length = pr.states.length + (cs.length - 1) := by
        rw [addStates_length]
      have hok0 := addStates_ok (cs.length - 1) h
      have hrl0 : ∀ x k, (addStates (cs.length - 1) pr).rules x k = pr.rules x k := fun x k => by
        rw [addStates_rules]
      generalize addStates (cs.length - 1) pr = p0 at he h0 hok0 hrl0
      generalize (if rep then (s : Int) else t) = tail at *
      obtain ⟨p, hep, hg⟩ := Chunk.buildSeq_grown ft cs hc.2.2 hok0 (s := s)
        (j := pr.states.length) (tail := tail) (by omega) (by omega) ht1 (by omega)
      have hgl := hg.len
      have hheads := Chunk.buildSeq_heads ft cs hc.2.2 (fun k r => r ∈ pr.rules s k) hok0 (s := s)
        (j := pr.states.length) (tail := tail) (by omega) (by omega) (by omega) ht1 (by omega)
        (fun k r hr => by rw [hrl0] at hr; exact hr)
        (fun x k hx _ => by rw [hrl0, rules_of_ge (by omega)]) hep
      rw [hep, Option.bind_some] at he
      rcases closeSeq_heads cs hc.2.2 hg.ok (by omega) (by omega) (by omega) ht1 (by omega) hheads he hc.1 hr with
        hf | hf
      · exact Or.inl hf
      · exact Or.inr (hup r hf)
termination_by sizeOf c

theorem Chunk.buildAll_heads (ft : Nat → Finset Int) (cs : List Chunk)
    (hc : WFs cs) {pr : PR} (h : pr.Ok) {s : Nat} {t : Int}
    (hs : s < pr.states.length) (h1 : finalState ≤ t) (h2 : t < pr.states.length)
    {pr' : PR} (he : Chunk.buildAll ft cs pr s t = some pr') {k : Int} {r : Rule} (hr : r ∈ pr'.rules s k) :
    r ∈ pr.rules s k ∨ RuleHead (langAny cs) r := by
  cases cs with
  | nil => rw [Chunk.buildAll] at he; cases he; exact Or.inl hr
  | cons c cs =>
    rw [WFs] at hc
    obtain ⟨p, hep, hg⟩ := Chunk.build_grown ft c hc.1 h hs h1 h2
    have hgl := hg.len
    rw [Chunk.buildAll, hep, Option.bind_some] at he
    rw [langAny]
    rcases Chunk.buildAll_heads ft cs hc.2 hg.ok (s := s) (t := t) (by omega) h1 (by omega) he hr with hm | hm
    · refine (Chunk.build_heads ft c hc.1 h hs h1 h2 hep hm).imp id (fun hh => ?_)
      exact hh.mono (fun x w hw => ⟨w, (Language.mem_add ..).mpr (Or.inl hw)⟩)
    · exact Or.inr (hm.mono (fun x w hw => ⟨w, (Language.mem_add ..).mpr (Or.inr hw)⟩))
termination_by sizeOf cs

theorem Chunk.buildSeq_heads (ft : Nat → Finset Int) (cs : List Chunk)
    (hc : WFs cs) (old : Int → Rule → Prop) {pr : PR} (h : pr.Ok)
    {s j : Nat} {tail : Int} (hs : s < pr.states.length) (hsj : s < j)
    (hj : j + (cs.length - 1) ≤ pr.states.length)
    (h1 : finalState ≤ tail) (h2 : tail < pr.states.length)
    (ho : ∀ k r, r ∈ pr.rules s k → old k r) (hfr : ∀ x k, j ≤ x → x + 1 < j + cs.length → pr.rules x k = [])
    {pr' : PR} (he : Chunk.buildSeq ft cs pr s j tail = some pr') : SeqHeads pr' cs old s j := by
  cases cs with
  | nil => exact trivial
  | cons c cs =>
    rw [WFs] at hc
    have hx1 : finalState ≤ (if cs.isEmpty then tail else (j : Int)) := by
      split
      · exact h1
      · unfold finalState; omega
    have hx2 : (if cs.isEmpty then tail else (j : Int)) < pr.states.length := by
      cases cs with
      | nil => simpa using h2
      | cons d ds => simp at hj ⊢; omega
    obtain ⟨p, hep, hg⟩ := Chunk.build_grown ft c hc.1 h hs hx1 hx2
    have hgl := hg.len
    have hheads := fun k r => Chunk.build_heads ft c hc.1 h hs hx1 hx2 hep (k := k) (r := r)
    rw [Chunk.buildSeq, hep, Option.bind_some] at he
    cases cs with
    | nil =>
      rw [Chunk.buildSeq] at he
      cases he
      exact ⟨fun k r hr => (hheads k r hr).imp (ho k r) id, trivial⟩
    | cons d ds =>
      have hj' : j + (ds.length + 1) ≤ pr.states.length := by simpa using hj
      obtain ⟨q, heq, hgq⟩ := Chunk.buildSeq_grown ft (d :: ds) hc.2 hg.ok (s := j) (j := j + 1)
        (tail := tail) (by omega) (by simp; omega) h1 (by omega)
      have hq := Chunk.buildSeq_heads ft (d :: ds) hc.2 (fun _ _ => False) hg.ok (s := j) (j := j + 1)
        (tail := tail) (by omega) (by omega) (by simp; omega) h1 (by omega)
        (fun k r hr => by
          rw [hg.other j k (by omega), hfr j k (le_refl _) (by simp)] at hr
          simp at hr)
        (fun x k hx hx' => by
          simp only [List.length_cons] at hx'
          rw [hg.other x k (by omega), hfr x k (by omega) (by simp only [List.length_cons]; omega)])
        he
      rw [heq] at he
      cases he
      refine ⟨fun k r hr => ?_, hq⟩
      rw [hgq.other s k (by unfold SeqStates; simp only [List.length_cons]; omega)] at hr
      exact (hheads k r hr).imp (ho k r) id
termination_by sizeOf cs

end

end Verif.Model
