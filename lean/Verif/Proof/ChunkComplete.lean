/-
Every word described by an expression is accepted by the machine built from it.
-/
import Verif.Proof.ChunkSound

namespace Verif.Model

open Verif.Spec Verif.Spec.Ebnf PR
open scoped Computability

/-- A word is accepted starting with a rule for a token. -/
def Follows (m : Table) (s : Nat) (w : List Sym) : Prop :=
  ∃ k r x w', 0 ≤ k ∧ r ∈ m s k ∧ Rule.reads r = some x ∧ Accepts m r.state w' ∧ w = x :: w'

theorem Follows.accepts {m : Table} {s : Nat} {w : List Sym} (h : Follows m s w) : Accepts m s w := by
  obtain ⟨k, r, x, w', _, hm, hr, ha, rfl⟩ := h
  exact Accepts.read hm hr ha

theorem Follows.copy {m : Table} {s s' : Nat} {w : List Sym} (h : Follows m s w)
    (hc : ∀ k r, 0 ≤ k → r ∈ m s k → r ∈ m s' k) : Follows m s' w := by
  obtain ⟨k, r, x, w', hk, hm, hr, ha, rfl⟩ := h
  exact ⟨k, r, x, w', hk, hc k r hk hm, hr, ha, rfl⟩

/-- Words up to a length are accepted. -/
def Upto (m : Table) (t : Int) (K : Language Sym) (N : Nat) : Prop := ∀ u ∈ K, u.length < N → Accepts m t u

theorem Upto.mono {m : Table} {t : Int} {K : Language Sym} {M N : Nat} (h : Upto m t K N) (hM : M ≤ N) :
    Upto m t K M := fun u hu hl => h u hu (by omega)

/-- The nonempty words of `L` followed by words of `K` are accepted from `s`, provided that `K` is accepted from `t`,
and, if `o`, from `s`. -/
def Leads (m : Table) (L : Language Sym) (o : Bool) (s : Nat) (t : Int) : Prop :=
  ∀ N K, Upto m t K N → (o = true → Upto m s K N) →
    ∀ w ∈ L, w ≠ [] → ∀ u ∈ K, (w ++ u).length ≤ N → Follows m s (w ++ u)

/-- `Leads` for all items of a sequence. -/
def LeadsSeq (m : Table) : List Chunk → Nat → Nat → Int → Prop
  | [], _, _, _ => True
  | c :: cs, s, j, tail =>
    Leads m (lang c) c.isOptional s (if cs.isEmpty then tail else (j : Int)) ∧ LeadsSeq m cs j (j + 1) tail

/-- Rules copied from next items and bypass rules. -/
def Linked (m : Table) : List Chunk → Nat → Nat → Int → Prop
  | [], _, _, _ => True
  | c :: cs, s, j, tail =>
    (c.isOptional = true → cs ≠ [] → ∀ k r, 0 ≤ k → r ∈ m j k → r ∈ m s k) ∧
    (cs ≠ [] → Chunk.allOptional cs = true → ∃ r, r ∈ m j anyToken ∧ Rule.reads r = none ∧ r.state = tail) ∧
    Linked m cs j (j + 1) tail

theorem optional_of_nil {c : Chunk} (h : WF c) (hn : [] ∈ lang c) : c.isOptional = true := by
  rw [nullable_eq c h, nullable_iff]; exact hn

theorem allOptional_of_nil {cs : List Chunk} (h : WFs cs) (hn : [] ∈ langSeq cs) : Chunk.allOptional cs = true := by
  rw [nullableSeq_eq cs h, nullableSeq_iff]; exact hn

theorem seq_leads {m : Table} (cs : List Chunk) (hwf : WFs cs) {s j : Nat} {tail : Int}
    (hl : LeadsSeq m cs s j tail) (hk : Linked m cs s j tail) :
    Leads m (langSeq cs) (Chunk.allOptional cs) s tail := by
  induction cs generalizing s j with
  | nil =>
    intro N K _ _ w hw hne
    rw [langSeq] at hw
    exact absurd ((Language.mem_one w).mp hw) hne
  | cons c cs ih =>
    rw [WFs] at hwf
    obtain ⟨hl1, hl2⟩ := hl
    obtain ⟨hk1, hk2, hk3⟩ := hk
    intro N K hT hO w hw hne u hu hlen
    have ih' := ih hwf.2 hl2 hk3 N K hT
    -- words accepted at the next state
    have hO' : cs ≠ [] → Chunk.allOptional cs = true → Upto m j K N := by
      intro hcs ho v hv hvl
      obtain ⟨r, hr, hrn, hrs⟩ := hk2 hcs ho
      exact Accepts.skip hr hrn (by rw [hrs]; exact hT v hv hvl)
    have hF : ∀ w' ∈ langSeq cs, w' ≠ [] → ∀ v ∈ K, (w' ++ v).length ≤ N → cs ≠ [] ∧ Follows m j (w' ++ v) := by
      intro w' hw' hne' v hv hvl
      have hcs : cs ≠ [] := by
        rintro rfl
        rw [langSeq] at hw'
        exact hne' ((Language.mem_one w').mp hw')
      exact ⟨hcs, ih' (hO' hcs) w' hw' hne' v hv hvl⟩
    have hNext : Upto m (if cs.isEmpty then tail else (j : Int)) (langSeq cs * K) N := by
      intro v hv hvl
      obtain ⟨w', hw', u', hu', rfl⟩ := Language.mem_mul.mp hv
      by_cases hcs : cs = []
      · subst hcs
        rw [langSeq] at hw'
        have : w' = [] := (Language.mem_one w').mp hw'
        subst this
        simpa using hT u' hu' (by simpa using hvl)
      · have he : cs.isEmpty = false := by simpa using hcs
        rw [he]
        simp only [Bool.false_eq_true, if_false]
        by_cases hw0 : w' = []
        · subst hw0
          simpa using hO' hcs (allOptional_of_nil hwf.2 hw') u' hu' (by simpa using hvl)
        · exact (hF w' hw' hw0 u' hu' (by omega)).2.accepts
    have hOwn : c.isOptional = true → Upto m s (langSeq cs * K) N := by
      intro ho v hv hvl
      obtain ⟨w', hw', u', hu', rfl⟩ := Language.mem_mul.mp hv
      by_cases hw0 : w' = []
      · subst hw0
        have : Chunk.allOptional (c :: cs) = true := by
          rw [Chunk.allOptional, ho, allOptional_of_nil hwf.2 hw']; rfl
        simpa using hO this u' hu' (by simpa using hvl)
      · obtain ⟨hcs, hf⟩ := hF w' hw' hw0 u' hu' (by omega)
        exact (hf.copy (hk1 ho hcs)).accepts
    rw [langSeq] at hw
    obtain ⟨w0, hw0, w', hw', rfl⟩ := Language.mem_mul.mp hw
    by_cases h0 : w0 = []
    · subst h0
      have ho := optional_of_nil hwf.1 hw0
      have hne' : w' ≠ [] := by simpa using hne
      obtain ⟨hcs, hf⟩ := hF w' hw' hne' u hu (by simpa using hlen)
      simpa using hf.copy (hk1 ho hcs)
    · rw [List.append_assoc]
      exact hl1 N _ hNext hOwn w0 hw0 h0 (w' ++ u) (Language.append_mem_mul hw' hu) (by simpa using hlen)

theorem kstar_split {L : Language Sym} {w : List Sym} (h : w ∈ L∗) (hne : w ≠ []) :
    ∃ v w', v ∈ L ∧ v ≠ [] ∧ w' ∈ L∗ ∧ w = v ++ w' := by
  rw [Language.mem_kstar_iff_exists_nonempty] at h
  obtain ⟨S, rfl, hS⟩ := h
  cases S with
  | nil => simp at hne
  | cons v S =>
    refine ⟨v, S.flatten, (hS v (by simp)).1, (hS v (by simp)).2, ?_, by simp⟩
    exact Language.mem_kstar.mpr ⟨S, rfl, fun y hy => (hS y (by simp [hy])).1⟩

/-- Repetition: the body leads back to `s`; `s'` is the state where the body starts, its rules are also in `s`. -/
theorem rep_leads {m : Table} {L : Language Sym} {o : Bool} {s s' : Nat} {t : Int}
    (h : Leads m L o s' s) (hc : ∀ k r, 0 ≤ k → r ∈ m s' k → r ∈ m s k)
    (hs' : o = true → ∀ w, Accepts m s w → Accepts m s' w) :
    Leads m L∗ true s t := by
  intro N K _ hO
  have key : ∀ n, n ≤ N → ∀ w ∈ L∗, w ≠ [] → ∀ u ∈ K, (w ++ u).length ≤ n → Follows m s (w ++ u) := by
    intro n
    induction n with
    | zero =>
      intro _ w _ hne u _ hl
      have : w ++ u = [] := List.eq_nil_of_length_eq_zero (by omega)
      simp [hne] at this
    | succ n ih =>
      intro hn w hw hne u hu hl
      have hT : Upto m s (L∗ * K) (n + 1) := by
        intro v hv hvl
        obtain ⟨w1, hw1, u1, hu1, rfl⟩ := Language.mem_mul.mp hv
        by_cases h0 : w1 = []
        · subst h0
          have := hO rfl u1 hu1 (by simp at hvl; omega)
          simpa using this
        · exact (ih (by omega) w1 hw1 h0 u1 hu1 (by omega)).accepts
      obtain ⟨v, w', hv, hvne, hw', rfl⟩ := kstar_split hw hne
      rw [List.append_assoc]
      have := h (n + 1) (L∗ * K) hT (fun ho v hv hvl => hs' ho v (hT v hv hvl)) v hv hvne (w' ++ u)
        (Language.append_mem_mul hw' hu) (by simpa using hl)
      exact this.copy hc
  intro w hw hne u hu hl
  exact key N (le_refl _) w hw hne u hu hl

/-- Bypass rule of an optional sequence. -/
theorem closeSeq_any (cs : List Chunk) (hne : cs ≠ []) (ho : Chunk.allOptional cs = true) {pr : PR} (h : pr.Ok)
    {s j : Nat} {tail : Int}
    (hs : s < pr.states.length) (hsj : s < j) (hj : j + (cs.length - 1) ≤ pr.states.length)
    (h1 : finalState ≤ tail) (h2 : tail < pr.states.length)
    {pr' : PR} (he : closeSeq cs pr s j tail = some pr') :
    pr'.rules s anyToken = [⟨anyToken, tail, sameNode⟩] := by
  induction cs generalizing s j pr pr' with
  | nil => simp at hne
  | cons c cs ih =>
    rw [Chunk.allOptional, Bool.and_eq_true] at ho
    cases cs with
    | nil =>
      simp only [closeSeq, Option.bind_some, List.isEmpty_nil, if_true, ho.1] at he
      obtain ⟨p, he', _, _, hr⟩ := addRule_grown h hs tail sameNode anyToken h1 h2
      rw [PR.bypass, he'] at he
      cases he
      rw [hr]
      simp [anyToken]
    | cons d ds =>
      have hj' : j + (ds.length + 1) ≤ pr.states.length := by simpa using hj
      obtain ⟨p, hep, hg, hl⟩ := closeSeq_grown (d :: ds) h (s := j) (j := j + 1) (by omega) (by omega)
        (by simp; omega) h1 h2
      have hIH := ih (by simp) ho.2 h (s := j) (j := j + 1) (by omega) (by omega) (by simp; omega) h2 hep
      rw [closeSeq, hep, Option.bind_some] at he
      simp only [List.isEmpty_cons, Bool.false_eq_true, if_false, ho.1, if_true] at he
      obtain ⟨q, heq, hgq, hlq, hr⟩ := copyRules_grown hg.ok (d := s) (s := j) (by omega) (by omega)
      rw [heq] at he
      cases he
      rw [hr, hIH]
      simp [anyToken]

/-- `closeSeq` makes the links. -/
theorem closeSeq_linked {m : Table} (cs : List Chunk) {pr : PR} (h : pr.Ok) {s j : Nat} {tail : Int}
    (hs : s < pr.states.length) (hsj : s < j) (hj : j + (cs.length - 1) ≤ pr.states.length)
    (h1 : finalState ≤ tail) (h2 : tail < pr.states.length)
    {pr' : PR} (he : closeSeq cs pr s j tail = some pr')
    (hms : ∀ k r, 0 ≤ k → r ∈ pr'.rules s k → r ∈ m s k)
    (hmi : ∀ x k, j ≤ x → x + 1 < j + cs.length → m x k = pr'.rules x k) :
    Linked m cs s j tail := by
  induction cs generalizing s j pr pr' with
  | nil => exact trivial
  | cons c cs ih =>
    cases cs with
    | nil => exact ⟨by simp, by simp, trivial⟩
    | cons d ds =>
      have hj' : j + (ds.length + 1) ≤ pr.states.length := by simpa using hj
      obtain ⟨p, hep, hg, hl⟩ := closeSeq_grown (d :: ds) h (s := j) (j := j + 1) (by omega) (by omega)
        (by simp; omega) h1 h2
      have hpq : ∃ q, closeSeq (c :: d :: ds) pr s j tail = some q ∧ Grown (· = s) p q ∧
          (c.isOptional = true → ∀ k r, 0 ≤ k → r ∈ p.rules j k → r ∈ q.rules s k) := by
        rw [closeSeq, hep, Option.bind_some]
        simp only [List.isEmpty_cons, Bool.false_eq_true, if_false]
        split
        · next ho =>
          obtain ⟨q, heq, hgq, hlq, hr⟩ := copyRules_grown hg.ok (d := s) (s := j) (by omega) (by omega)
          refine ⟨q, heq, hgq, fun _ k r hk hm => ?_⟩
          rw [hr, if_pos rfl, if_pos hk]
          exact List.mem_append_right _ hm
        · next ho => exact ⟨p, rfl, Grown.refl hg.ok, fun ho' => absurd ho' ho⟩
      obtain ⟨q, heq, hgq, hcp⟩ := hpq
      rw [heq] at he
      cases he
      have hother : ∀ x k, j ≤ x → pr'.rules x k = p.rules x k := fun x k hx => hgq.other x k (by omega)
      have hmp : ∀ x k, j ≤ x → x + 1 < j + (c :: d :: ds).length → m x k = p.rules x k := by
        intro x k hx hx'
        rw [hmi x k hx hx', hother x k hx]
      refine ⟨?_, ?_, ?_⟩
      · intro ho _ k r hk hm
        rw [hmp j k (le_refl _) (by simp)] at hm
        exact hms k r hk (hcp ho k r hk hm)
      · intro _ ho
        rw [hmp j _ (le_refl _) (by simp)]
        rw [closeSeq_any (d :: ds) (by simp) ho h (s := j) (j := j + 1) (by omega) (by omega) (by simp; omega)
          h1 h2 hep]
        exact ⟨_, List.mem_singleton_self _, by simp [Rule.reads, anyToken], rfl⟩
      · refine ih h (s := j) (j := j + 1) (by omega) (by omega) (by simp; omega) h2 hep ?_ ?_
        · intro k r _ hm
          rw [hmp j k (le_refl _) (by simp)]; exact hm
        · intro x k hx hx'
          exact hmp x k (by omega) (by simp at hx' ⊢; omega)

mutual

theorem Chunk.build_leads (ft : Nat → Finset Int) (hft : ∀ i, ∀ k ∈ ft i, 0 ≤ k) (c : Chunk) (hc : WF c)
    (hne : NoEoi c) (hrf : ∀ i ∈ refs c, (ft i).Nonempty) {m : Table} {pr : PR} (h : pr.Ok) {s : Nat} {t : Int}
    (hs : s < pr.states.length) (h1 : finalState ≤ t) (h2 : t < pr.states.length)
    {pr' : PR} (he : c.build ft pr s t = some pr')
    (hms : ∀ k r, 0 ≤ k → r ∈ pr'.rules s k → r ∈ m s k)
    (hmi : ∀ x k, pr.states.length ≤ x → x < pr'.states.length → m x k = pr'.rules x k) :
    Leads m (lang c) c.isOptional s t := by
  cases c with
  | token k =>
    rw [Chunk.build] at he
    obtain ⟨p, he', hg, hl, hr⟩ := addRules_grown t sameNode [(k : Int)] h hs h1 h2
    rw [he'] at he; cases he
    intro N K hT _ w hw _ u hu hlen
    rw [lang] at hw
    have := mem_single.mp hw
    subst this
    have hneg : (k : Int) ≠ -1 := by omega
    refine ⟨k, ⟨k, t, sameNode⟩, .tok k, u, by omega, hms _ _ (by omega) ?_, by simp [Rule.reads, anyToken, hneg],
      hT u hu (by simp at hlen; omega), rfl⟩
    rw [hr (by simp)]
    exact Or.inr ⟨rfl, by simp, rfl⟩
  | eoi => rw [NoEoi] at hne; exact hne.elim
  | node i =>
    rw [Chunk.build] at he
    obtain ⟨p, he', hg, hl, hr⟩ := addRules_grown t i (sorted (ft i)) h hs h1 h2
    rw [he'] at he; cases he
    intro N K hT _ w hw _ u hu hlen
    rw [lang] at hw
    have := mem_single.mp hw
    subst this
    have hneg : (i : Int) ≠ -1 := by omega
    obtain ⟨k, hk⟩ := hrf i (by rw [refs]; simp)
    have hk0 := hft i k hk
    refine ⟨k, ⟨k, t, i⟩, .node i, u, hk0, hms _ _ hk0 ?_, by simp [Rule.reads, sameNode, hneg],
      hT u hu (by simp at hlen; omega), rfl⟩
    rw [hr (fun k hk => hft i k (by simpa using hk))]
    exact Or.inr ⟨rfl, by simpa using hk, rfl⟩
  | variant cs =>
    rw [Chunk.build] at he
    rw [WF] at hc
    rw [NoEoi] at hne
    rw [refs] at hrf
    rw [lang, Chunk.isOptional]
    exact Chunk.buildAll_leads ft hft cs hc.2 hne hrf h hs h1 h2 he hms hmi
  | group cs opt rep =>
    rw [WF] at hc
    rw [NoEoi] at hne
    rw [refs] at hrf
    rw [Chunk.build] at he
    have hcl : 0 < cs.length := List.length_pos_of_ne_nil hc.1
    have ht1 : finalState ≤ (if rep then (s : Int) else t) := by
      split
      · unfold finalState; omega
      · exact h1
    have ht2 : (if rep then (s : Int) else t) < pr.states.length := by
      split <;> omega
    simp only at he
    by_cases hr : rep = true ∧ cs.length > 1
    · rw [if_pos hr] at he
      obtain ⟨hrep, hlen⟩ := hr
      subst hrep
      simp only [if_true] at he ht1 ht2
      have h0 : (addStates (cs.length - 1) pr.addState).states.length = pr.states.length + cs.length := by
        rw [addStates_length, addState_length]; omega
      have hok0 := addStates_ok (cs.length - 1) (addState_ok h)
      generalize addStates (cs.length - 1) pr.addState = p0 at he h0 hok0
      obtain ⟨p, hep, hg⟩ := Chunk.buildSeq_grown ft cs hc.2.2 hok0 (s := pr.states.length)
        (j := pr.states.length + 1) (tail := (s : Int)) (by omega) (by omega) ht1 (by omega)
      have hgl := hg.len
      rw [hep, Option.bind_some] at he
      obtain ⟨q, heq, hgq, hlq⟩ := closeSeq_grown cs hg.ok (s := pr.states.length)
        (j := pr.states.length + 1) (tail := (s : Int)) (by omega) (by omega) (by omega) ht1 (by omega)
      rw [heq, Option.bind_some] at he
      obtain ⟨r, her, hgr, hlr, hrr⟩ := copyRules_grown hgq.ok (d := s) (s := pr.states.length)
        (by omega) (by omega)
      rw [her] at he
      cases he
      have hmq : ∀ x k, pr.states.length ≤ x → x < q.states.length → m x k = q.rules x k := by
        intro x k hx hx'
        rw [hmi x k hx (by omega), hgr.other x k (by omega)]
      have hlinked : Linked m cs pr.states.length (pr.states.length + 1) s :=
        closeSeq_linked cs hg.ok (by omega) (by omega) (by omega) ht1 (by omega) heq
          (fun k r _ hm => by rw [hmq _ k (le_refl _) (by omega)]; exact hm)
          (fun x k hx hx' => hmq x k (by omega) (by omega))
      have hleads : LeadsSeq m cs pr.states.length (pr.states.length + 1) s := by
        refine Chunk.buildSeq_leads ft hft cs hc.2.2 hne hrf hok0 (by omega) (by omega) (by omega) ht1 (by omega) hep
          ?_ ?_
        · intro x k r hx hk hm
          have hx' : pr.states.length ≤ x ∧ x < q.states.length := by
            have := rules_lt hm
            unfold SeqStates at hx; omega
          rw [hmq x k hx'.1 hx'.2]
          exact (hgq.mono x k hk).subset hm
        · intro x k hx hx'
          rw [hmq x k (by omega) (by omega), hgq.other x k (by unfold SeqStates; omega)]
      have hseq := seq_leads cs hc.2.2 hleads hlinked
      have hgoal := rep_leads (t := t) hseq (s := s)
        (fun k x hk hm => by
          rw [hmq _ k (le_refl _) (by omega)] at hm
          refine hms k x hk ?_
          rw [hrr, if_pos rfl, if_pos hk]
          exact List.mem_append_right _ hm)
        (fun ho w hw => by
          have := closeSeq_any cs hc.1 ho hg.ok (s := pr.states.length)
            (j := pr.states.length + 1) (tail := (s : Int)) (by omega) (by omega) (by omega) ht1 (by omega) heq
          refine Accepts.skip (k := anyToken) (r := ⟨anyToken, s, sameNode⟩) ?_ (by simp [Rule.reads, anyToken]) hw
          rw [hmq _ _ (le_refl _) (by omega), this]
          exact List.mem_singleton_self _)
      rw [lang, Chunk.isOptional, hc.2.1 rfl]
      simpa using hgoal
    · rw [if_neg hr] at he
      have hnem : cs.isEmpty = false := by
        cases cs with
        | nil => simp at hcl
        | cons => rfl
      rw [hnem] at he
      simp only [Bool.false_eq_true, if_false] at he
      have h0 : (addStates (cs.length - 1) pr).states.length = pr.states.length + (cs.length - 1) := by
        rw [addStates_length]
      have hok0 := addStates_ok (cs.length - 1) h
      generalize addStates (cs.length - 1) pr = p0 at he h0 hok0
      generalize hteq : (if rep then (s : Int) else t) = tail at *
      obtain ⟨p, hep, hg⟩ := Chunk.buildSeq_grown ft cs hc.2.2 hok0 (s := s)
        (j := pr.states.length) (tail := tail) (by omega) (by omega) ht1 (by omega)
      have hgl := hg.len
      rw [hep, Option.bind_some] at he
      obtain ⟨q, heq, hgq, hlq⟩ := closeSeq_grown cs hg.ok (s := s)
        (j := pr.states.length) (tail := tail) (by omega) (by omega) (by omega) ht1 (by omega)
      rw [heq] at he
      cases he
      have hlinked : Linked m cs s pr.states.length tail :=
        closeSeq_linked cs hg.ok (by omega) (by omega) (by omega) ht1 (by omega) heq hms
          (fun x k hx hx' => hmi x k (by omega) (by omega))
      have hleads : LeadsSeq m cs s pr.states.length tail := by
        refine Chunk.buildSeq_leads ft hft cs hc.2.2 hne hrf hok0 (by omega) (by omega) (by omega) ht1 (by omega) hep
          ?_ ?_
        · intro x k r hx hk hm
          have hm' := (hgq.mono x k hk).subset hm
          rcases hx with rfl | hx
          · exact hms k r hk hm'
          · rw [hmi x k (by omega) (by omega)]; exact hm'
        · intro x k hx hx'
          rw [hmi x k (by omega) (by omega), hgq.other x k (by unfold SeqStates; omega)]
      have hseq := seq_leads cs hc.2.2 hleads hlinked
      rw [lang, Chunk.isOptional]
      cases rep with
      | true =>
        simp only [if_true] at hteq
        subst hteq
        have hgoal := rep_leads (t := t) hseq (s := s) (fun _ _ _ hm => hm) (fun _ _ hw => hw)
        rw [hc.2.1 rfl]
        simpa using hgoal
      | false =>
        simp only [Bool.false_eq_true, if_false] at hteq ⊢
        subst hteq
        intro N K hT hO w hw hwne u hu hlen
        refine hseq N K hT (fun ho => hO (by rw [ho]; simp)) w ?_ hwne u hu hlen
        cases opt with
        | false => simpa using hw
        | true =>
          simp only [if_true] at hw
          rcases (Language.mem_add ..).mp hw with hw | hw
          · exact absurd ((Language.mem_one w).mp hw) hwne
          · exact hw
termination_by sizeOf c

theorem Chunk.buildAll_leads (ft : Nat → Finset Int) (hft : ∀ i, ∀ k ∈ ft i, 0 ≤ k) (cs : List Chunk) (hc : WFs cs)
    (hne : NoEois cs) (hrf : ∀ i ∈ refsAll cs, (ft i).Nonempty) {m : Table} {pr : PR} (h : pr.Ok) {s : Nat} {t : Int}
    (hs : s < pr.states.length) (h1 : finalState ≤ t) (h2 : t < pr.states.length)
    {pr' : PR} (he : Chunk.buildAll ft cs pr s t = some pr')
    (hms : ∀ k r, 0 ≤ k → r ∈ pr'.rules s k → r ∈ m s k)
    (hmi : ∀ x k, pr.states.length ≤ x → x < pr'.states.length → m x k = pr'.rules x k) :
    Leads m (langAny cs) (Chunk.anyOptional cs) s t := by
  cases cs with
  | nil =>
    intro N K _ _ w hw
    rw [langAny] at hw
    exact absurd hw (Language.notMem_zero w)
  | cons c cs =>
    rw [WFs] at hc
    rw [NoEois] at hne
    rw [refsAll] at hrf
    obtain ⟨p, hep, hg⟩ := Chunk.build_grown ft c hc.1 h hs h1 h2
    have hgl := hg.len
    rw [Chunk.buildAll, hep, Option.bind_some] at he
    obtain ⟨q, heq, hgq⟩ := Chunk.buildAll_grown ft cs hc.2 hg.ok (s := s) (t := t) (by omega) h1 (by omega)
    have hql := hgq.len
    have hl2 := Chunk.buildAll_leads ft hft cs hc.2 hne.2 (fun i hi => hrf i (Finset.mem_union_right _ hi)) (m := m)
      hg.ok (s := s) (t := t) (by omega) h1 (by omega) he hms (fun x k hx hx' => hmi x k (by omega) hx')
    rw [heq] at he
    cases he
    have hl1 := Chunk.build_leads ft hft c hc.1 hne.1 (fun i hi => hrf i (Finset.mem_union_left _ hi)) (m := m)
      h hs h1 h2 hep (fun k r hk hm => hms k r hk ((hgq.mono s k hk).subset hm))
      (fun x k hx hx' => by rw [hmi x k hx (by omega), hgq.other x k (by omega)])
    intro N K hT hO w hw hwne u hu hlen
    rw [langAny] at hw
    rw [Chunk.anyOptional] at hO
    rcases (Language.mem_add ..).mp hw with hw | hw
    · exact hl1 N K hT (fun ho => hO (by simp [ho])) w hw hwne u hu hlen
    · exact hl2 N K hT (fun ho => hO (by simp [ho])) w hw hwne u hu hlen
termination_by sizeOf cs

theorem Chunk.buildSeq_leads (ft : Nat → Finset Int) (hft : ∀ i, ∀ k ∈ ft i, 0 ≤ k) (cs : List Chunk) (hc : WFs cs)
    (hne : NoEois cs) (hrf : ∀ i ∈ refsAll cs, (ft i).Nonempty) {m : Table} {pr : PR} (h : pr.Ok)
    {s j : Nat} {tail : Int} (hs : s < pr.states.length) (hsj : s < j)
    (hj : j + (cs.length - 1) ≤ pr.states.length)
    (h1 : finalState ≤ tail) (h2 : tail < pr.states.length)
    {pr' : PR} (he : Chunk.buildSeq ft cs pr s j tail = some pr')
    (hms : ∀ x k r, SeqStates cs s j x → 0 ≤ k → r ∈ pr'.rules x k → r ∈ m x k)
    (hmi : ∀ x k, pr.states.length ≤ x → x < pr'.states.length → m x k = pr'.rules x k) :
    LeadsSeq m cs s j tail := by
  cases cs with
  | nil => exact trivial
  | cons c cs =>
    rw [WFs] at hc
    rw [NoEois] at hne
    rw [refsAll] at hrf
    have hx1 : finalState ≤ (if cs.isEmpty then tail else (j : Int)) := by
      split
      · exact h1
      · unfold finalState; omega
    have hx2 : (if cs.isEmpty then tail else (j : Int)) < pr.states.length := by
      cases cs with
      | nil => simpa using h2
      | cons d ds => simp at hj ⊢; omega
    obtain ⟨p, hep, hg⟩ := Chunk.build_grown ft c hc.1 h hs hx1 hx2
    have hgl := hg.len
    rw [Chunk.buildSeq, hep, Option.bind_some] at he
    cases cs with
    | nil =>
      rw [Chunk.buildSeq] at he
      cases he
      refine ⟨?_, trivial⟩
      exact Chunk.build_leads ft hft c hc.1 hne.1 (fun i hi => hrf i (Finset.mem_union_left _ hi)) h hs hx1 hx2 hep
        (fun k r hk hm => hms s k r (Or.inl rfl) hk hm) hmi
    | cons d ds =>
      have hj' : j + (ds.length + 1) ≤ pr.states.length := by simpa using hj
      obtain ⟨q, heq, hgq⟩ := Chunk.buildSeq_grown ft (d :: ds) hc.2 hg.ok (s := j) (j := j + 1)
        (tail := tail) (by omega) (by simp; omega) h1 (by omega)
      have hql := hgq.len
      have hl2 := Chunk.buildSeq_leads ft hft (d :: ds) hc.2 hne.2 (fun i hi => hrf i (Finset.mem_union_right _ hi))
        (m := m) hg.ok (s := j) (j := j + 1) (tail := tail) (by omega) (by omega) (by simp; omega) h1 (by omega) he
        (fun x k r hx hk hm => hms x k r (by
          unfold SeqStates at *; simp only [List.length_cons] at *; omega) hk hm)
        (fun x k hx hx' => hmi x k (by omega) hx')
      rw [heq] at he
      cases he
      refine ⟨?_, hl2⟩
      exact Chunk.build_leads ft hft c hc.1 hne.1 (fun i hi => hrf i (Finset.mem_union_left _ hi)) h hs hx1 hx2 hep
        (fun k r hk hm => hms s k r (Or.inl rfl) hk ((hgq.mono s k hk).subset hm))
        (fun x k hx hx' => by
          rw [hmi x k hx (by omega), hgq.other x k (by unfold SeqStates; simp only [List.length_cons]; omega)])
termination_by sizeOf cs

end

end Verif.Model
