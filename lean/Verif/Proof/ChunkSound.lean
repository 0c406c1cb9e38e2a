/-
Words accepted by the machine built from an expression are described by the expression, if repeated groups do not share
their starting points with alternatives (`LoopOk`).
-/
import Verif.Proof.ChunkBuild

namespace Verif.Model

open Verif.Spec Verif.Spec.Ebnf PR
open scoped Computability

theorem mem_single {x : Sym} {w : List Sym} : w ∈ ({[x]} : Language Sym) ↔ w = [x] := Iff.rfl

mutual

theorem nullable_eq (c : Chunk) (h : WF c) : c.isOptional = nullable c := by
  cases c with
  | token => simp [Chunk.isOptional, nullable]
  | eoi => simp [Chunk.isOptional, nullable]
  | node => simp [Chunk.isOptional, nullable]
  | variant cs => rw [WF] at h; rw [Chunk.isOptional, nullable, nullableAny_eq cs h.2]
  | group cs opt rep =>
    rw [WF] at h
    rw [Chunk.isOptional, nullable, nullableSeq_eq cs h.2.2]
    cases rep
    · simp
    · simp [h.2.1 rfl]
termination_by sizeOf c

theorem nullableAny_eq (cs : List Chunk) (h : WFs cs) : Chunk.anyOptional cs = nullableAny cs := by
  cases cs with
  | nil => simp [Chunk.anyOptional, nullableAny]
  | cons c cs =>
    rw [WFs] at h
    rw [Chunk.anyOptional, nullableAny, nullable_eq c h.1, nullableAny_eq cs h.2]
termination_by sizeOf cs

theorem nullableSeq_eq (cs : List Chunk) (h : WFs cs) : Chunk.allOptional cs = nullableSeq cs := by
  cases cs with
  | nil => simp [Chunk.allOptional, nullableSeq]
  | cons c cs =>
    rw [WFs] at h
    rw [Chunk.allOptional, nullableSeq, nullable_eq c h.1, nullableSeq_eq cs h.2]
termination_by sizeOf cs

end

mutual

theorem nullable_iff (c : Chunk) : nullable c = true ↔ [] ∈ lang c := by
  cases c with
  | token t => rw [nullable, lang, mem_single]; simp
  | eoi => rw [nullable, lang, mem_single]; simp
  | node i => rw [nullable, lang, mem_single]; simp
  | variant cs => rw [nullable, lang, nullableAny_iff]
  | group cs opt rep =>
    rw [nullable, lang]
    have ih := nullableSeq_iff cs
    cases rep
    · cases opt
      · simpa using ih
      · simp only [Bool.false_or, Bool.true_or, true_iff, Bool.false_eq_true, if_false, if_true]
        exact (Language.mem_add ..).mpr (Or.inl Language.nil_mem_one)
    · simp [Language.nil_mem_kstar]
termination_by sizeOf c

theorem nullableAny_iff (cs : List Chunk) : nullableAny cs = true ↔ [] ∈ langAny cs := by
  cases cs with
  | nil => rw [nullableAny, langAny]; simp
  | cons c cs =>
    rw [nullableAny, langAny, Language.mem_add, Bool.or_eq_true, nullable_iff c, nullableAny_iff cs]
termination_by sizeOf cs

theorem nullableSeq_iff (cs : List Chunk) : nullableSeq cs = true ↔ [] ∈ langSeq cs := by
  cases cs with
  | nil => rw [nullableSeq, langSeq]; simp
  | cons c cs =>
    rw [nullableSeq, langSeq, Language.mem_mul, Bool.and_eq_true, nullable_iff c, nullableSeq_iff cs]
    constructor
    · rintro ⟨a, b⟩; exact ⟨[], a, [], b, rfl⟩
    · rintro ⟨u, a, v, b, e⟩
      obtain ⟨rfl, rfl⟩ := List.append_eq_nil_iff.mp e
      exact ⟨a, b⟩
termination_by sizeOf cs

end

theorem one_le_of_optional {c : Chunk} (h : WF c) (ho : c.isOptional = true) : 1 ≤ lang c := by
  intro w hw
  have : w = [] := (Language.mem_one w).mp hw
  subst this
  exact (nullable_iff c).mp (by rw [← nullable_eq c h]; exact ho)

/-- A rule agrees with the words assigned to states. -/
def RuleSound (D : Int → Language Sym) (j : Int) (r : Rule) : Prop :=
  ∀ w, w ∈ D r.state → (Rule.reads r).toList ++ w ∈ D j

/-- All rules of a state agree with the words assigned to states. -/
def SoundAt (pr : PR) (D : Int → Language Sym) (j : Nat) : Prop :=
  ∀ k r, r ∈ pr.rules j k → RuleSound D j r

theorem SoundAt.congr {p q : PR} {D D' : Int → Language Sym} {j : Nat} (h : SoundAt p D j) (hp : p.Ok)
    (hr : ∀ k, q.rules j k = p.rules j k) (hD : ∀ x : Int, x < p.states.length → D' x = D x) : SoundAt q D' j := by
  intro k r hm
  rw [hr] at hm
  intro w hw
  have h1 := hp.tgt j k r hm
  have h2 := rules_lt hm
  rw [hD _ h1.2] at hw
  rw [hD _ (by exact_mod_cast h2)]
  exact h k r hm w hw

theorem soundAt_of_ge {pr : PR} {D : Int → Language Sym} {j : Nat} (h : pr.states.length ≤ j) : SoundAt pr D j := by
  intro k r hm
  rw [rules_of_ge h] at hm
  simp at hm

/-- Copying rules from a state to a state with more words keeps agreement. -/
theorem copy_sound {p q : PR} {D : Int → Language Sym} {d s : Nat}
    (hr : ∀ j k, q.rules j k = if j = d then
          (if 0 ≤ k then p.rules d k ++ p.rules s k
            else if p.rules s k = [] then p.rules d k else p.rules s k)
        else p.rules j k)
    (hd : SoundAt p D d) (hs : SoundAt p D s) (hle : D s ≤ D d) : SoundAt q D d := by
  have hm : ∀ k r, r ∈ p.rules s k → RuleSound D d r := fun k r h w hw => hle (hs k r h w hw)
  intro k r h
  rw [hr, if_pos rfl] at h
  split at h
  · rcases List.mem_append.mp h with h | h
    · exact hd k r h
    · exact hm k r h
  · split at h
    · exact hd k r h
    · exact hm k r h

theorem closeSeq_sound (cs : List Chunk) (hwf : WFs cs) {pr : PR} (h : pr.Ok) {s j : Nat} {tail : Int}
    (hs : s < pr.states.length) (hsj : s < j) (hj : j + (cs.length - 1) ≤ pr.states.length)
    (h1 : finalState ≤ tail) (h2 : tail < pr.states.length) (D : Int → Language Sym)
    (hD : langSeq cs * D tail ≤ D s)
    (hst : ∀ i, i + 1 < cs.length → D ((j + i : Nat) : Int) = langSeq (cs.drop (i + 1)) * D tail)
    (hss : SoundAt pr D s) (hsi : ∀ i, i + 1 < cs.length → SoundAt pr D (j + i))
    {pr' : PR} (he : closeSeq cs pr s j tail = some pr') :
    SoundAt pr' D s ∧ ∀ i, i + 1 < cs.length → SoundAt pr' D (j + i) := by
  induction cs generalizing s j pr pr' with
  | nil => simp [closeSeq] at he; subst he; exact ⟨hss, hsi⟩
  | cons c cs ih =>
    rw [WFs] at hwf
    cases cs with
    | nil =>
      simp only [closeSeq, Option.bind_some, List.isEmpty_nil, if_true] at he
      split at he
      · next ho =>
        obtain ⟨p, he', _, _, hr⟩ := addRule_grown h hs tail sameNode anyToken h1 h2
        rw [PR.bypass, he'] at he
        cases he
        refine ⟨?_, by simp⟩
        intro k r hm
        rw [hr] at hm
        split at hm
        · simp [anyToken] at hm
          subst hm
          intro w hw
          refine hD ?_
          rw [langSeq, langSeq, mul_one]
          have : w ∈ 1 * D tail := by simpa using hw
          have hle : 1 * D tail ≤ lang c * D tail := mul_le_mul_left (one_le_of_optional hwf.1 ho) _
          simpa [Rule.reads, anyToken] using hle this
        · exact hss k r hm
      · cases he; exact ⟨hss, hsi⟩
    | cons d ds =>
      have hj' : j + (ds.length + 1) ≤ pr.states.length := by simpa using hj
      obtain ⟨p, hep, hg, hl⟩ := closeSeq_grown (d :: ds) h (s := j) (j := j + 1) (by omega) (by omega)
        (by simp; omega) h1 h2
      have hDj : D (j : Int) = langSeq (d :: ds) * D tail := by simpa using hst 0 (by simp)
      have hIH := ih hwf.2 h (s := j) (j := j + 1) (by omega) (by omega) (by simp; omega) h2
        (le_of_eq hDj.symm)
        (fun i hi => by
          have := hst (i + 1) (by simpa using hi)
          rw [show j + 1 + i = j + (i + 1) by omega, this]
          rfl)
        (by simpa using hsi 0 (by simp))
        (fun i hi => by
          have := hsi (i + 1) (by simpa using hi)
          rwa [show j + 1 + i = j + (i + 1) by omega]) hep
      have hps : SoundAt p D s := by
        intro k r hm
        rw [hg.other s k (by unfold SeqStates; omega)] at hm
        exact hss k r hm
      have hpi : ∀ i, i + 1 < (c :: d :: ds).length → SoundAt p D (j + i) := by
        intro i hi
        cases i with
        | zero => simpa using hIH.1
        | succ i =>
          have := hIH.2 i (by simpa using hi)
          rwa [show j + 1 + i = j + (i + 1) by omega] at this
      rw [closeSeq, hep, Option.bind_some] at he
      simp only [List.isEmpty_cons, Bool.false_eq_true, if_false] at he
      split at he
      · next ho =>
        obtain ⟨q, heq, hgq, hlq, hr⟩ := copyRules_grown hg.ok (d := s) (s := j) (by omega) (by omega)
        rw [heq] at he
        cases he
        have hle : D (j : Int) ≤ D s := by
          refine le_trans ?_ hD
          rw [hDj, langSeq.eq_2 c, mul_assoc]
          calc langSeq (d :: ds) * D tail = 1 * (langSeq (d :: ds) * D tail) := (one_mul _).symm
            _ ≤ lang c * (langSeq (d :: ds) * D tail) := mul_le_mul_left (one_le_of_optional hwf.1 ho) _
        refine ⟨copy_sound hr hps hIH.1 hle, ?_⟩
        intro i hi k r hm
        rw [hgq.other _ k (by omega)] at hm
        exact hpi i hi k r hm
      · cases he
        exact ⟨hps, hpi⟩

/-- Words assigned to the states of a sequence. -/
def seqD (D : Int → Language Sym) (cs : List Chunk) (j : Nat) (K : Language Sym) (x : Int) : Language Sym :=
  if (j : Int) ≤ x ∧ x + 1 < j + cs.length then langSeq (cs.drop ((x - j).toNat + 1)) * K else D x

mutual

theorem Chunk.build_sound (ft : Nat → Finset Int) (hft : ∀ i, ∀ k ∈ ft i, 0 ≤ k) (c : Chunk) (hc : WF c) (al : Bool)
    (hlo : LoopOk al c) {pr : PR} (h : pr.Ok) {s : Nat} {t : Int}
    (hs : s < pr.states.length) (h1 : finalState ≤ t) (h2 : t < pr.states.length) (D : Int → Language Sym)
    (hss : SoundAt pr D s) (hD : lang c * D t ≤ D s) (hal : al = true → D s ≤ lang c * D t)
    {pr' : PR} (he : c.build ft pr s t = some pr') :
    ∃ D' : Int → Language Sym, (∀ x : Int, x < pr.states.length → D' x = D x) ∧ SoundAt pr' D' s ∧
      ∀ j, pr.states.length ≤ j → SoundAt pr' D' j := by
  cases c with
  | token k =>
    rw [Chunk.build] at he
    obtain ⟨p, he', hg, hl, hr⟩ := addRules_grown t sameNode [(k : Int)] h hs h1 h2
    rw [he'] at he; cases he
    refine ⟨D, fun _ _ => rfl, ?_, fun j hj => soundAt_of_ge (by omega)⟩
    intro k' r hm
    rw [hr (by simp)] at hm
    rcases hm with hm | ⟨_, hk, rfl⟩
    · exact hss _ _ hm
    · intro w hw
      refine hD ?_
      rw [lang]
      refine Language.mem_mul.mpr ⟨[.tok k], mem_single.mpr rfl, w, hw, ?_⟩
      simp at hk
      subst hk
      have : (k : Int) ≠ -1 := by omega
      simp [Rule.reads, anyToken, this]
  | eoi => rw [LoopOk] at hlo; exact hlo.elim
  | node i =>
    rw [Chunk.build] at he
    obtain ⟨p, he', hg, hl, hr⟩ := addRules_grown t i (sorted (ft i)) h hs h1 h2
    rw [he'] at he; cases he
    refine ⟨D, fun _ _ => rfl, ?_, fun j hj => soundAt_of_ge (by omega)⟩
    intro k' r hm
    rw [hr (fun k hk => hft i k (by simpa using hk))] at hm
    rcases hm with hm | ⟨_, hk, rfl⟩
    · exact hss _ _ hm
    · intro w hw
      refine hD ?_
      rw [lang]
      refine Language.mem_mul.mpr ⟨[.node i], mem_single.mpr rfl, w, hw, ?_⟩
      have : (i : Int) ≠ -1 := by omega
      simp [Rule.reads, sameNode, this]
  | variant cs =>
    rw [Chunk.build] at he
    rw [WF] at hc
    rw [LoopOk] at hlo
    rw [lang] at hD
    exact Chunk.buildAll_sound ft hft cs hc.2 hlo h hs h1 h2 D hss hD he
  | group cs opt rep =>
    rw [WF] at hc
    rw [LoopOk] at hlo
    rw [Chunk.build] at he
    have hcl : 0 < cs.length := List.length_pos_of_ne_nil hc.1
    have ht1 : finalState ≤ (if rep then (s : Int) else t) := by
      split
      · unfold finalState; omega
      · exact h1
    have ht2 : (if rep then (s : Int) else t) < pr.states.length := by
      split <;> omega
    simp only at he
    by_cases hr : rep = true ∧ cs.length > 1
    · rw [if_pos hr] at he
      obtain ⟨hrep, hlen⟩ := hr
      subst hrep
      simp only [if_true] at he hlo ht1 ht2
      rw [lang] at hD hal
      simp only [if_true] at hD hal
      have hcloop : langSeq cs * D s ≤ D s := by
        refine le_trans (mul_le_mul_right (hal hlo.1) _) ?_
        rw [← mul_assoc]
        exact le_trans (mul_le_mul_left mul_kstar_le_kstar _) hD
      have h0 : (addStates (cs.length - 1) pr.addState).states.length = pr.states.length + cs.length := by
        rw [addStates_length, addState_length]; omega
      have hr0 : ∀ x k, (addStates (cs.length - 1) pr.addState).rules x k = pr.rules x k := by
        intro x k; rw [addStates_rules, addState_rules]
      have hok0 := addStates_ok (cs.length - 1) (addState_ok h)
      generalize addStates (cs.length - 1) pr.addState = p0 at he h0 hr0 hok0
      -- words of the new states
      let D1 : Int → Language Sym := fun x =>
        if x = pr.states.length then langSeq cs * D s else seqD D cs (pr.states.length + 1) (D s) x
      have hD1 : ∀ x : Int, x < pr.states.length → D1 x = D x := by
        intro x hx
        simp only [D1, seqD]
        rw [if_neg (by omega), if_neg (by push_cast; omega)]
      have hD1s : D1 (s : Int) = D s := hD1 s (by omega)
      have hD1f : D1 ((pr.states.length : Nat) : Int) = langSeq cs * D1 s := by
        rw [hD1s]; simp [D1]
      have hD1st : ∀ i, i + 1 < cs.length →
          D1 ((pr.states.length + 1 + i : Nat) : Int) = langSeq (cs.drop (i + 1)) * D1 s := by
        intro i hi
        rw [hD1s]
        simp only [D1, seqD]
        rw [if_neg (by push_cast; omega), if_pos (by push_cast; omega)]
        congr 3
        push_cast; omega
      have hemp : ∀ x : Nat, pr.states.length ≤ x → SoundAt p0 D1 x := by
        intro x hx k r hm
        rw [hr0, rules_of_ge hx] at hm
        simp at hm
      have hdec : decide (1 < cs.length) = true := by simpa using hlen
      rw [hdec] at hlo
      obtain ⟨p, hep, hg⟩ := Chunk.buildSeq_grown ft cs hc.2.2 hok0 (s := pr.states.length)
        (j := pr.states.length + 1) (tail := (s : Int)) (by omega) (by omega) ht1 (by omega)
      have hgl := hg.len
      obtain ⟨D2, hD2, hsf, hsi, hsn⟩ := Chunk.buildSeq_sound ft hft cs hc.2.2 true hlo.2 hok0 (s := pr.states.length)
        (j := pr.states.length + 1) (tail := (s : Int)) (by omega) (by omega) (by omega) ht1 (by omega) D1
        (le_of_eq hD1f.symm) (fun _ => le_of_eq hD1f) hD1st (hemp _ (le_refl _)) (fun i _ => hemp _ (by omega)) hep
      rw [hep, Option.bind_some] at he
      have hD2' : ∀ x : Int, x < pr.states.length → D2 x = D x := fun x hx => by
        rw [hD2 x (by omega), hD1 x hx]
      have hps : SoundAt p D2 s := by
        refine hss.congr h (fun k => ?_) hD2'
        rw [hg.other s k (by unfold SeqStates; omega), hr0]
      have hD2s : D2 (s : Int) = D1 s := hD2 s (by omega)
      obtain ⟨q, heq, hgq, hlq⟩ := closeSeq_grown cs hg.ok (s := pr.states.length)
        (j := pr.states.length + 1) (tail := (s : Int)) (by omega) (by omega) (by omega) ht1 (by omega)
      have hcs := closeSeq_sound cs hc.2.2 hg.ok (s := pr.states.length)
        (j := pr.states.length + 1) (tail := (s : Int)) (by omega) (by omega) (by omega) ht1 (by omega) D2
        (by rw [hD2s, hD2 _ (by omega)]; exact le_of_eq hD1f.symm)
        (fun i hi => by rw [hD2s, hD2 _ (by push_cast; omega)]; exact hD1st i hi) hsf hsi heq
      rw [heq, Option.bind_some] at he
      have hqs : SoundAt q D2 s := by
        intro k r hm
        rw [hgq.other s k (by unfold SeqStates; omega)] at hm
        exact hps k r hm
      obtain ⟨r, her, hgr, hlr, hrr⟩ := copyRules_grown hgq.ok (d := s) (s := pr.states.length)
        (by omega) (by omega)
      rw [her] at he
      cases he
      refine ⟨D2, hD2', ?_, ?_⟩
      · refine copy_sound hrr hqs hcs.1 ?_
        rw [hD2 _ (by omega), hD1f, hD2s, hD1s]
        exact hcloop
      · intro x hx
        have hq : SoundAt q D2 x := by
          by_cases hx1 : x = pr.states.length
          · rw [hx1]; exact hcs.1
          · by_cases hx2 : x < pr.states.length + cs.length
            · have := hcs.2 (x - (pr.states.length + 1)) (by omega)
              rwa [show pr.states.length + 1 + (x - (pr.states.length + 1)) = x by omega] at this
            · intro k r hm
              rw [hgq.other x k (by unfold SeqStates; omega)] at hm
              exact hsn x (by omega) k r hm
        intro k r hm
        rw [hgr.other x k (by omega)] at hm
        exact hq k r hm
    · rw [if_neg hr] at he
      have hne : cs.isEmpty = false := by
        cases cs with
        | nil => simp at hcl
        | cons => rfl
      rw [hne] at he
      simp only [Bool.false_eq_true, if_false] at he
      have h0 : (addStates (cs.length - 1) pr).states.length = pr.states.length + (cs.length - 1) := by
        rw [addStates_length]
      have hr0 : ∀ x k, (addStates (cs.length - 1) pr).rules x k = pr.rules x k := by
        intro x k; rw [addStates_rules]
      have hok0 := addStates_ok (cs.length - 1) h
      generalize addStates (cs.length - 1) pr = p0 at he h0 hr0 hok0
      -- what is needed from the words of the group
      obtain ⟨al', hlo', hDD, hal'⟩ : ∃ al' : Bool, LoopOkSeq al' cs ∧
          langSeq cs * D (if rep then (s : Int) else t) ≤ D s ∧
          (al' = true → D s ≤ langSeq cs * D (if rep then (s : Int) else t)) := by
        cases rep with
        | true =>
          have hlen : cs.length = 1 := by
            have : ¬ cs.length > 1 := fun hc' => hr ⟨rfl, hc'⟩
            omega
          simp only [if_true] at hlo ⊢
          rw [hlen] at hlo
          refine ⟨false, by simpa using hlo.2, ?_, by simp⟩
          rw [lang] at hD hal
          simp only [if_true] at hD hal
          refine le_trans (mul_le_mul_right (hal hlo.1) _) ?_
          rw [← mul_assoc]
          exact le_trans (mul_le_mul_left mul_kstar_le_kstar _) hD
        | false =>
          simp only [Bool.false_eq_true, if_false] at hlo ⊢
          refine ⟨_, hlo, ?_, ?_⟩
          · refine le_trans (mul_le_mul_left ?_ _) hD
            rw [lang]
            cases opt
            · simp
            · simp
          · intro hh
            simp only [Bool.and_eq_true, Bool.or_eq_true, Bool.not_eq_true'] at hh
            refine le_trans (hal hh.1) (mul_le_mul_left ?_ _)
            rw [lang]
            rcases hh.2 with hh | hn
            · simp [hh]
            · cases opt
              · simp
              · simp only [Bool.false_eq_true, if_false, if_true]
                intro w hw
                rcases (Language.mem_add ..).mp hw with hw | hw
                · have : w = [] := (Language.mem_one w).mp hw
                  rw [this]
                  exact (nullableSeq_iff cs).mp hn
                · exact hw
      generalize hteq : (if rep then (s : Int) else t) = tail at *
      let D1 : Int → Language Sym := seqD D cs pr.states.length (D tail)
      have hD1 : ∀ x : Int, x < pr.states.length → D1 x = D x := by
        intro x hx
        simp only [D1, seqD]
        rw [if_neg (by omega)]
      have hD1s : D1 (s : Int) = D s := hD1 s (by omega)
      have hD1t : D1 tail = D tail := hD1 tail (by omega)
      have hD1st : ∀ i, i + 1 < cs.length →
          D1 ((pr.states.length + i : Nat) : Int) = langSeq (cs.drop (i + 1)) * D1 tail := by
        intro i hi
        rw [hD1t]
        simp only [D1, seqD]
        rw [if_pos (by push_cast; omega)]
        congr 3
        push_cast; omega
      have hemp : ∀ x : Nat, pr.states.length ≤ x → SoundAt p0 D1 x := by
        intro x hx k r hm
        rw [hr0, rules_of_ge hx] at hm
        simp at hm
      have hs0 : SoundAt p0 D1 s := hss.congr h (fun k => hr0 s k) hD1
      obtain ⟨p, hep, hg⟩ := Chunk.buildSeq_grown ft cs hc.2.2 hok0 (s := s)
        (j := pr.states.length) (tail := tail) (by omega) (by omega) ht1 (by omega)
      have hgl := hg.len
      obtain ⟨D2, hD2, hsf, hsi, hsn⟩ := Chunk.buildSeq_sound ft hft cs hc.2.2 al' hlo' hok0 (s := s)
        (j := pr.states.length) (tail := tail) (by omega) (by omega) (by omega) ht1 (by omega) D1
        (by rw [hD1t, hD1s]; exact hDD) (by rw [hD1t, hD1s]; exact hal') hD1st hs0
        (fun i _ => hemp _ (by omega)) hep
      rw [hep, Option.bind_some] at he
      have hD2' : ∀ x : Int, x < pr.states.length → D2 x = D x := fun x hx => by
        rw [hD2 x (by omega), hD1 x hx]
      have hD2t : D2 tail = D1 tail := hD2 tail (by omega)
      obtain ⟨q, heq, hgq, hlq⟩ := closeSeq_grown cs hg.ok (s := s)
        (j := pr.states.length) (tail := tail) (by omega) (by omega) (by omega) ht1 (by omega)
      have hcs := closeSeq_sound cs hc.2.2 hg.ok (s := s)
        (j := pr.states.length) (tail := tail) (by omega) (by omega) (by omega) ht1 (by omega) D2
        (by rw [hD2t, hD1t, hD2' s (by omega)]; exact hDD)
        (fun i hi => by rw [hD2t, hD2 _ (by push_cast; omega)]; exact hD1st i hi) hsf hsi heq
      rw [heq] at he
      cases he
      refine ⟨D2, hD2', hcs.1, ?_⟩
      intro x hx
      by_cases hx2 : x + 1 < pr.states.length + cs.length
      · have := hcs.2 (x - pr.states.length) (by omega)
        rwa [show pr.states.length + (x - pr.states.length) = x by omega] at this
      · intro k r hm
        rw [hgq.other x k (by unfold SeqStates; omega)] at hm
        exact hsn x (by omega) k r hm
termination_by sizeOf c

theorem Chunk.buildAll_sound (ft : Nat → Finset Int) (hft : ∀ i, ∀ k ∈ ft i, 0 ≤ k) (cs : List Chunk) (hc : WFs cs)
    (hlo : LoopOkAny cs) {pr : PR} (h : pr.Ok) {s : Nat} {t : Int}
    (hs : s < pr.states.length) (h1 : finalState ≤ t) (h2 : t < pr.states.length) (D : Int → Language Sym)
    (hss : SoundAt pr D s) (hD : langAny cs * D t ≤ D s)
    {pr' : PR} (he : Chunk.buildAll ft cs pr s t = some pr') :
    ∃ D' : Int → Language Sym, (∀ x : Int, x < pr.states.length → D' x = D x) ∧ SoundAt pr' D' s ∧
      ∀ j, pr.states.length ≤ j → SoundAt pr' D' j := by
  cases cs with
  | nil =>
    rw [Chunk.buildAll] at he
    cases he
    exact ⟨D, fun _ _ => rfl, hss, fun j hj => soundAt_of_ge hj⟩
  | cons c cs =>
    rw [WFs] at hc
    rw [LoopOkAny] at hlo
    rw [langAny, add_mul] at hD
    have hD1 : lang c * D t ≤ D s := le_trans le_self_add hD
    have hD2 : langAny cs * D t ≤ D s := le_trans le_add_self hD
    obtain ⟨p, hep, hg⟩ := Chunk.build_grown ft c hc.1 h hs h1 h2
    have hgl := hg.len
    obtain ⟨E, hE, hEs, hEn⟩ := Chunk.build_sound ft hft c hc.1 false hlo.1 h hs h1 h2 D hss hD1 (by simp) hep
    rw [Chunk.buildAll, hep, Option.bind_some] at he
    obtain ⟨q, heq, hgq⟩ := Chunk.buildAll_grown ft cs hc.2 hg.ok (s := s) (t := t) (by omega) h1 (by omega)
    obtain ⟨F, hF, hFs, hFn⟩ := Chunk.buildAll_sound ft hft cs hc.2 hlo.2 hg.ok (s := s) (t := t) (by omega) h1
      (by omega) E hEs (by rw [hE _ h2, hE _ (by omega)]; exact hD2) he
    rw [heq] at he
    cases he
    refine ⟨F, fun x hx => by rw [hF x (by omega), hE x hx], hFs, ?_⟩
    intro x hx
    by_cases hx2 : p.states.length ≤ x
    · exact hFn x hx2
    · exact (hEn x hx).congr hg.ok (fun k => hgq.other x k (by omega)) hF
termination_by sizeOf cs

theorem Chunk.buildSeq_sound (ft : Nat → Finset Int) (hft : ∀ i, ∀ k ∈ ft i, 0 ≤ k) (cs : List Chunk) (hc : WFs cs)
    (al : Bool) (hlo : LoopOkSeq al cs) {pr : PR} (h : pr.Ok)
    {s j : Nat} {tail : Int} (hs : s < pr.states.length) (hsj : s < j)
    (hj : j + (cs.length - 1) ≤ pr.states.length)
    (h1 : finalState ≤ tail) (h2 : tail < pr.states.length) (D : Int → Language Sym)
    (hD : langSeq cs * D tail ≤ D s) (hal : al = true → D s ≤ langSeq cs * D tail)
    (hst : ∀ i, i + 1 < cs.length → D ((j + i : Nat) : Int) = langSeq (cs.drop (i + 1)) * D tail)
    (hss : SoundAt pr D s) (hsi : ∀ i, i + 1 < cs.length → SoundAt pr D (j + i))
    {pr' : PR} (he : Chunk.buildSeq ft cs pr s j tail = some pr') :
    ∃ D' : Int → Language Sym, (∀ x : Int, x < pr.states.length → D' x = D x) ∧ SoundAt pr' D' s ∧
      (∀ i, i + 1 < cs.length → SoundAt pr' D' (j + i)) ∧
      ∀ x, pr.states.length ≤ x → SoundAt pr' D' x := by
  cases cs with
  | nil =>
    rw [Chunk.buildSeq] at he
    cases he
    exact ⟨D, fun _ _ => rfl, hss, hsi, fun j hj => soundAt_of_ge hj⟩
  | cons c cs =>
    rw [WFs] at hc
    rw [LoopOkSeq] at hlo
    have hx1 : finalState ≤ (if cs.isEmpty then tail else (j : Int)) := by
      split
      · exact h1
      · unfold finalState; omega
    have hx2 : (if cs.isEmpty then tail else (j : Int)) < pr.states.length := by
      cases cs with
      | nil => simpa using h2
      | cons d ds => simp at hj ⊢; omega
    have hDx : D (if cs.isEmpty then tail else (j : Int)) = langSeq cs * D tail := by
      cases cs with
      | nil => simp [langSeq]
      | cons d ds => simpa using hst 0 (by simp)
    rw [langSeq, mul_assoc, ← hDx] at hD hal
    obtain ⟨p, hep, hg⟩ := Chunk.build_grown ft c hc.1 h hs hx1 hx2
    have hgl := hg.len
    obtain ⟨E, hE, hEs, hEn⟩ := Chunk.build_sound ft hft c hc.1 al hlo.1 h hs hx1 hx2 D hss hD hal hep
    rw [Chunk.buildSeq, hep, Option.bind_some] at he
    cases cs with
    | nil =>
      rw [Chunk.buildSeq] at he
      cases he
      exact ⟨E, hE, hEs, by simp, hEn⟩
    | cons d ds =>
      have hj' : j + (ds.length + 1) ≤ pr.states.length := by simpa using hj
      have hpi : ∀ i, i + 1 < (c :: d :: ds).length → SoundAt p E (j + i) := by
        intro i hi
        have hi' : i < ds.length + 1 := by simpa using hi
        exact (hsi i hi).congr h (fun k => hg.other _ k (by omega)) hE
      have hEt : E tail = D tail := hE tail h2
      obtain ⟨q, heq, hgq⟩ := Chunk.buildSeq_grown ft (d :: ds) hc.2 hg.ok (s := j) (j := j + 1)
        (tail := tail) (by omega) (by simp; omega) h1 (by omega)
      have hEj : E (j : Int) = langSeq (d :: ds) * E tail := by
        rw [hE _ (by omega), hEt]; simpa using hst 0 (by simp)
      obtain ⟨F, hF, hFs, hFi, hFn⟩ := Chunk.buildSeq_sound ft hft (d :: ds) hc.2 true hlo.2 hg.ok (s := j) (j := j + 1)
        (tail := tail) (by omega) (by omega) (by simp; omega) h1 (by omega) E (le_of_eq hEj.symm)
        (fun _ => le_of_eq hEj)
        (fun i hi => by
          have hi' : i < ds.length := by simpa using hi
          rw [hE _ (by push_cast; omega), hEt]
          have := hst (i + 1) (by simpa using hi)
          rw [show j + 1 + i = j + (i + 1) by omega, this]
          rfl)
        (by simpa using hpi 0 (by simp))
        (fun i hi => by
          have := hpi (i + 1) (by simpa using hi)
          rwa [show j + 1 + i = j + (i + 1) by omega]) he
      rw [heq] at he
      cases he
      refine ⟨F, fun x hx => by rw [hF x (by omega), hE x hx], ?_, ?_, ?_⟩
      · exact hEs.congr hg.ok (fun k => hgq.other s k (by unfold SeqStates; omega)) hF
      · intro i hi
        cases i with
        | zero => simpa using hFs
        | succ i =>
          have := hFi i (by simpa using hi)
          rwa [show j + 1 + i = j + (i + 1) by omega] at this
      · intro x hx
        by_cases hx2 : p.states.length ≤ x
        · exact hFn x hx2
        · exact (hEn x hx).congr hg.ok
            (fun k => hgq.other x k (by unfold SeqStates; simp only [List.length_cons]; omega)) hF
termination_by sizeOf cs

end

/-- Words accepted by sound rules are among the words assigned to the state. -/
theorem accepts_sound {m : Table} {D : Int → Language Sym} (hf : D finalState = 1)
    (hm : ∀ (s : Nat) k r, r ∈ m s k → RuleSound D s r) {s : Int} {w : List Sym} (h : Accepts m s w) : w ∈ D s := by
  induction h with
  | final => rw [hf]; simp
  | skip hr hn _ ih => simpa [hn] using hm _ _ _ hr _ ih
  | read hr hn _ ih => simpa [hn] using hm _ _ _ hr _ ih

end Verif.Model
