/-
Weights of states of compiled nodes.
-/
import Mathlib.Tactic.Linarith
import Mathlib.Algebra.Order.Field.Rat
import Verif.Spec.Empty
import Verif.Proof.ChunkSound
import Verif.Proof.ChunkHeads

namespace Verif.Model

open Verif.Spec Verif.Spec.Ebnf PR

/-- Weight of a state and nodes that may be met before an ordinary token. -/
abbrev Wt := ℚ × Finset Nat

/-- The second value may follow the first one without an ordinary token. -/
def Falls (a b : Wt) : Prop := b.1 < a.1 ∧ b.2 ⊆ a.2

variable (E : Nat → Bool)

/-- A rule agrees with the weights. -/
def RuleFalls (D : Int → Wt) (x : Wt) (r : Rule) : Prop :=
  (r.node = sameNode → r.token = anyToken ∨ r.token = eoiTokenType → Falls x (D r.state)) ∧
    ∀ i : Nat, r.node = i → i ∈ x.2 ∧ (E i = true → Falls x (D r.state))

/-- All rules of a state agree with the weights. -/
def FallsAt (pr : PR) (D : Int → Wt) (j : Nat) : Prop := ∀ k r, r ∈ pr.rules j k → RuleFalls E D (D j) r

variable {E}

theorem FallsAt.congr {p q : PR} {D D' : Int → Wt} {j : Nat} (h : FallsAt E p D j) (hp : p.Ok)
    (hr : ∀ k, q.rules j k = p.rules j k) (hD : ∀ x : Int, x < p.states.length → D' x = D x) : FallsAt E q D' j := by
  intro k r hm
  rw [hr] at hm
  have h1 := hp.tgt j k r hm
  have h2 := rules_lt hm
  have h3 := h k r hm
  unfold RuleFalls at h3 ⊢
  rw [hD _ h1.2, hD _ (by exact_mod_cast h2)]
  exact h3

theorem fallsAt_of_ge {pr : PR} {D : Int → Wt} {j : Nat} (h : pr.states.length ≤ j) : FallsAt E pr D j := by
  intro k r hm
  rw [rules_of_ge h] at hm
  simp at hm

theorem RuleFalls.mono {D : Int → Wt} {x y : Wt} {r : Rule} (h : RuleFalls E D x r) (h1 : x.1 ≤ y.1) (h2 : x.2 ⊆ y.2) :
    RuleFalls E D y r :=
  ⟨fun a b => ⟨lt_of_lt_of_le (h.1 a b).1 h1, (h.1 a b).2.trans h2⟩, fun i hi =>
    ⟨h2 (h.2 i hi).1, fun he => ⟨lt_of_lt_of_le ((h.2 i hi).2 he).1 h1, ((h.2 i hi).2 he).2.trans h2⟩⟩⟩

theorem copy_falls {p q : PR} {D : Int → Wt} {d s : Nat}
    (hr : ∀ j k, q.rules j k = if j = d then
          (if 0 ≤ k then p.rules d k ++ p.rules s k
            else if p.rules s k = [] then p.rules d k else p.rules s k)
        else p.rules j k)
    (hd : FallsAt E p D d) (hs : FallsAt E p D s) (h1 : (D s).1 ≤ (D d).1) (h2 : (D s).2 ⊆ (D d).2) : FallsAt E q D d := by
  have hm : ∀ k r, r ∈ p.rules s k → RuleFalls E D (D d) r := fun k r h => (hs k r h).mono h1 h2
  intro k r h
  rw [hr, if_pos rfl] at h
  split at h
  · rcases List.mem_append.mp h with h | h
    · exact hd k r h
    · exact hm k r h
  · split at h
    · exact hd k r h
    · exact hm k r h

mutual

theorem mayBeEmpty_of_nullable : (c : Chunk) → nullable c = true → mayBeEmpty E c = true
  | .token _ => by simp [nullable]
  | .eoi => by simp [nullable]
  | .node _ => by simp [nullable]
  | .variant cs => fun h => by
      rw [nullable] at h
      rw [mayBeEmpty]
      exact mayBeEmptyAny_of_nullable cs h
  | .group cs opt rep => fun h => by
      rw [nullable] at h
      rw [mayBeEmpty]
      simp only [Bool.or_eq_true] at h ⊢
      exact h.imp_right (mayBeEmptySeq_of_nullable cs)

theorem mayBeEmptyAny_of_nullable : (cs : List Chunk) → nullableAny cs = true → mayBeEmptyAny E cs = true
  | [] => by simp [nullableAny]
  | c :: cs => fun h => by
      rw [nullableAny, Bool.or_eq_true] at h
      rw [mayBeEmptyAny, Bool.or_eq_true]
      exact h.imp (mayBeEmpty_of_nullable c) (mayBeEmptyAny_of_nullable cs)

theorem mayBeEmptySeq_of_nullable : (cs : List Chunk) → nullableSeq cs = true → mayBeEmptySeq E cs = true
  | [] => by simp [mayBeEmptySeq]
  | c :: cs => fun h => by
      rw [nullableSeq, Bool.and_eq_true] at h
      rw [mayBeEmptySeq, Bool.and_eq_true]
      exact h.imp (mayBeEmpty_of_nullable c) (mayBeEmptySeq_of_nullable cs)

end

variable (E) in
/-- Conditions for building an expression between two states; `b` says that there may be an explicit end of input. -/
structure Between (b : Bool) (x y : Wt) (empty : Bool) (left : Finset Nat) : Prop where
  falls : empty = true → Falls x y
  left : left ⊆ x.2
  pos : b = true → 0 < x.1 ∧ 0 ≤ y.1

variable (E) in
/-- Weights of the states of a sequence. -/
def SeqFalls (b : Bool) (D : Int → Wt) : List Chunk → Nat → Nat → Int → Prop
  | [], _, _, _ => True
  | c :: cs, s, j, tail =>
    Between b (D s) (D (if cs.isEmpty then tail else (j : Int))) (mayBeEmpty E c) (leftNodes E c) ∧
      SeqFalls b D cs j (j + 1) tail

theorem SeqFalls.congr {b : Bool} {D D' : Int → Wt} (cs : List Chunk) {s j : Nat} {tail : Int} (h : SeqFalls E b D cs s j tail)
    (hs : D' s = D s) (ht : D' tail = D tail) (hj : ∀ x : Nat, j ≤ x → x + 1 < j + cs.length → D' x = D x) :
    SeqFalls E b D' cs s j tail := by
  induction cs generalizing s j with
  | nil => trivial
  | cons c cs ih =>
    cases cs with
    | nil => exact ⟨by simpa [SeqFalls, hs, ht] using h.1, trivial⟩
    | cons d ds =>
      have h3 := hj j (le_refl _) (by simp)
      refine ⟨by simpa [hs, h3] using h.1, ih h.2 h3 fun x h1 h2 => hj x (by omega) (by simp at h2 ⊢; omega)⟩

theorem seqFalls_exists (b : Bool) (cs : List Chunk) (s j : Nat) (tail : Int) (hsj : s < j) (ht : tail < j) (D : Int → Wt)
    (h : Between b (D s) (D tail) (mayBeEmptySeq E cs) (leftNodesSeq E cs)) :
    ∃ D' : Int → Wt, (∀ x : Int, x < j → D' x = D x) ∧ SeqFalls E b D' cs s j tail := by
  induction cs generalizing s j D with
  | nil => exact ⟨D, fun _ _ => rfl, trivial⟩
  | cons c cs ih =>
    rw [mayBeEmptySeq, leftNodesSeq] at h
    cases cs with
    | nil =>
      refine ⟨D, fun _ _ => rfl, ?_, trivial⟩
      simp only [mayBeEmptySeq, Bool.and_true, leftNodesSeq, ite_self, Finset.union_empty] at h
      simpa using h
    | cons d ds =>
      generalize hn : mayBeEmptySeq E (d :: ds) = n at h ih
      generalize hl : leftNodesSeq E (d :: ds) = l at h ih
      obtain ⟨y, h1, h2, h3⟩ : ∃ y : ℚ, (mayBeEmpty E c = true → y < (D s).1) ∧ (n = true → (D tail).1 < y) ∧ (b = true → 0 < y) := by
        have hp := h.pos
        have hf : mayBeEmpty E c = true → n = true → (D tail).1 < (D s).1 := fun a b => (h.falls (by rw [a, b]; rfl)).1
        cases hc : mayBeEmpty E c with
        | true =>
          cases hnn : n with
          | true =>
            have hlt := hf hc hnn
            refine ⟨((D tail).1 + (D s).1) / 2, fun _ => by linarith, fun _ => by linarith, fun hb => ?_⟩
            have := hp hb
            linarith
          | false =>
            cases b with
            | true => exact ⟨(D s).1 / 2, fun _ => by have := (hp rfl).1; linarith, by simp, fun _ => by have := (hp rfl).1; linarith⟩
            | false => exact ⟨(D s).1 - 1, fun _ => by linarith, by simp, by simp⟩
        | false =>
          cases b with
          | true => exact ⟨(D tail).1 + 1, by simp, fun _ => by linarith, fun _ => by have := (hp rfl).2; linarith⟩
          | false => exact ⟨(D tail).1 + 1, by simp, fun _ => by linarith, by simp⟩
      let v : Wt := (y, l ∪ if n then (D tail).2 else ∅)
      have hDs : Function.update D (j : Int) v s = D s := Function.update_of_ne (by omega) _ _
      have hDt : Function.update D (j : Int) v tail = D tail := Function.update_of_ne (by omega) _ _
      have hDj : Function.update D (j : Int) v j = v := Function.update_self _ _ _
      obtain ⟨D', h4, h5⟩ := ih j (j + 1) (by omega) (by omega) (Function.update D (j : Int) v) (by
        rw [hDj, hDt]
        refine ⟨fun he => ⟨h2 he, ?_⟩, Finset.subset_union_left, fun hb => ⟨h3 hb, (h.pos hb).2⟩⟩
        show _ ⊆ l ∪ _
        rw [if_pos he]
        exact Finset.subset_union_right)
      refine ⟨D', fun x hx => ?_, ?_, h5⟩
      · rw [h4 x (by push_cast; omega), Function.update_of_ne (by omega)]
      · have hs' : D' s = D s := by rw [h4 _ (by push_cast; omega), hDs]
        have hj' : D' j = v := by rw [h4 _ (by push_cast; omega), hDj]
        simp only [List.isEmpty_cons, Bool.false_eq_true, if_false]
        rw [hs', hj']
        refine ⟨fun he => ⟨h1 he, ?_⟩, (Finset.subset_union_left).trans h.left, fun hb => ⟨(h.pos hb).1, (h3 hb).le⟩⟩
        have hl' := h.left
        rw [if_pos he] at hl'
        refine Finset.union_subset (Finset.subset_union_right.trans hl') ?_
        split
        · rename_i hnn
          exact (h.falls (by rw [he, hnn]; rfl)).2
        · simp

theorem closeSeq_falls (b : Bool) (cs : List Chunk) (hwf : WFs cs) {pr : PR} (h : pr.Ok) {s j : Nat} {tail : Int}
    (hs : s < pr.states.length) (hsj : s < j) (hj : j + (cs.length - 1) ≤ pr.states.length)
    (h1 : finalState ≤ tail) (h2 : tail < pr.states.length) (D : Int → Wt) (hD : SeqFalls E b D cs s j tail)
    (hall : ∀ x, FallsAt E pr D x) {pr' : PR} (he : closeSeq cs pr s j tail = some pr') : ∀ x, FallsAt E pr' D x := by
  induction cs generalizing s j pr pr' with
  | nil => simp [closeSeq] at he; subst he; exact hall
  | cons c cs ih =>
    rw [WFs] at hwf
    have hempty : c.isOptional = true → mayBeEmpty E c = true := fun ho =>
      mayBeEmpty_of_nullable c (by rw [← nullable_eq c hwf.1]; exact ho)
    cases cs with
    | nil =>
      simp only [closeSeq, Option.bind_some, List.isEmpty_nil, if_true] at he
      split at he
      · next ho =>
        obtain ⟨p, he', _, _, hr⟩ := addRule_grown h hs tail sameNode anyToken h1 h2
        rw [PR.bypass, he'] at he
        cases he
        intro x k r hm
        rw [hr] at hm
        split at hm
        · rename_i hx
          simp [anyToken] at hm
          subst hm
          refine ⟨fun _ _ => ?_, fun i hi => by simp [sameNode] at hi⟩
          have := hD.1.falls (hempty ho)
          simpa [hx.1] using this
        · exact hall x k r hm
      · cases he; exact hall
    | cons d ds =>
      have hj' : j + (ds.length + 1) ≤ pr.states.length := by simpa using hj
      obtain ⟨p, hep, hg, hl⟩ := closeSeq_grown (d :: ds) h (s := j) (j := j + 1) (by omega) (by omega)
        (by simp; omega) h1 h2
      have hIH := ih hwf.2 h (s := j) (j := j + 1) (by omega) (by omega) (by simp; omega) h2 hD.2 hall hep
      rw [closeSeq, hep, Option.bind_some] at he
      simp only [List.isEmpty_cons, Bool.false_eq_true, if_false] at he
      split at he
      · next ho =>
        obtain ⟨q, heq, hgq, hlq, hr⟩ := copyRules_grown hg.ok (d := s) (s := j) (by omega) (by omega)
        rw [heq] at he
        cases he
        intro x
        by_cases hx : x = s
        · subst hx
          have := hD.1.falls (hempty ho)
          simp only [List.isEmpty_cons, Bool.false_eq_true, if_false] at this
          exact copy_falls hr (hIH x) (hIH j) this.1.le this.2
        · intro k r hm
          rw [hgq.other _ k (by omega)] at hm
          exact hIH x k r hm
      · cases he
        exact hIH

mutual

theorem Chunk.build_falls (ft : Nat → Finset Int) (c : Chunk) (hc : WF c) (hmv : LoopsMove E c) (b : Bool) (hb : b = false → NoEoi c)
    {pr : PR} (h : pr.Ok) {s : Nat} {t : Int}
    (hs : s < pr.states.length) (h1 : finalState ≤ t) (h2 : t < pr.states.length) (D : Int → Wt) (hfin : D finalState = (0, ∅))
    (hall : ∀ x, FallsAt E pr D x) (hD : Between b (D s) (D t) (mayBeEmpty E c) (leftNodes E c))
    {pr' : PR} (he : c.build ft pr s t = some pr') :
    ∃ D' : Int → Wt, (∀ x : Int, x < pr.states.length → D' x = D x) ∧ ∀ x, FallsAt E pr' D' x := by
  have one : ∀ (st nd : Int) (ks : List Int) (pr' : PR), finalState ≤ st → st < pr.states.length →
      addRules s st nd ks pr = some pr' → (∀ k ∈ ks, RuleFalls E D (D s) ⟨k, st, nd⟩) → ∀ x, FallsAt E pr' D x := by
    intro st nd ks pr' h3 h4 he hk x k r hr
    obtain ⟨p, he', hg, -⟩ := addRules_grown st nd ks h hs h3 h4
    rw [he] at he'
    cases he'
    by_cases hx : x = s
    · subst hx
      rcases addRules_mem st nd ks h hs h3 h4 he hr with hm | ⟨hm, rfl⟩
      · exact hall x k r hm
      · exact hk k hm
    · rw [hg.other x k hx] at hr
      exact hall x k r hr
  cases c with
  | token k =>
    rw [Chunk.build] at he
    refine ⟨D, fun _ _ => rfl, one _ _ _ _ h1 h2 he ?_⟩
    intro k' hk
    simp only [List.mem_singleton] at hk
    subst hk
    refine ⟨fun _ hk => ?_, fun i hi => ?_⟩
    · simp [anyToken, eoiTokenType] at hk
    · simp [sameNode] at hi
  | eoi =>
    rw [Chunk.build] at he
    refine ⟨D, fun _ _ => rfl, one _ _ _ _ (le_refl _) (by unfold finalState at *; omega) he ?_⟩
    intro k' hk
    refine ⟨fun _ _ => ?_, fun i hi => ?_⟩
    · show Falls _ (D finalState)
      rw [hfin]
      cases b with
      | true => exact ⟨(hD.pos rfl).1, by simp⟩
      | false => exact absurd (hb rfl) (by simp [NoEoi])
    · simp [sameNode] at hi
  | node i =>
    rw [Chunk.build] at he
    refine ⟨D, fun _ _ => rfl, one _ _ _ _ h1 h2 he ?_⟩
    intro k hk
    refine ⟨fun hn => ?_, fun i' hi => ?_⟩
    · simp [sameNode] at hn
    · have : i = i' := by simpa using hi
      subst this
      exact ⟨hD.left (by simp [leftNodes]), fun he => hD.falls (by rw [mayBeEmpty]; exact he)⟩
  | variant cs =>
    rw [Chunk.build] at he
    rw [WF] at hc
    rw [LoopsMove] at hmv
    refine Chunk.buildAll_falls ft cs hc.2 hmv b (fun h => by simpa [NoEoi] using hb h) h hs h1 h2 D hfin hall ?_ he
    simpa [mayBeEmpty, leftNodes] using hD
  | group cs opt rep =>
    rw [WF] at hc
    rw [LoopsMove] at hmv
    rw [Chunk.build] at he
    have hbs : b = false → NoEois cs := fun h => by simpa [NoEoi] using hb h
    have ht1 : finalState ≤ (if rep then (s : Int) else t) := by
      split
      · unfold finalState; omega
      · exact h1
    have ht2 : (if rep then (s : Int) else t) < pr.states.length := by
      split <;> omega
    have hseq : Between b (D s) (D (if rep then (s : Int) else t)) (mayBeEmptySeq E cs) (leftNodesSeq E cs) := by
      refine ⟨fun hm => ?_, by simpa [leftNodes] using hD.left, fun hb => ?_⟩
      · cases hr : rep with
        | true => rw [hmv.1 hr] at hm; simp at hm
        | false =>
          simp only [Bool.false_eq_true, if_false]
          exact hD.falls (by rw [mayBeEmpty, hm]; simp)
      · have := hD.pos hb
        split
        · exact ⟨this.1, this.1.le⟩
        · exact this
    generalize (if rep then (s : Int) else t) = tail at ht1 ht2 hseq he
    have hcl : 0 < cs.length := List.length_pos_of_ne_nil hc.1
    simp only at he
    by_cases hr : rep = true ∧ cs.length > 1
    · rw [if_pos hr] at he
      have h0 : (addStates (cs.length - 1) pr.addState).states.length = pr.states.length + cs.length := by
        rw [addStates_length, addState_length]; omega
      have hok : (addStates (cs.length - 1) pr.addState).Ok := addStates_ok _ (addState_ok h)
      obtain ⟨p, hep, hg⟩ := Chunk.buildSeq_grown ft cs hc.2.2 hok
        (s := pr.states.length) (j := pr.states.length + 1) (tail := tail) (by omega)
        (by omega) ht1 (by omega)
      have hgl := hg.len
      obtain ⟨q, heq, hg', hl'⟩ := closeSeq_grown cs hg.ok (s := pr.states.length)
        (j := pr.states.length + 1) (tail := tail) (by omega) (by omega) (by omega) ht1
        (by omega)
      obtain ⟨r, her, hg'', hlr, hrr⟩ := copyRules_grown hg'.ok (d := s) (s := pr.states.length)
        (by omega) (by omega)
      rw [hep, Option.bind_some, heq, Option.bind_some, her] at he
      cases he
      let D0 := Function.update D (pr.states.length : Int) (D s)
      have hD0 : ∀ x : Int, x < pr.states.length → D0 x = D x := fun x hx => Function.update_of_ne (by omega) _ _
      have hD0f : D0 (pr.states.length : Int) = D s := Function.update_self _ _ _
      obtain ⟨D1, hD1, hD1s⟩ := seqFalls_exists b cs pr.states.length (pr.states.length + 1) tail (by omega) (by push_cast; omega) D0
        (by rw [hD0f, hD0 tail ht2]; exact hseq)
      have hD1' : ∀ x : Int, x < pr.states.length → D1 x = D x := fun x hx => by rw [hD1 x (by push_cast; omega), hD0 x hx]
      have hall1 : ∀ x, FallsAt E (addStates (cs.length - 1) pr.addState) D1 x := by
        intro x
        by_cases hx : x < pr.states.length
        · exact (hall x).congr h (fun k => by rw [addStates_rules, addState_rules]) hD1'
        · intro k r hm
          rw [addStates_rules, addState_rules, rules_of_ge (by omega)] at hm
          simp at hm
      obtain ⟨D2, hD2, hall2⟩ := Chunk.buildSeq_falls ft cs hc.2.2 hmv.2 b hbs hok (by omega) (by omega) (by omega) ht1 (by omega) D1
        (by rw [hD1' _ (by unfold finalState; omega)]; exact hfin) hall1 hD1s hep
      have hsD2 : SeqFalls E b D2 cs pr.states.length (pr.states.length + 1) tail :=
        hD1s.congr cs (hD2 _ (by omega)) (hD2 _ (by omega)) fun x _ _ => hD2 _ (by omega)
      have hall3 := closeSeq_falls b cs hc.2.2 hg.ok (by omega) (by omega) (by omega) ht1 (by omega) D2 hsD2 hall2 heq
      refine ⟨D2, fun x hx => by rw [hD2 x (by omega), hD1' x hx], fun x => ?_⟩
      by_cases hx : x = s
      · subst hx
        have e1 : D2 (pr.states.length : Int) = D x := by rw [hD2 _ (by omega), hD1 _ (by push_cast; omega), hD0f]
        have e2 : D2 (x : Int) = D x := by rw [hD2 _ (by omega), hD1' _ (by omega)]
        exact copy_falls hrr (hall3 x) (hall3 _) (by rw [e1, e2]) (by rw [e1, e2])
      · intro k r' hm
        rw [hg''.other _ k hx] at hm
        exact hall3 x k r' hm
    · rw [if_neg hr] at he
      have hne : cs.isEmpty = false := by
        cases cs with
        | nil => simp at hcl
        | cons => rfl
      rw [hne] at he
      simp only [Bool.false_eq_true, if_false] at he
      have h0 : (addStates (cs.length - 1) pr).states.length = pr.states.length + (cs.length - 1) := by
        rw [addStates_length]
      have hok : (addStates (cs.length - 1) pr).Ok := addStates_ok _ h
      obtain ⟨p, hep, hg⟩ := Chunk.buildSeq_grown ft cs hc.2.2 hok
        (s := s) (j := pr.states.length) (tail := tail) (by omega) (by omega) ht1 (by omega)
      have hgl := hg.len
      rw [hep, Option.bind_some] at he
      obtain ⟨D1, hD1, hD1s⟩ := seqFalls_exists b cs s pr.states.length tail (by omega) (by omega) D hseq
      have hall1 : ∀ x, FallsAt E (addStates (cs.length - 1) pr) D1 x := by
        intro x
        exact (hall x).congr h (fun k => by rw [addStates_rules]) hD1
      obtain ⟨D2, hD2, hall2⟩ := Chunk.buildSeq_falls ft cs hc.2.2 hmv.2 b hbs hok (by omega) (by omega) (by omega) ht1 (by omega) D1
        (by rw [hD1 _ (by unfold finalState; omega)]; exact hfin) hall1 hD1s hep
      have hsD2 : SeqFalls E b D2 cs s pr.states.length tail :=
        hD1s.congr cs (hD2 _ (by omega)) (hD2 _ (by omega)) fun x _ _ => hD2 _ (by omega)
      exact ⟨D2, fun x hx => by rw [hD2 x (by omega), hD1 x hx],
        closeSeq_falls b cs hc.2.2 hg.ok (by omega) (by omega) (by omega) ht1 (by omega) D2 hsD2 hall2 he⟩
termination_by sizeOf c

theorem Chunk.buildAll_falls (ft : Nat → Finset Int) (cs : List Chunk) (hc : WFs cs) (hmv : LoopsMoveAll E cs) (b : Bool)
    (hb : b = false → NoEois cs) {pr : PR} (h : pr.Ok) {s : Nat} {t : Int}
    (hs : s < pr.states.length) (h1 : finalState ≤ t) (h2 : t < pr.states.length) (D : Int → Wt) (hfin : D finalState = (0, ∅))
    (hall : ∀ x, FallsAt E pr D x) (hD : Between b (D s) (D t) (mayBeEmptyAny E cs) (leftNodesAny E cs))
    {pr' : PR} (he : Chunk.buildAll ft cs pr s t = some pr') :
    ∃ D' : Int → Wt, (∀ x : Int, x < pr.states.length → D' x = D x) ∧ ∀ x, FallsAt E pr' D' x := by
  cases cs with
  | nil =>
    rw [Chunk.buildAll] at he
    cases he
    exact ⟨D, fun _ _ => rfl, hall⟩
  | cons c cs =>
    rw [WFs] at hc
    rw [LoopsMoveAll] at hmv
    rw [mayBeEmptyAny, leftNodesAny] at hD
    obtain ⟨p, hep, hg⟩ := Chunk.build_grown ft c hc.1 h hs h1 h2
    have hgl := hg.len
    rw [Chunk.buildAll, hep, Option.bind_some] at he
    obtain ⟨D1, hD1, hall1⟩ := Chunk.build_falls ft c hc.1 hmv.1 b (fun h => by have := hb h; rw [NoEois] at this; exact this.1) h hs h1 h2 D
      hfin hall ⟨fun hm => hD.falls (by rw [hm]; rfl), Finset.subset_union_left.trans hD.left, hD.pos⟩ hep
    obtain ⟨D2, hD2, hall2⟩ := Chunk.buildAll_falls ft cs hc.2 hmv.2 b (fun h => by have := hb h; rw [NoEois] at this; exact this.2) hg.ok
      (s := s) (t := t) (by omega) h1 (by omega) D1 (by rw [hD1 _ (by unfold finalState; omega)]; exact hfin) hall1 (by
        rw [hD1 _ (by omega), hD1 _ h2]
        exact ⟨fun hm => hD.falls (by rw [hm, Bool.or_true]), Finset.subset_union_right.trans hD.left, hD.pos⟩) he
    exact ⟨D2, fun x hx => by rw [hD2 x (by omega), hD1 x hx], hall2⟩
termination_by sizeOf cs

theorem Chunk.buildSeq_falls (ft : Nat → Finset Int) (cs : List Chunk) (hc : WFs cs) (hmv : LoopsMoveAll E cs) (b : Bool)
    (hb : b = false → NoEois cs) {pr : PR} (h : pr.Ok)
    {s j : Nat} {tail : Int} (hs : s < pr.states.length) (hsj : s < j)
    (hj : j + (cs.length - 1) ≤ pr.states.length)
    (h1 : finalState ≤ tail) (h2 : tail < pr.states.length) (D : Int → Wt) (hfin : D finalState = (0, ∅))
    (hall : ∀ x, FallsAt E pr D x) (hD : SeqFalls E b D cs s j tail)
    {pr' : PR} (he : Chunk.buildSeq ft cs pr s j tail = some pr') :
    ∃ D' : Int → Wt, (∀ x : Int, x < pr.states.length → D' x = D x) ∧ ∀ x, FallsAt E pr' D' x := by
  cases cs with
  | nil =>
    rw [Chunk.buildSeq] at he
    cases he
    exact ⟨D, fun _ _ => rfl, hall⟩
  | cons c cs =>
    rw [WFs] at hc
    rw [LoopsMoveAll] at hmv
    have hx1 : finalState ≤ (if cs.isEmpty then tail else (j : Int)) := by
      split
      · exact h1
      · unfold finalState; omega
    have hx2 : (if cs.isEmpty then tail else (j : Int)) < pr.states.length := by
      cases cs with
      | nil => simpa using h2
      | cons d ds => simp at hj ⊢; omega
    obtain ⟨p, hep, hg⟩ := Chunk.build_grown ft c hc.1 h hs hx1 hx2
    have hgl := hg.len
    rw [Chunk.buildSeq, hep, Option.bind_some] at he
    obtain ⟨D1, hD1, hall1⟩ := Chunk.build_falls ft c hc.1 hmv.1 b (fun h => by have := hb h; rw [NoEois] at this; exact this.1) h hs hx1 hx2 D
      hfin hall hD.1 hep
    cases cs with
    | nil =>
      rw [Chunk.buildSeq] at he
      cases he
      exact ⟨D1, hD1, hall1⟩
    | cons d ds =>
      have hj' : j + (ds.length + 1) ≤ pr.states.length := by simpa using hj
      obtain ⟨D2, hD2, hall2⟩ := Chunk.buildSeq_falls ft (d :: ds) hc.2 hmv.2 b (fun h => by have := hb h; rw [NoEois] at this; exact this.2)
        hg.ok (s := j) (j := j + 1) (tail := tail) (by omega) (by omega) (by simp; omega) h1 (by omega) D1
        (by rw [hD1 _ (by unfold finalState; omega)]; exact hfin) hall1
        (hD.2.congr _ (hD1 _ (by omega)) (hD1 _ (by omega)) fun x _ hx => hD1 _ (by simp at hx; omega)) he
      exact ⟨D2, fun x hx => by rw [hD2 x (by omega), hD1 x hx], hall2⟩
termination_by sizeOf cs

end

end Verif.Model
