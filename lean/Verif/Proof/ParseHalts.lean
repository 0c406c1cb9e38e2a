/-
The main loop of the parser stops.
-/
import Mathlib.Order.WellFounded
import Mathlib.Data.Prod.Lex
import Verif.Proof.ConflictHalts
import Verif.Proof.Errors

namespace Verif.Proof

open Verif.Model Verif.Spec Verif.Props
open Verif.Model.Tree (bindRun)

variable {σ : Type} {env : PEnv σ} {μ : σ → Nat} {P : σ → Prop}
  {pull : Nat → σ → TokenTypeSet → Run (σ × Except PErr (Option Token))} {m : Nat → Int → List Rule} {w : Int → Nat} {skip : Int → Bool}

theorem send_ne {α : Type} {x : Except PErr α} {f : α → PRes (PC σ)} (h : ∀ a, f a ≠ .timeout) :
    (match x with | .error e => .done (.error e) | .ok a => f a : PRes (PC σ)) ≠ .timeout := by
  cases x with
  | error e => simp
  | ok a => exact h a

theorem addNode_halts {pc : PC σ} {index : Nat} {tok : Option Token} {st : List NodeRec} {log : List Event} :
    addNode env pc index tok st log ≠ .timeout := by
  rw [addNode]
  split
  · simp
  · cases env.g.firsts[index]? with
    | none => simp [orPanic]
    | some f =>
      dsimp only [orPanic]
      cases env.g.tables.states[f]? <;> simp

theorem pushNode_halts {pc : PC σ} {index : Nat} {tok : Option Token} : pushNode env pc index tok ≠ .timeout := by
  rw [pushNode]
  split
  · exact addNode_halts
  · split
    · simp
    · split
      · simp
      · exact addNode_halts

theorem applyRule_halts {pc : PC σ} {tok : Option Token} {r : Rule} : applyRule env pc tok r ≠ .timeout := by
  rw [applyRule]
  split
  · simp
  · cases moveFrame env.g r _ with
    | none => simp [orPanic]
    | some f =>
      dsimp only [orPanic]
      have hres : ∀ {α β : Type} {x : PRes α} {f : α → PRes β}, x ≠ .timeout → (∀ a, f a ≠ .timeout) →
          bindRes x f ≠ .timeout := by
        intro α β x f h1 h2
        rcases x with _ | _ | (_ | a)
        · simp [bindRes]
        · exact absurd rfl h1
        · simp [bindRes]
        · exact h2 a
      refine hres ?_ fun pc1 => hres ?_ fun pc2 => by simp
      · split
        · split
          · exact pushNode_halts
          · simp
        · split
          · rw [handleNodeToken.eq_def]
            split
            · simp
            · simp
            · split
              · simp
              · split <;> simp
          · simp
      · split
        · simp
        · split
          · rw [popNode]
            split
            · simp
            · split <;> simp
          · simp

/-- Chosen rules that are left can be used for the tokens that are left. -/
def Clean (g : Grammar) (m : Nat → Int → List Rule) (pc : PC σ) (l : List (Option Token)) : Prop :=
  (∃ st, Hops g m (nodeStates pc.stack) pc.applied st) ∧ Fit pc.applied l

theorem clean_nil {g : Grammar} {pc : PC σ} {l : List (Option Token)} (h : pc.applied = []) : Clean g m pc l := by
  unfold Clean
  rw [h]
  exact ⟨⟨_, .nil⟩, .inl fun r hr => by cases hr⟩

open Classical in
/-- The number of chosen rules if they cannot be used. -/
noncomputable def debt (g : Grammar) (m : Nat → Int → List Rule) (pc : PC σ) (l : List (Option Token)) : Nat :=
  if Clean g m pc l then 0 else pc.applied.length

theorem debt_le {g : Grammar} {pc : PC σ} {l : List (Option Token)} : debt g m pc l ≤ pc.applied.length := by
  unfold debt; split <;> omega

/-- Measure of the main loop: bound for tokens left, chosen rules that cannot be used, weight of the stack. -/
noncomputable def rank (g : Grammar) (m : Nat → Int → List Rule) (w : Int → Nat) (skip : Int → Bool) (n : Nat) (pc : PC σ)
    (l : List (Option Token)) : Nat ×ₗ Nat ×ₗ Nat := toLex (n, toLex (debt g m pc l, cost w skip (nodeStates pc.stack)))

theorem rank_lt_left {g : Grammar} {n n' : Nat} {pc pc' : PC σ} {l l' : List (Option Token)} (h : n' < n) :
    rank g m w skip n' pc' l' < rank g m w skip n pc l := Prod.Lex.left _ _ h

theorem rank_lt_debt {g : Grammar} {n n' : Nat} {pc pc' : PC σ} {l l' : List (Option Token)} (h : n' ≤ n)
    (hd : debt g m pc' l' < debt g m pc l) : rank g m w skip n' pc' l' < rank g m w skip n pc l := by
  rcases Nat.lt_or_eq_of_le h with h | rfl
  · exact rank_lt_left h
  · exact Prod.Lex.right _ (Prod.Lex.left _ _ hd)

theorem rank_lt_cost {g : Grammar} {n n' : Nat} {pc pc' : PC σ} {l l' : List (Option Token)} (h : n' ≤ n)
    (hd : debt g m pc' l' ≤ debt g m pc l) (hc : cost w skip (nodeStates pc'.stack) < cost w skip (nodeStates pc.stack)) :
    rank g m w skip n' pc' l' < rank g m w skip n pc l := by
  rcases Nat.lt_or_eq_of_le hd with hd | hd
  · exact rank_lt_debt h hd
  · rcases Nat.lt_or_eq_of_le h with h | rfl
    · exact rank_lt_left h
    · unfold rank
      rw [hd]
      exact Prod.Lex.right _ (Prod.Lex.right _ hc)

theorem rank_le {g : Grammar} {n n' : Nat} {pc pc' : PC σ} {l l' : List (Option Token)} (h : n' ≤ n)
    (hd : debt g m pc' l' ≤ debt g m pc l) (hc : pc'.stack = pc.stack) :
    rank g m w skip n' pc' l' ≤ rank g m w skip n pc l := by
  rcases Nat.lt_or_eq_of_le hd with hd | hd
  · exact le_of_lt (rank_lt_debt h hd)
  · rcases Nat.lt_or_eq_of_le h with h | rfl
    · exact le_of_lt (rank_lt_left h)
    · unfold rank
      rw [hd, hc]

/-- The rule may be used, then the rest of them. -/
def Leads (g : Grammar) (m : Nat → Int → List Rule) (st : List Int) (r : Rule) (rs : List Rule) : Prop :=
  (∀ s rest, st = s :: rest → Idle r → ∃ n : Nat, s = n ∧ r ∈ m n r.token) ∧
    ∀ st1, Hop g m st r st1 → ∃ st', Hops g m st1 rs st'

theorem hop_det {g : Grammar} {st st1 st2 : List Int} {r : Rule} (h1 : Hop g m st r st1) (h2 : Hop g m st r st2) : st1 = st2 := by
  obtain ⟨s, rest, top, rfl, -, e4, rfl⟩ := h1
  obtain ⟨s', rest', top', h, -, f4, rfl⟩ := h2
  cases h
  have ht : top' = top := by
    rcases e4 with ⟨a, b⟩ | ⟨i, f1, a, b, c⟩ <;> rcases f4 with ⟨a', b'⟩ | ⟨i', f1', a', b', c'⟩
    · rw [b, b']
    · omega
    · omega
    · have : i' = i := by omega
      subst this
      rw [b] at b'; cases b'
      rw [c, c']
  rw [ht]

theorem leads_of_hops {g : Grammar} {st st' : List Int} {r : Rule} {rs : List Rule} (h : Hops g m st (r :: rs) st') :
    Leads g m st r rs := by
  cases h with
  | cons h1 h2 =>
    refine ⟨?_, fun st1 h3 => ⟨st', by rw [← hop_det h1 h3]; exact h2⟩⟩
    intro s rest hs hi
    obtain ⟨s', rest', top, e1, e2, -⟩ := h1
    rw [hs] at e1; cases e1
    exact e2 hi

/-- What a call of `nextRule` gives. -/
structure Ruled (g : Grammar) (m : Nat → Int → List Rule) (μ : σ → Nat) (pc : PC σ) (tok : Option Token) (pc1 : PC σ)
    (r : Rule) : Prop where
  stack : pc1.stack = pc.stack
  ends : Ends (μ pc1.src) (tok :: pc1.tokens)
  left : left μ pc1 ≤ left μ pc
  clean : Clean g m pc (tok :: pc.tokens) → Leads g m (nodeStates pc.stack) r pc1.applied ∧
    Fit (r :: pc1.applied) (tok :: pc1.tokens)
  dirty : ¬ Clean g m pc (tok :: pc.tokens) → pc.applied = r :: pc1.applied

theorem nextRule_halts (hs : Feeds pull μ P) (hm : Means env.g.tables m) (hd : Descends env.g m w skip) {pc : PC σ}
    {tok : Option Token} {node : NodeRec} {rest : List NodeRec} (hst : pc.stack = node :: rest) (hp : P pc.src)
    (hends : Ends (μ pc.src) (tok :: pc.tokens)) :
    Halts (fun k n => nextRule { env with pull := pull k } n pc tok node.state)
      (fun x => P x.1.src ∧ ∀ r, x.2 = some r → Ruled env.g m μ pc tok x.1 r) := by
  cases ha : pc.applied with
  | cons r rs =>
    refine .congr (g := fun _ _ => .done ({ pc with applied := rs }, some r)) (fun k n => by rw [nextRule, ha]) (.done ⟨hp, ?_⟩)
    intro r' hr
    cases hr
    refine ⟨rfl, hends, le_refl _, ?_, fun _ => ha⟩
    rintro ⟨h1, h2⟩
    rw [ha] at h1 h2
    obtain ⟨st, h1⟩ := h1
    exact ⟨leads_of_hops h1, h2⟩
  | nil =>
    refine .congr (fun k n => by rw [nextRule, ha]) ?_
    dsimp only
    refine .orPanic fun rules hf => ?_
    rcases rules with _ | ⟨r, _ | ⟨r', rs⟩⟩
    · exact .done ⟨hp, fun r hr => by cases hr⟩
    · refine .done ⟨hp, fun r' hr => ?_⟩
      cases hr
      obtain ⟨h1, h2⟩ := found_idle hm hf (List.mem_singleton.mpr rfl)
      refine ⟨rfl, hends, le_refl _, fun _ => ?_, fun hc => absurd (clean_nil ha) hc⟩
      dsimp only
      rw [ha]
      constructor
      · refine ⟨?_, fun st1 _ => ⟨st1, .nil⟩⟩
        intro s rest' hs' hi
        rw [hst] at hs'
        cases hs'
        exact h1 hi
      · by_cases hi : Idle r
        · exact .inl fun x hx => by rw [List.mem_singleton] at hx; rw [hx]; exact hi
        · refine .inr ⟨0, ?_, fun x hx => by simp at hx⟩
          have hr : Real tok := by
            by_contra hc
            exact hi (h2 hc)
          obtain ⟨t, rfl, ht⟩ := hr
          exact ⟨t, pc.tokens, rfl, ht⟩
    · dsimp only
      refine .bind (resolve_halts hs hm hd hst hp hends) ?_
      rintro ⟨pc1, T, rules⟩ hset
      dsimp only at hset ⊢
      refine .orPanic fun r hr => .done ⟨hset.inv, ?_⟩
      intro r' hr'
      cases hr'
      obtain ⟨more, rfl⟩ := hset.toks
      cases rules with
      | nil => cases hr
      | cons r rules =>
        cases hr
        simp only [List.nil_append, List.drop_succ_cons, List.drop_zero]
        have hl := hset.left
        have he := hset.ends
        refine ⟨hset.stack, he, ?_, fun _ => ⟨?_, ?_⟩, fun hc => absurd (clean_nil ha) hc⟩
        · simp only [left, weights_append, List.nil_append, weights_cons, weights_nil] at hl ⊢
          omega
        · obtain ⟨st, h⟩ := hset.hops
          obtain ⟨st', h⟩ := h.extend (nodeStates rest)
          rw [hst]
          exact leads_of_hops h
        · exact hset.fit.append _

/-- What a use of a rule gives. -/
theorem rule_step (hd : Descends env.g m w skip) {pc pc1 pc2 : PC σ} {tok : Option Token} {r : Rule} {b : Bool}
    {node : NodeRec} {rest : List NodeRec} (hst : pc.stack = node :: rest) (hr : Ruled env.g m μ pc tok pc1 r)
    (h : applyRule env pc1 tok r = .done (.ok (pc2, b))) :
    Ends (μ pc2.src) (tok :: pc2.tokens) ∧
      (b = true → rank env.g m w skip (left μ pc2) pc2 pc2.tokens < rank env.g m w skip (left μ pc + weight tok) pc (tok :: pc.tokens)) ∧
      (b = false → rank env.g m w skip (left μ pc2 + weight tok) pc2 (tok :: pc2.tokens) <
        rank env.g m w skip (left μ pc + weight tok) pc (tok :: pc.tokens)) := by
  obtain ⟨rfl, stack, log, last, hpc2⟩ := applyRule_spec h
  obtain ⟨top, e1, e2, -⟩ := applyRule_states (hr.stack.trans hst) h
  have hsrc : pc2.src = pc1.src := by rw [hpc2]
  have htok : pc2.tokens = pc1.tokens := by rw [hpc2]
  have hap : pc2.applied = pc1.applied := by rw [hpc2]
  have hleft : left μ pc2 = left μ pc1 := by rw [left, left, hsrc, htok]
  have hl := hr.left
  refine ⟨by rw [hsrc, htok]; exact hr.ends, ?_⟩
  by_cases hc : Clean env.g m pc (tok :: pc.tokens)
  · obtain ⟨⟨h1, h2⟩, h3⟩ := hr.clean hc
    have hhop : Hop env.g m (nodeStates pc.stack) r (nodeStates pc2.stack) :=
      ⟨node.state, nodeStates rest, top, by rw [hst]; rfl, h1 _ _ (by rw [hst]; rfl), e1, e2⟩
    obtain ⟨st', h2⟩ := h2 _ hhop
    rw [← htok, ← hap] at h3
    rw [← hap] at h2
    have hdebt : ∀ l, Fit pc2.applied l → debt env.g m pc2 l = 0 := fun l hf => by
      unfold debt
      rw [if_pos ⟨⟨st', h2⟩, hf⟩]
    have hall : Idle r → (∀ x ∈ r :: pc2.applied, Idle x) →
        (consumes r tok = true → rank env.g m w skip (left μ pc2) pc2 pc2.tokens <
          rank env.g m w skip (left μ pc + weight tok) pc (tok :: pc.tokens)) ∧
        (consumes r tok = false → rank env.g m w skip (left μ pc2 + weight tok) pc2 (tok :: pc2.tokens) <
          rank env.g m w skip (left μ pc + weight tok) pc (tok :: pc.tokens)) := by
      intro hi hx
      have hf : ∀ l, Fit pc2.applied l := fun l => .inl fun x hx' => hx x (List.mem_cons_of_mem _ hx')
      constructor
      · exact fun _ => rank_lt_cost (by omega) (by rw [hdebt _ (hf _)]; omega) (hop_cost hd hi hhop)
      · exact fun _ => rank_lt_cost (by omega) (by rw [hdebt _ (hf _)]; omega) (hop_cost hd hi hhop)
    rcases h3 with h3 | ⟨k, h3, h4⟩
    · exact hall (h3 r List.mem_cons_self) h3
    · cases k with
      | zero =>
        have hreal : Real tok := by
          obtain ⟨t, rest', h5, h6⟩ := h3
          simp only [List.replicate_zero, List.nil_append, List.cons.injEq] at h5
          exact ⟨t, h5.1, h6⟩
        have hw := weight_real hreal
        constructor
        · exact fun _ => rank_lt_left (by omega)
        · intro hcons
          refine rank_lt_cost (by omega) ?_ (hop_cost hd (idle_of_not_consumes hcons) hhop)
          rw [hdebt _ (.inr ⟨0, h3, fun x hx => by simp at hx⟩)]
          omega
      | succ k =>
        have hi : Idle r := h4 r (by rw [List.take_succ_cons]; exact List.mem_cons_self)
        obtain ⟨t, rest', h5, h6⟩ := h3
        rw [List.replicate_succ, List.cons_append, List.cons.injEq] at h5
        obtain ⟨rfl, h5⟩ := h5
        constructor
        · intro _
          refine rank_lt_cost (by omega) ?_ (hop_cost hd hi hhop)
          rw [hdebt _ (.inr ⟨k, ⟨t, rest', h5, h6⟩, fun x hx => h4 x (by
            rw [List.take_succ_cons]; exact List.mem_cons_of_mem _ hx)⟩)]
          omega
        · intro hcons
          rw [(consumes_spec r none).mpr (.inr rfl)] at hcons
          cases hcons
  · have hap1 := hr.dirty hc
    have hlt : ∀ l, debt env.g m pc2 l < debt env.g m pc (tok :: pc.tokens) := by
      intro l
      have := debt_le (g := env.g) (m := m) (pc := pc2) (l := l)
      unfold debt at this ⊢
      rw [if_neg hc, hap1, List.length_cons]
      rw [hap] at this ⊢
      omega
    exact ⟨fun _ => rank_lt_debt (by omega) (hlt _), fun _ => rank_lt_debt (by omega) (hlt _)⟩

theorem inner_halts (hs : Feeds pull μ P) (hm : Means env.g.tables m) (hd : Descends env.g m w skip)
    (M : Nat ×ₗ Nat ×ₗ Nat) : ∀ (pc : PC σ) (tok : Option Token), P pc.src → Ends (μ pc.src) (tok :: pc.tokens) →
      rank env.g m w skip (left μ pc + weight tok) pc (tok :: pc.tokens) = M →
      Halts (fun k n => inner { env with pull := pull k } n pc tok) (fun r => ∀ x, r = .ok x → P x.1.src ∧ (x.1.stack = [] ∨
        (Ends (μ x.1.src) x.1.tokens ∧ rank env.g m w skip (left μ x.1) x.1 x.1.tokens < M))) := by
  induction M using WellFoundedLT.induction with
  | _ M ih =>
    intro pc tok hp hends hM
    cases hst : pc.stack with
    | nil =>
      refine .step (g := fun _ _ => .done (.ok (pc, false))) (fun k n => by rw [inner, hst]) (.done ?_)
      intro x hx
      cases hx
      exact ⟨hp, .inl hst⟩
    | cons node rest =>
      refine .step (fun k n => by rw [inner, hst]) ?_
      dsimp only
      refine .bind (nextRule_halts hs hm hd hst hp hends) ?_
      rintro ⟨pc1, r⟩ ⟨hp1, hr⟩
      cases r with
      | none =>
        dsimp only
        unfold noRule
        cases tok with
        | some t =>
          dsimp only [unexpected]
          exact .orPanic fun _ _ => .done fun x hx => by cases hx
        | none =>
          dsimp only
          refine .bind (nextToken_halts hs _ pc1 hp1) ?_
          rintro ⟨pc2, r⟩ -
          rcases r with e | (_ | t)
          · exact .done fun x hx => by cases hx
          · exact .panic
          · dsimp only [unexpected]
            exact .orPanic fun _ _ => .done fun x hx => by cases hx
      | some r =>
        dsimp only
        have hr := hr r rfl
        simp only [applyRule_pull]
        refine .res (P := fun x => applyRule env pc1 tok r = .done (.ok x)) (.const applyRule_halts fun a ha b hb => by rw [ha, hb]) ?_
        rintro ⟨pc2, b⟩ happ
        obtain ⟨h1, h2, h3⟩ := rule_step hd hst hr happ
        have hp2 : P pc2.src := by
          obtain ⟨-, _, _, _, rfl⟩ := applyRule_spec happ
          exact hp1
        rw [hM] at h2 h3
        cases b with
        | true =>
          refine .done fun x hx => ?_
          cases hx
          exact ⟨hp2, .inr ⟨h1.2, h2 rfl⟩⟩
        | false =>
          refine (ih _ (h3 rfl) pc2 tok hp2 h1 rfl).mono ?_
          intro r' h4 x hx
          rcases h4 x hx with ⟨h0, h4 | ⟨h4, h5⟩⟩
          · exact ⟨h0, .inl h4⟩
          · exact ⟨h0, .inr ⟨h4, lt_trans h5 (h3 rfl)⟩⟩

theorem outer_halts (hs : Feeds pull μ P) (hm : Means env.g.tables m) (hd : Descends env.g m w skip)
    (M : Nat ×ₗ Nat ×ₗ Nat) : ∀ (pc : PC σ) (tok : Option Token) (b : Bool), P pc.src → Ends (μ pc.src) pc.tokens →
      rank env.g m w skip (left μ pc) pc pc.tokens = M →
      Halts (fun k n => outer { env with pull := pull k } n pc tok b) (fun r => ∀ x, r = .ok x → P x.1.src) := by
  induction M using WellFoundedLT.induction with
  | _ M ih =>
    intro pc tok b hp hends hM
    cases hst : pc.stack with
    | nil =>
      exact .step (g := fun _ _ => .done (.ok (pc, tok, b))) (fun k n => by rw [outer, hst]) (.done fun x hx => by cases hx; exact hp)
    | cons node rest =>
      refine .step (fun k n => by rw [outer, hst]) ?_
      dsimp only
      refine .bind (nextToken_halts hs _ pc hp) ?_
      rintro ⟨pc1, r⟩ hgot
      cases r with
      | error e => exact .done fun x hx => by cases hx
      | ok tok1 =>
        dsimp only at hgot ⊢
        have hl := hgot.left
        simp only [received, weights_cons, weights_nil] at hl
        have hle : rank env.g m w skip (left μ pc1 + weight tok1) pc1 (tok1 :: pc1.tokens) ≤ M := by
          rw [← hM]
          refine rank_le (by omega) ?_ hgot.stack
          unfold debt
          rw [hgot.applied]
          by_cases hc : Clean env.g m pc pc.tokens
          · have : Clean env.g m pc1 (tok1 :: pc1.tokens) := by
              obtain ⟨dl, hdl⟩ := hgot.toks
              refine ⟨by rw [hgot.stack, hgot.applied]; exact hc.1, ?_⟩
              have hdl : tok1 :: pc1.tokens = pc.tokens ++ dl := hdl
              rw [hdl, hgot.applied]
              exact hc.2.append _
            rw [if_pos this]
            omega
          · rw [if_neg hc]
            split <;> omega
        refine .res (inner_halts hs hm hd _ pc1 tok1 hgot.inv (hgot.ends [] hends) rfl) ?_
        rintro ⟨pc2, b2⟩ ⟨hp2, h | ⟨h1, h2⟩⟩
        · exact .step (g := fun _ _ => .done (.ok (pc2, tok1, b2))) (fun k n => by rw [outer, h]) (.done fun x hx => by cases hx; exact hp2)
        · exact ih _ (lt_of_lt_of_le h2 hle) pc2 tok1 b2 hp2 h1 rfl

theorem restLoop_halts (hs : Feeds pull μ P) (b : Nat) : ∀ (pc : PC σ), P pc.src → left μ pc = b →
    Halts (fun k n => restLoop { env with pull := pull k } n pc) (fun r => ∀ x, r = .ok x → True) := by
  induction b using Nat.strong_induction_on with
  | _ b ih =>
    intro pc hp hb
    refine .step (fun k n => by rw [restLoop]) ?_
    refine .bind (nextToken_halts hs _ pc hp) ?_
    rintro ⟨pc1, r⟩ hgot
    rcases r with e | (_ | t)
    · exact .done fun _ _ => trivial
    · exact .panic
    · dsimp only
      by_cases ht : t.type = eoiTokenType
      · refine .congr (fun k n => if_pos ht) ?_
        exact .done fun _ _ => trivial
      · refine .congr (fun k n => if_neg ht) ?_
        by_cases hc : env.g.isSideType t.type = true
        · refine .congr (fun k n => if_pos hc) ?_
          refine ih _ ?_ pc1 hgot.inv rfl
          have ht : t.type ≠ -3 := ht
          have := hgot.left
          simp only [received, weights_cons, weights_nil, weight, if_neg ht] at this
          omega
        · refine .congr (fun k n => if_neg hc) ?_
          exact .done fun _ _ => trivial

theorem putBack_halts {pc : PC σ} {tok : Option Token} {b : Bool} : putBack env pc tok b ≠ .timeout := by
  unfold putBack
  split
  · simp
  · split
    · simp
    · split
      · simp
      · split
        · simp
        · rename_i t _ _
          cases env.unread pc.src t <;> simp [orPanic]

theorem parse_halts_rest {P' : σ → Prop} (hs : Feeds pull μ P)
    (hrest : ∀ pc : PC σ, P' pc.src → Halts (fun k n => restLoop { env with pull := pull k } n pc) (fun r => ∀ x, r = .ok x → True)) (hpp : ∀ src, P src → P' src)
    (hu : ∀ src t src', P src → t.type ≠ -3 → env.unread src t = some src' → P' src') (hm : Means env.g.tables m)
    (hd : Descends env.g m w skip) (src : σ) (hp : P src) (pos : SrcPos) :
    Halts (fun k n => parse { env with pull := pull k } n src pos) (fun r => ∀ x, r = .ok x → True) := by
  unfold parse
  simp only [pushNode_pull]
  refine .res (P := fun pc => pushNode env { src := src } rootNode
    (some { type := anyToken, typeName := "", content := [], pos := pos }) = .done (.ok pc))
    (.const pushNode_halts fun a ha b hb => by rw [ha, hb]) ?_
  intro pc hpc
  unfold parseLoop
  obtain ⟨htok, hsrc⟩ : pc.tokens = [] ∧ pc.src = src := by
    obtain ⟨stack, _, log, rfl⟩ := pushNode_spec hpc
    exact ⟨rfl, rfl⟩
  refine .res (outer_halts hs hm hd _ pc none false (by rw [hsrc]; exact hp) (by rw [htok]; trivial) rfl) ?_
  rintro ⟨pc1, tok, b⟩ hp1
  dsimp only at hp1 ⊢
  unfold finish
  refine .bind (.const (r := putBack env pc1 tok b) putBack_halts (P := fun pc2 => P' pc2.src) ?_) ?_
  · intro pc2 h
    unfold putBack at h
    split at h
    · cases h; exact hpp _ hp1
    · split at h
      · cases h
      · split at h
        · cases h; exact hpp _ hp1
        · rename_i hne
          split at h
          · cases h; exact hpp _ hp1
          · obtain ⟨src', h1, h2⟩ := orPanic_done.mp h
            cases h2
            exact hu _ _ _ hp1 hne h1
  · intro pc2 hp2
    by_cases hc : env.fullSource ∧ ¬ tok.any (fun t => t.type = eoiTokenType)
    · exact .congr (fun k n => if_pos hc) (hrest pc2 hp2)
    · exact .congr (fun k n => if_neg hc) (.done fun _ _ => trivial)

theorem parse_halts {μ' : σ → Nat} {P' : σ → Prop} (hs : Feeds pull μ P) (hs' : Feeds pull μ' P') (hpp : ∀ src, P src → P' src)
    (hu : ∀ src t src', P src → t.type ≠ -3 → env.unread src t = some src' → P' src') (hm : Means env.g.tables m)
    (hd : Descends env.g m w skip) (src : σ) (hp : P src) (pos : SrcPos) :
    Halts (fun k n => parse { env with pull := pull k } n src pos) (fun r => ∀ x, r = .ok x → True) :=
  parse_halts_rest hs (fun pc hp => restLoop_halts hs' _ pc hp rfl) hpp hu hm hd src hp pos

end Verif.Proof
