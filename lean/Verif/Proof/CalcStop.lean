/-
The parser of the calculator stops at a token which is put back.
-/
import Mathlib.Data.List.TakeWhile
import Verif.Proof.Wide
import Verif.Proof.CalcAhead
import Verif.Proof.CutsWhole

namespace Verif.Proof.Calc

open Verif.Model Verif.Model.Calc Verif.Spec Verif.Spec.Calc Verif.Proof
open Verif.Model.Tree (bindRun)

/-! ### Lookaheads -/

theorem nil_shapes : ∀ sh ∈ shapes, ∀ x ∈ combine 0 sh, ∀ y ∈ combine 0 x, y.length ≤ 1 := by
  decide +kernel

theorem nil_rules : ∀ s ∈ (List.range 31).map Int.ofNat, ((findRules grammar id none s).map List.length).getD 0 ≤ 1 := by
  decide +kernel

theorem state_mem {upper : List Nat → List Nat} {tok : Option Token} {s : Int} {rules : List Rule} (hr : findRules grammar upper tok s = some rules) :
    s ∈ (List.range 31).map Int.ofNat := by
  rw [findRules, Option.bind_eq_some_iff] at hr
  obtain ⟨gs, hgs, -⟩ := hr
  unfold Go.index at hgs
  split at hgs
  · have := (List.getElem?_eq_some_iff.mp hgs).1
    have h31 : grammar.tables.states.length = 31 := by decide
    exact List.mem_map.mpr ⟨s.toNat, List.mem_range.mpr (by omega), by simp; omega⟩
  · cases hgs

/-- There is no conflict without a token. -/
theorem conflict_token {upper : List Nat → List Nat} {tok : Option Token} {s : Int} {rules : List Rule}
    (hr : findRules grammar upper tok s = some rules) (hl : 1 < rules.length) : tok ≠ none := by
  rintro rfl
  have h1 : findRules grammar id none s = some rules := hr
  have := nil_rules s (state_mem hr)
  rw [h1] at this
  simp at this
  omega

/-- Shapes of branches after the given tokens. -/
def Shaped (ts : List (Option Token)) (sh : List Cls) : Prop :=
  sh ∈ shapes ∧ (∀ c, ts = c ++ [none] → ∃ x ∈ shapes, sh ∈ combine 0 x) ∧ ∀ c, ts = c ++ [none, none] → sh.length ≤ 1

/-- There is at most one branch after two refused requests. -/
theorem calc_narrow {upper : List Nat → List Nat} {f : Frame} {tok0 : Option Token} {rules : List Rule} (hg : Given tok0)
    (hr : findRules grammar upper tok0 f.state = some rules) (hl : 1 < rules.length) {ts c : List (Option Token)} {L : List Branch}
    (hR : Rounds grammar upper ⟨[f], []⟩ (tok0 :: ts) L) (hall : ∀ t ∈ ts, Given t) (he : tok0 :: ts = c ++ [none, none]) : L.length ≤ 1 := by
  have tr : ∀ {tok : Option Token}, Given tok → ∃ k ∈ kinds, k.isNone = tok.isNone ∧ (∀ s, findRules grammar upper tok s = findRules grammar id k s) ∧
      ∀ {st N}, TracedTo grammar upper tok st N →
        ∃ n, traceStates (findRules grammar id k) grammar.firsts k.isNone n [st] [] = some N := by
    intro tok h
    obtain ⟨k, h1, h2, h3⟩ := given_kind (upper := upper) h
    refine ⟨k, h1, h2, h3, ?_⟩
    rintro st N ⟨n, hn⟩
    rw [show findRules grammar upper tok = findRules grammar id k from funext h3, ← h2] at hn
    exact ⟨n, hn⟩
  have hne := conflict_token hr hl
  have start : ∀ N, TracedTo grammar upper tok0 [f.state] N → ∃ sh, Shaped [tok0] sh ∧ List.Forall₂ In sh N := by
    intro N hN
    obtain ⟨k, hk, -, h1, h2⟩ := tr hg
    obtain ⟨n, hn⟩ := h2 hN
    rw [h1] at hr
    obtain ⟨sh, h3, h4⟩ := start_shape hk hr hl hn
    refine ⟨sh, ⟨h3, ?_, ?_⟩, h4⟩
    · intro c hc
      have := congrArg List.getLast? hc
      simp at this
      exact absurd this hne
    · intro c hc
      have := congrArg List.length hc
      simp at this
  have next : ∀ tok, Given tok → ∀ ts sh, Shaped ts sh → ∀ L Ns, List.Forall₂ In sh L → List.Forall₂ (TracedTo grammar upper tok) L Ns →
      ∃ sh', Shaped (ts ++ [tok]) sh' ∧ List.Forall₂ In sh' Ns.flatten := by
    intro tok hgt ts sh hsh L Ns hL hNs
    obtain ⟨k, hk, hkn, h1, h2⟩ := tr hgt
    obtain ⟨hsh, hs1, -⟩ := hsh
    obtain ⟨e1, -, e3⟩ := shapes_closed _ hsh
    have : ∀ {sh : List Cls} {L Ns}, (∀ c ∈ sh, Met c = true) → List.Forall₂ In sh L → List.Forall₂ (TracedTo grammar upper tok) L Ns →
        List.Forall₂ (Gives (keyOf k)) sh Ns := by
      intro sh L Ns hm hL
      induction hL generalizing Ns with
      | nil => intro h; cases h; exact .nil
      | @cons c st sh L h3 _ ih =>
        intro h
        cases h with
        | cons h4 h5 =>
          obtain ⟨n, hn⟩ := h2 h4
          exact .cons (trace_class hk (hm c (by simp)) h3 n hn) (ih (fun c hc => hm c (by simp [hc])) h5)
    obtain ⟨x, e4, e5⟩ := combine_gives (this e1 hL hNs)
    have hzero : tok = none → keyOf k = 0 := by
      rintro rfl
      exact keyOf_none hkn
    refine ⟨x, ⟨e3 k hk x e4, ?_, ?_⟩, e5⟩
    · intro c hc
      obtain ⟨-, hc⟩ := List.append_inj' hc rfl
      rw [hzero (by simpa using hc)] at e4
      exact ⟨sh, hsh, e4⟩
    · intro c hc
      rw [show c ++ [none, none] = (c ++ [none]) ++ [none] by simp] at hc
      obtain ⟨hc1, hc2⟩ := List.append_inj' hc rfl
      rw [hzero (by simpa using hc2)] at e4
      obtain ⟨y, hy1, hy2⟩ := hs1 _ hc1
      exact nil_shapes _ hy1 _ hy2 _ e4
  obtain ⟨sh, ⟨-, -, h1⟩, h2⟩ := rounds_shaped start next hR (by
    intro t ht
    rcases List.mem_cons.mp ht with rfl | ht
    · exact hg
    · exact hall t ht) ts rfl
  have := h1 c he
  rw [h2.length_eq, List.length_map] at this
  exact this

/-! ### Stacks -/

/-- Stacks of states of the calculator: nodes over ended ones are the root, expressions, assignments and definitions; values and calls are
over powers. -/
def Fine : List Int → Prop
  | [] => True
  | s :: l => ((∀ x ∈ l, x = -1) → s ≤ 15) ∧ (22 ≤ s → (l.dropWhile (· = -1)).head? = some 20) ∧ Fine l

theorem fine_drop {l : List Int} (h : Fine l) : Fine (l.dropWhile (· = -1)) := by
  induction l with
  | nil => exact h
  | cons s l ih =>
    rw [List.dropWhile_cons]
    split
    · exact ih h.2.2
    · exact h

/-- A check of rules: states. -/
def moveCheck (s : Int) (r : Rule) : Bool :=
  (decide (s ≤ 15 → after r s ≤ 15) && decide (22 ≤ after r s → 22 ≤ s)) &&
    (decide (r.node ≠ -1 → after r s = -1 → s ≤ 15 → ((grammar.firsts[r.node.toNat]?).getD 0 : Int) ≤ 15) &&
      decide (r.node ≠ -1 → 22 ≤ ((grammar.firsts[r.node.toNat]?).getD 0 : Int) → after r s = 20 ∨ after r s = -1 ∧ 22 ≤ s))

/-- A check of rules: used tokens. -/
def useCheck (k : Option Token) (s : Int) (r : Rule) : Bool :=
  if k.isNone then decide (r.node = -1) && decide (after r s = -1 → s = 3 ∨ 16 ≤ s)
  else decide (r.node = -1 → r.token ≠ -1 → after r s = -1 → 22 ≤ s) && decide (r.node = -1 → r.token ≠ -1 → after r s ≠ 3)

/-- A check of rules. -/
def stepCheck (k : Option Token) (s : Int) (r : Rule) : Bool := moveCheck s r && useCheck k s r

theorem step_table : ∀ k ∈ kinds, ∀ s ∈ (List.range 31).map Int.ofNat, ((findRules grammar id k s).getD []).all (stepCheck k s) = true := by
  decide +kernel

/-- What is known about a rule. -/
theorem step_known {upper : List Nat → List Nat} {tok : Option Token} (hg : Given tok) {s : Int} {rules : List Rule} {r : Rule}
    (hr : findRules grammar upper tok s = some rules) (hm : r ∈ rules) : stepCheck tok s r = true := by
  obtain ⟨k, h1, h2, h3⟩ := given_kind (upper := upper) hg
  have := step_table k h1 s (state_mem hr)
  rw [← h3, hr, Option.getD_some, List.all_eq_true] at this
  have := this r hm
  rw [stepCheck, useCheck, h2] at this
  exact this

theorem step_fine {upper : List Nat → List Nat} {tok : Option Token} (hg : Given tok) {s : Int} {rules : List Rule} {r : Rule}
    (hr : findRules grammar upper tok s = some rules) (hm : r ∈ rules) {l top : List Int} (hf : Fine (s :: l))
    (ht : (r.node = -1 ∧ top = [after r s]) ∨ ∃ i f1 : Nat, r.node = (i : Int) ∧ grammar.firsts[i]? = some f1 ∧ top = [(f1 : Int), after r s]) :
    Fine ((top ++ l).dropWhile (· = -1)) ∧
      (consumes r tok = true → (top ++ l).dropWhile (· = -1) = [] → tok = none ∧ s = 3) ∧
      (consumes r tok = true → ((top ++ l).dropWhile (· = -1)).head? = some 3 → tok = none) := by
  have hc := step_known hg hr hm
  simp only [stepCheck, moveCheck, useCheck, Bool.and_eq_true, decide_eq_true_eq] at hc
  obtain ⟨⟨⟨c1, c2⟩, c3, c3'⟩, hc⟩ := hc
  have c4 : tok.isNone = false → r.node = -1 → r.token ≠ -1 → (after r s = -1 → 22 ≤ s) ∧ after r s ≠ 3 := by
    intro h a b
    rw [h] at hc
    simp only [Bool.false_eq_true, if_false, Bool.and_eq_true, decide_eq_true_eq] at hc
    exact ⟨hc.1 a b, hc.2 a b⟩
  have c5 : tok.isNone = true → r.node = -1 ∧ (after r s = -1 → s = 3 ∨ 16 ≤ s) := by
    intro h
    rw [h] at hc
    simpa only [if_true, Bool.and_eq_true, decide_eq_true_eq] using hc
  obtain ⟨f1, f2, f3⟩ := hf
  have ha : Fine (after r s :: l) := ⟨fun h => c1 (f1 h), fun h => f2 (c2 h), f3⟩
  have hone : consumes r tok = true → r.node = -1 := by
    intro h
    rw [consumes_spec] at h
    rcases h with h | h
    · exact h.1
    · exact (c5 (by rw [h]; rfl)).1
  refine ⟨fine_drop ?_, ?_, ?_⟩
  · rcases ht with ⟨-, rfl⟩ | ⟨i, f, e1, e2, rfl⟩
    · exact ha
    · have d1 := c3 (by rw [e1]; omega)
      have d2 := c3' (by rw [e1]; omega)
      rw [e1, Int.toNat_natCast, e2, Option.getD_some] at d1 d2
      refine ⟨fun h => d1 (h _ (by simp)) (f1 fun x hx => h x (by simp [hx])), fun h => ?_, ha⟩
      rcases d2 h with e | ⟨e, e'⟩
      · change (List.dropWhile (fun x => decide (x = -1)) (after r s :: l)).head? = some 20
        rw [List.dropWhile_cons, if_neg (by rw [e]; decide), e]; rfl
      · change (List.dropWhile (fun x => decide (x = -1)) (after r s :: l)).head? = some 20
        rw [List.dropWhile_cons, if_pos (by rw [e]; decide)]
        exact f2 e'
  · intro hcon he
    have hn := hone hcon
    obtain ⟨-, rfl⟩ : r.node = -1 ∧ top = [after r s] := by
      rcases ht with h | ⟨i, f, e1, -⟩
      · exact h
      · rw [hn] at e1; omega
    rw [List.dropWhile_eq_nil_iff] at he
    have h1 : after r s = -1 := by simpa using he (after r s) (by simp)
    have h2 : ∀ x ∈ l, x = -1 := fun x hx => by simpa using he x (by simp [hx])
    have h3 := f1 h2
    cases tok with
    | none =>
      refine ⟨rfl, ?_⟩
      rcases (c5 rfl).2 h1 with h | h <;> omega
    | some t =>
      rw [consumes_spec] at hcon
      have := (c4 rfl hn (by rcases hcon with h | h; exact h.2; cases h)).1 h1
      omega
  · intro hcon he
    have hn := hone hcon
    obtain ⟨-, rfl⟩ : r.node = -1 ∧ top = [after r s] := by
      rcases ht with h | ⟨i, f, e1, -⟩
      · exact h
      · rw [hn] at e1; omega
    cases tok with
    | none => rfl
    | some t =>
      exfalso
      rw [consumes_spec] at hcon
      obtain ⟨d1, d2⟩ := c4 rfl hn (by rcases hcon with h | h; exact h.2; cases h)
      rw [List.singleton_append, List.dropWhile_cons] at he
      split at he
      · rename_i h1
        rw [f2 (d1 (by simpa using h1))] at he
        cases he
      · simp only [List.head?_cons, Option.some.injEq] at he
        exact d2 he

/-! ### The parse -/

/-- The last consumed token is a refused request. -/
def Ends (n : Nat) (steps : List (Option Token × Rule)) : Prop := ∃ c, consumedBy steps = c ++ List.replicate n none

/-- No token follows two refused requests. -/
def NoPat (d : List (Option Token)) : Prop := ∀ c x, d ≠ c ++ [none, none, x]

theorem consumed_snoc (steps : List (Option Token × Rule)) {tok : Option Token} {r : Rule} (h : consumes r tok = true) :
    consumedBy (steps ++ [(tok, r)]) = consumedBy steps ++ [tok] := by
  rw [consumes_iff] at h
  simp [consumedBy, List.filter_append, h]

variable {σ : Type}

/-- The invariant while a token is handled. -/
def StopI (pc : PC σ) (tok : Option Token) : Prop :=
  Fine (nodeStates pc.stack) ∧ (tok = none → (nodeStates pc.stack).head? = some 3 → Ends 1 pc.steps) ∧ (pc.tokens ≠ [] → NoPat pc.delivered)

/-- The invariant before a token is got. -/
def StopJ (pc : PC σ) : Prop :=
  Fine (nodeStates pc.stack) ∧ ((nodeStates pc.stack).head? = some 3 → Ends 1 pc.steps) ∧ (pc.stack = [] → Ends 2 pc.steps) ∧
    (pc.tokens ≠ [] → NoPat pc.delivered)

theorem stop_inv {env : PEnv σ} (hg : env.g = grammar) (hP : Spec.Feeds env Given) {K : σ → List (Option Token) → Prop} {P : σ → Option Token → Prop}
    (hfeed : Feed env K P) (hPQ : ∀ s t, P s t → Given t) :
    LoopInv env
      (fun pc tok => ((Follows env pc (tok :: pc.tokens) ∧ Given tok ∧ ∀ t ∈ pc.tokens, Given t) ∧
        (StateTypes env.g pc.stack ∧ K pc.src pc.delivered ∧ Pending P pc.src (tok :: pc.tokens) pc.applied) ∧
        replay pc.steps pc.delivered = some (tok :: pc.tokens)) ∧ StopI pc tok)
      (fun pc => ((Follows env pc pc.tokens ∧ ∀ t ∈ pc.tokens, Given t) ∧
        (StateTypes env.g pc.stack ∧ K pc.src pc.delivered ∧ Pending P pc.src pc.tokens pc.applied) ∧
        replay pc.steps pc.delivered = some pc.tokens) ∧ StopJ pc) := by
  have hsafe : SafeLookaheadOn Given env.g env.upper := by rw [hg]; exact calc_safe _
  have base := loopInv_and (follows_inv_on hP hsafe) (loopInv_and (ahead_inv_on hP hsafe hfeed hPQ) (tokens_inv env))
  refine ⟨?_, ?_⟩
  · rintro fuel pc pc' tok node rest ⟨hb, h1, h2, h3, h4⟩ hs h
    refine ⟨base.token hb hs h, ?_⟩
    rw [nextToken] at h
    cases ht : pc.tokens with
    | cons t ts =>
      rw [ht] at h
      cases h
      exact ⟨h1, fun _ => h2, fun _ => h4 (by rw [ht]; simp)⟩
    | nil =>
      rw [ht] at h
      obtain ⟨src, rfl⟩ := nextLoop_spec fuel h
      exact ⟨h1, fun _ => h2, fun hn => absurd ht hn⟩
  · rintro fuel pc pc1 pc2 tok node rest r b ⟨hb, h1, h2, h3⟩ hs hn ha
    have hfin := base.step hb hs hn ha
    obtain ⟨⟨hfol, htok, hpc⟩, ⟨hst, hk, hpend⟩, hrep⟩ := hb
    obtain ⟨rules, hr, hm⟩ := follows_rule_on hP hsafe hfol htok hpc hs hn
    have hkeep : pc1.stack = pc.stack ∧ pc1.steps = pc.steps ∧ (pc1.tokens ≠ [] → NoPat pc1.delivered) := by
      rw [nextRule] at hn
      cases hap : pc.applied with
      | cons a as =>
        rw [hap] at hn
        cases hn
        exact ⟨rfl, rfl, h3⟩
      | nil =>
        rw [hap] at hn hpend
        obtain ⟨hnil, hp⟩ := pending_none hpend
        obtain ⟨rules', hr', hn⟩ := orPanic_done.mp hn
        match rules', hr', hn with
        | [], _, hn => cases hn
        | [x], _, hn => cases hn; exact ⟨rfl, rfl, h3⟩
        | x :: y :: zs, hr', hn =>
          dsimp only at hn
          rw [bindRun_done] at hn
          obtain ⟨⟨pc0, toks, rs⟩, h6, hn⟩ := hn
          dsimp only at hn
          obtain ⟨r', -, hn⟩ := orPanic_done.mp hn
          cases hn
          have hts := (resolve_kept hP hsafe hfeed hPQ hs hst hr' (by simp) hnil hk hp h6).1
          have hwide := resolve_wide hP hsafe hs hr' (by simp) htok hpc h6
          obtain ⟨-, -, hgiven, -⟩ := resolve_chosen_on hP hsafe hs hr' (by simp) htok hpc h6
          have hsome : tok ≠ none := conflict_token (by rw [← hg]; exact hr') (by simp)
          rw [resolveConflict] at h6
          obtain ⟨top, -, h6⟩ := orPanic_done.mp h6
          obtain ⟨src, ts, dl, more, rfl, e2, e3⟩ := conflictLoop_spec fuel h6
          rw [List.nil_append] at e2
          subst e2
          refine ⟨rfl, rfl, ?_⟩
          simp only [List.drop_one, List.tail_cons]
          intro hne c x he
          rw [hnil] at hrep e3
          rw [List.nil_append] at e3
          rw [replay_consumed _ _ _ hrep, List.append_assoc, ← e3, List.singleton_append] at he
          have hts : ts = [] := hts
          subst hts
          rw [List.append_nil] at he hne
          rcases List.eq_nil_or_concat more with rfl | ⟨m1, x1, rfl⟩
          · exact hne rfl
          rw [List.concat_eq_append] at he hwide hgiven
          rw [show consumedBy pc.steps ++ tok :: (m1 ++ [x1]) = (consumedBy pc.steps ++ tok :: m1) ++ [x1] by simp,
            show c ++ [none, none, x] = (c ++ [none, none]) ++ [x] by simp] at he
          obtain ⟨he, -⟩ := List.append_inj' he rfl
          rcases List.eq_nil_or_concat m1 with rfl | ⟨m2, x2, rfl⟩
          · rw [show c ++ [none, none] = (c ++ [none]) ++ [none] by simp] at he
            obtain ⟨-, he⟩ := List.append_inj' he rfl
            exact hsome (by simpa using he)
          rw [List.concat_eq_append] at he hwide hgiven
          rw [show consumedBy pc.steps ++ tok :: (m2 ++ [x2]) = (consumedBy pc.steps ++ tok :: m2) ++ [x2] by simp,
            show c ++ [none, none] = (c ++ [none]) ++ [none] by simp] at he
          obtain ⟨he, hx2⟩ := List.append_inj' he rfl
          rcases List.eq_nil_or_concat m2 with rfl | ⟨m3, x3, rfl⟩
          · obtain ⟨-, he⟩ := List.append_inj' he rfl
            exact hsome (by simpa using he)
          rw [List.concat_eq_append] at he hwide hgiven
          rw [show consumedBy pc.steps ++ tok :: (m3 ++ [x3]) = (consumedBy pc.steps ++ tok :: m3) ++ [x3] by simp] at he
          obtain ⟨-, hx3⟩ := List.append_inj' he rfl
          simp only [List.cons.injEq, and_true] at hx2 hx3
          subst hx2 hx3
          obtain ⟨L, hL, hlen⟩ := hwide (tok :: (m3 ++ [none] ++ [none])) [x1] (by simp) (by simp) (by simp)
          rw [hg] at hL hr'
          have := calc_narrow (c := tok :: m3) htok hr' (by simp) hL (fun t ht => hgiven t (by
            simp only [List.mem_cons, List.mem_append] at ht ⊢
            tauto)) (by simp)
          omega
    obtain ⟨e1, e2, e3⟩ := hkeep
    obtain ⟨top, t1, t2, t3⟩ := applyRule_states (by rw [e1]; exact hs) ha
    rw [hg] at hr t1
    rw [hs] at h1
    have h1' : Fine (node.state :: nodeStates rest) := h1
    obtain ⟨g1, g2, g3⟩ := step_fine htok hr hm h1' t1
    rw [← t2] at g1 g2 g3
    rw [← t3] at g2 g3
    obtain ⟨-, stack, log, last, rfl⟩ := applyRule_spec ha
    cases b with
    | false =>
      refine ⟨hfin, g1, ?_, e3⟩
      rintro rfl
      rw [consumes] at t3
      simp at t3
    | true =>
      have hsnoc := consumed_snoc pc1.steps t3.symm
      refine ⟨hfin, g1, ?_, ?_, e3⟩
      · intro h
        have := g3 rfl h
        subst this
        exact ⟨_, hsnoc⟩
      · intro h
        have h : stack = [] := h
        obtain ⟨e4, e5⟩ := g2 rfl (by rw [h]; rfl)
        subst e4
        obtain ⟨c, hc⟩ := h2 rfl (by rw [hs]; simp [nodeStates, e5])
        refine ⟨c, ?_⟩
        rw [hsnoc, e2, hc]
        simp

/-- When the root node ends nothing but the last token is left. -/
theorem calc_stops {env : PEnv σ} (hg : env.g = grammar) (hP : Spec.Feeds env Given) {K : σ → List (Option Token) → Prop} {P : σ → Option Token → Prop}
    (hfeed : Feed env K P) (hPQ : ∀ s t, P s t → Given t) {fuel : Nat} {src : σ} {pos : SrcPos} {pc : PC σ}
    (h : parse env fuel src pos = .done (.ok pc)) (h0 : K src []) :
    ∃ pc1 tok b, K pc1.src pc1.delivered ∧ replay pc1.steps pc1.delivered = some (if b then [] else [tok]) ∧
      finish env fuel pc1 tok b = .done (.ok pc) := by
  obtain ⟨pc1, tok, b, h1, h2, h3⟩ := parse_inv (stop_inv hg hP hfeed hPQ) h (by
    intro pc0 hp
    have htypes := pushNode_types (pc := { src := src }) (by intro n hn; cases hn) hp
    have hs : nodeStates pc0.stack = [0] := by
      rw [pushNode] at hp
      obtain ⟨f, h4, h5⟩ := addNode_states hp
      rw [hg] at h4
      cases h4
      exact h5
    obtain ⟨_, _, _, rfl⟩ := pushNode_spec hp
    refine ⟨⟨⟨follows_nil rfl, by simp⟩, ⟨htypes, h0, true, .nil, by simp⟩, rfl⟩, ?_, ?_, ?_, by simp⟩
    · rw [hs]; simp [Fine]
    · rw [hs]; simp
    · intro h
      simp only at h
      rw [h] at hs
      cases hs)
  refine ⟨pc1, tok, b, ?_, ?_, h3⟩
  · cases b with
    | true => exact h2.1.2.1.2.1
    | false => exact h2.1.2.1.2.1
  · cases b with
    | false =>
      obtain ⟨⟨⟨f1, -⟩, ⟨-, -, f2⟩, f3⟩, -⟩ := h2
      rw [follows_end f1 h1] at f2
      rw [(pending_none f2).1] at f3
      exact f3
    | true =>
      obtain ⟨⟨⟨f1, -⟩, ⟨-, -, f2⟩, f3⟩, -, -, f4, f5⟩ := h2
      rw [follows_end f1 h1] at f2
      obtain ⟨bb, f2, -⟩ := f2
      obtain ⟨c, f4⟩ := f4 h1
      have hd := replay_consumed _ _ _ f3
      rw [f4] at hd
      cases ht : pc1.tokens with
      | nil => rw [ht] at f3; exact f3
      | cons t ts =>
        exfalso
        rw [ht] at f2
        cases f2
        exact f5 (by rw [ht]; simp) c t (by rw [hd, ht]; simp)

end Verif.Proof.Calc
