/-
C51: accepted inputs for grammars in which lookaheads are safe for tokens of the given kind.
-/
import Verif.Props.Sound
import Verif.Proof.ParseTokens

namespace Verif.Props

open Verif.Model Verif.Spec Verif.Spec.Ebnf Verif.Proof

variable {σ : Type}

/-- Tokens handled by the parser are the given ones. -/
theorem given_inv {env : PEnv σ} {P : Option Token → Prop} (hP : Feeds env P) :
    LoopInv env (fun pc tok => replay pc.steps pc.delivered = some (tok :: pc.tokens) ∧ ∀ t ∈ pc.delivered, P t)
      (fun pc => replay pc.steps pc.delivered = some pc.tokens ∧ ∀ t ∈ pc.delivered, P t) := by
  have hloop : ∀ {types fuel pc pc' r}, nextLoop env types fuel pc = .done (pc', r) → (∀ t ∈ pc.delivered, P t) → ∀ t ∈ pc'.delivered, P t := by
    intro types fuel pc pc' r h hd
    induction fuel generalizing pc with
    | zero => simp [nextLoop] at h
    | succ fuel ih =>
      rw [nextLoop, bindRun_done] at h
      obtain ⟨⟨src, q⟩, h1, h⟩ := h
      cases q with
      | error e => cases h; exact hd
      | ok t =>
        dsimp only at h
        split at h
        · exact ih h hd
        · rename_i hn
          cases h
          rw [not_or] at hn
          intro t ht
          rcases List.mem_append.mp ht with ht | ht
          · exact hd t ht
          · rw [List.mem_singleton.mp ht]
            exact hP _ _ _ _ h1 hn.1 hn.2
  have htok : ∀ {types fuel pc pc' r}, nextToken env fuel pc types = .done (pc', r) → (∀ t ∈ pc.delivered, P t) → ∀ t ∈ pc'.delivered, P t := by
    intro types fuel pc pc' r h hd
    rw [nextToken.eq_def] at h
    split at h
    · cases h; exact hd
    · exact hloop h hd
  have hcon : ∀ {fuel pc pc' tok tokens tokens' rc rules}, conflictLoop env fuel pc tok tokens rc = .done (pc', tokens', rules) →
      (∀ t ∈ pc.delivered, P t) → ∀ t ∈ pc'.delivered, P t := by
    intro fuel
    induction fuel with
    | zero => intro pc pc' tok tokens tokens' rc rules h; simp [conflictLoop] at h
    | succ fuel ih =>
      intro pc pc' tok tokens tokens' rc rules h hd
      rw [conflictLoop, bindRun_done] at h
      obtain ⟨rc1, -, h⟩ := h
      dsimp only at h
      split at h
      · obtain ⟨_, -, h⟩ := orPanic_done.mp h
        cases h; exact hd
      · split at h
        · obtain ⟨_, -, h⟩ := orPanic_done.mp h
          cases h; exact hd
        · rw [bindRun_done] at h
          obtain ⟨⟨pc1, r⟩, h3, h⟩ := h
          have hd1 := htok h3 hd
          cases r with
          | error e =>
            obtain ⟨_, -, h⟩ := orPanic_done.mp h
            cases h; exact hd1
          | ok tok' => exact ih h hd1
  refine ⟨?_, ?_⟩
  · rintro fuel pc pc' tok node rest ⟨hj, hd⟩ hs h
    exact ⟨(tokens_inv env).token hj hs h, htok h hd⟩
  · rintro fuel pc pc1 pc2 tok node rest r b ⟨hi, hd⟩ hs h1 h2
    have h3 := (tokens_inv env).step hi hs h1 h2
    have hd1 : ∀ t ∈ pc1.delivered, P t := by
      rw [nextRule.eq_def] at h1
      split at h1
      · cases h1; exact hd
      · obtain ⟨rules, -, h1⟩ := orPanic_done.mp h1
        split at h1
        · cases h1
        · cases h1; exact hd
        · rw [bindRun_done] at h1
          obtain ⟨⟨pc0, toks, rules⟩, h4, h1⟩ := h1
          obtain ⟨r', -, h1⟩ := orPanic_done.mp h1
          cases h1
          rw [resolveConflict] at h4
          obtain ⟨top, -, h4⟩ := orPanic_done.mp h4
          have := hcon h4 hd
          exact this
    obtain ⟨-, stack, log, last, rfl⟩ := applyRule_spec h2
    cases b
    · exact ⟨h3, hd1⟩
    · exact ⟨h3, hd1⟩

/-- Consumed tokens are the given ones. -/
theorem consumed_given {env : PEnv σ} {P : Option Token → Prop} (hP : Feeds env P) {fuel : Nat} {src : σ} {pos : SrcPos} {pc : PC σ}
    (h : parse env fuel src pos = .done (.ok pc)) : ∀ t ∈ consumedBy pc.steps, P t := by
  obtain ⟨pc1, tok, b, h1, h2, h3⟩ := parse_inv (given_inv hP) h (fun pc0 h0 => by
    obtain ⟨_, _, _, rfl⟩ := pushNode_spec h0
    exact ⟨rfl, by simp⟩)
  obtain ⟨src', ts, dl, read, rfl, -⟩ := finish_spec h3
  have key : ∀ rest, replay pc1.steps pc1.delivered = some rest → (∀ t ∈ pc1.delivered, P t) → ∀ t ∈ consumedBy pc1.steps, P t := by
    intro rest hr hd t ht
    refine hd t ?_
    rw [replay_consumed _ _ _ hr]
    exact List.mem_append_left _ ht
  cases b with
  | true => exact key _ h2.1 h2.2
  | false => exact key _ h2.1 h2.2

/-- A successful parse with a compiled grammar: the told tree is described by the grammar, symbols stand for ordinary tokens. -/
theorem accepted_words {upper : List Nat → List Nat} {find : Nat → List Nat → List Nat} {ts : List GToken}
    {bodies : List Chunk} {order1 order2 order3 : List Nat} {fuel : Nat} {g : Grammar}
    (h : Compiled upper find ts bodies order1 order2 order3 fuel g) (hloop : ∀ c ∈ bodies, LoopOk true c)
    (hsafe : SafeMachines bodies order2 order3 fuel) (hd : DistinctLiterals g)
    (env : PEnv σ) (henv : env.g = g) {P : Option Token → Prop} (hP : Feeds env P) (hlook : SafeLookaheadOn P env.g env.upper)
    {fuel' : Nat} {src : σ} {pos : SrcPos} {pc : PC σ} (hp : parse env fuel' src pos = .done (.ok pc)) :
    ∃ items, leavesOf items = (consumedBy pc.steps).reduceOption ∧
      (∃ w, (∃ c, bodies[rootNode]? = some c ∧ w ∈ lang c) ∧
        Spells (fun x t => (∃ k, x = .tok k ∧ MatchesAs g env.upper t k) ∧ g.isSideType t.type = false)
          (fun t => g.isSideType t.type = true) (fun i w => ∃ c, bodies[i]? = some c ∧ w ∈ lang c) w items) ∧
      (∀ t ∈ leavesOf items, P (some t)) ∧
      Closed env (fun tok s r => ∃ rules, findRules env.g env.upper tok s = some rules ∧ r ∈ rules) (some (rootToken pos)) items
        pc.log pc.lastResult ∧ ∀ x ∈ items, Tidy env.g x := by
  subst henv
  obtain ⟨m, hm, hst, hlen, hacc⟩ := C51_compiled_language_partial h hloop hsafe
  obtain ⟨items, hclosed, h4, htidy⟩ := parse_closed
    (P := fun tok s r => ∃ rules, findRules env.g env.upper tok s = some rules ∧ r ∈ rules) (follows_inv_on hP hlook)
    (fun hi hs h => follows_rule_on hP hlook hi.1 hi.2.1 hi.2.2 hs h)
    (fun pc0 h0 => by obtain ⟨_, _, _, rfl⟩ := pushNode_spec h0; exact ⟨follows_nil rfl, by simp⟩) hp
  have hclosed' := hclosed
  obtain ⟨hooks, results, -, ⟨f, hf, hw⟩, -⟩ := hclosed'
  obtain ⟨w, h5, h6⟩ := walk_spells (g := env.g) (upper := env.upper) (m := m) (rel := fun x t => Loose env.g env.upper x t ∧ env.g.isSideType t.type = false) (by
      intro x t n k r hr hk hx hn hns ht
      refine ⟨?_, hns⟩
      unfold Rule.reads at hx
      rw [if_pos (show _ = sameNode from hn)] at hx
      split at hx
      · cases hx
      · split at hx
        · cases hx
          rcases ht with ⟨i, rfl, ht⟩ | ⟨h0, -⟩
          · rw [hk]; simpa [Loose] using ht
          · omega
        · cases hx
          rcases ht with ⟨i, rfl, ht⟩ | ⟨h0, ht⟩
          · omega
          · rw [Loose, ht]; exact h0)
    (fun tok s r ⟨rules, h1, h2⟩ => findRules_usable hm hd h1 h2) hst hw
  have h7 := h6 [] .final
  rw [List.append_nil] at h7
  have hL : ∀ (i f : Nat) (u : List Sym), env.g.firsts[i]? = some f → Accepts m f u →
      (∃ c, bodies[i]? = some c ∧ u ∈ lang c) ∧ ∀ x ∈ u, x ≠ Sym.eoi := by
    intro i f u hf hu
    have hi : i < bodies.length := by rw [← hlen]; exact (List.getElem?_eq_some_iff.mp hf).1
    have hc := List.getElem?_eq_getElem hi
    have hin := (hacc i _ f hc hf u).mp hu
    refine ⟨⟨_, hc, hin⟩, ?_⟩
    rintro x hx rfl
    exact lang_noEoi _ (loopOk_noEoi true _ (hloop _ (List.getElem_mem hi))) u hin hx
  obtain ⟨h8, h9⟩ := hL _ _ _ hf h7
  refine ⟨items, h4, ⟨w, h8, ?_⟩, ?_, hclosed, htidy⟩
  · refine spells_mono (Q := fun x => x ≠ .eoi) ?_ ?_ h5 h9
    · rintro x t hq ⟨hx, hns⟩
      cases x with
      | tok k => exact ⟨⟨k, rfl, hx⟩, hns⟩
      | eoi => exact absurd rfl hq
      | node i => exact hx.elim
    · rintro i u - ⟨f, hf, hu⟩
      exact hL i f u hf hu
  · intro t ht
    rw [h4] at ht
    exact consumed_given hP hp _ (List.reduceOption_mem_iff.mp ht)

/-- The told tree is described by the grammar. -/
theorem accepted_tree {upper : List Nat → List Nat} {find : Nat → List Nat → List Nat} {ts : List GToken}
    {bodies : List Chunk} {order1 order2 order3 : List Nat} {fuel : Nat} {g : Grammar}
    (h : Compiled upper find ts bodies order1 order2 order3 fuel g) (hloop : ∀ c ∈ bodies, LoopOk true c)
    (hsafe : SafeMachines bodies order2 order3 fuel) (hd : DistinctLiterals g)
    (env : PEnv σ) (henv : env.g = g) {P : Option Token → Prop} (hP : Feeds env P) (hlook : SafeLookaheadOn P env.g env.upper)
    {fuel' : Nat} {src : σ} {pos : SrcPos} {pc : PC σ} (hp : parse env fuel' src pos = .done (.ok pc)) :
    ∃ items, leavesOf items = (consumedBy pc.steps).reduceOption ∧
      Described g env.upper (fun i w => ∃ c, bodies[i]? = some c ∧ w ∈ lang c) items ∧ (∀ t ∈ leavesOf items, P (some t)) ∧
      Closed env (fun tok s r => ∃ rules, findRules env.g env.upper tok s = some rules ∧ r ∈ rules) (some (rootToken pos)) items
        pc.log pc.lastResult := by
  obtain ⟨items, h1, ⟨w, h2, h3⟩, h4, h6, -⟩ := accepted_words h hloop hsafe hd env henv hP hlook hp
  refine ⟨items, h1, ⟨w, h2, spells_mono (Q := fun _ => True) ?_ (fun _ _ _ h => ⟨h, fun _ _ => trivial⟩) h3 fun _ _ => trivial⟩, h4, h6⟩
  rintro x t - ⟨⟨k, rfl, h5⟩, -⟩
  exact h5

end Verif.Props
