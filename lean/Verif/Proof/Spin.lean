/-
Parses that never stop.
-/
import Verif.Proof.Parse

namespace Verif.Proof

open Verif Verif.Model
open Verif.Model.Tree (bindRun)

variable {σ : Type}

/-- A rule for any token that leads to the same state is used forever. -/
theorem inner_spins {env : PEnv σ} {t : Token} {s : Nat} {gs : GState} (hg : env.g.tables.states[s]? = some gs)
    (hf : findRules env.g env.upper (some t) s = some [⟨-1, s, -1⟩]) (n : Nat) (pc : PC σ) (ha : pc.applied = [])
    (hs : ∃ nd rest, pc.stack = nd :: rest ∧ nd.state = s) : inner env n pc (some t) = .timeout := by
  induction n generalizing pc with
  | zero => rfl
  | succ n ih =>
    obtain ⟨nd, rest, hst, hnd⟩ := hs
    have h1 : nextRule env n pc (some t) nd.state = .done (pc, some ⟨-1, s, -1⟩) := by
      rw [nextRule, ha, hnd]
      simp only [hf, orPanic]
    have hi : Go.index env.g.tables.states (s : Int) = some gs := by
      unfold Go.index
      rw [if_pos (by omega)]
      simpa using hg
    obtain ⟨pc', h2, h3, h4⟩ : ∃ pc', applyRule env pc (some t) ⟨-1, s, -1⟩ = .done (.ok (pc', false)) ∧ pc'.applied = [] ∧
        ∃ nd rest, pc'.stack = nd :: rest ∧ nd.state = s := by
      unfold applyRule
      rw [hst]
      have hne1 : ¬ ((s : Int) = repeatState) := by unfold repeatState; omega
      have hne2 : ¬ ((s : Int) = finalState) := by unfold finalState; omega
      simp only [moveFrame, if_neg hne1, if_neg hne2, hi, Option.map_some, orPanic, sameNode, ne_eq, not_true_eq_false, if_false,
        bindRes, bindRun, consumes, anyToken, and_false, false_or, reduceCtorEq, decide_false, Bool.false_eq_true]
      exact ⟨_, rfl, ha, _, _, rfl, rfl⟩
    rw [inner, hst]
    simp only [h1, bindRun, h2, bindRes, Bool.false_eq_true, if_false]
    exact ih pc' h3 h4

/-- A node that consists of the end of input is repeated forever at the end of input. -/
theorem inner_ends {env : PEnv σ} (hl : env.layers = 0) {s i f : Nat} {gs gs' : GState} (hg : env.g.tables.states[s]? = some gs)
    (hff : env.g.firsts[i]? = some f) (hg' : env.g.tables.states[f]? = some gs')
    (hf : findRules env.g env.upper (some eoiToken) s = some [⟨-3, s, i⟩])
    (hf' : findRules env.g env.upper (some eoiToken) f = some [⟨-3, -1, -1⟩]) (n : Nat) (pc : PC σ) (ha : pc.applied = []) {nd : NodeRec}
    (hs : pc.stack = [nd]) (hh : nd.hooks = []) (hsd : nd.sides = []) (hnd : nd.state = s) : inner env n pc (some eoiToken) = .timeout ∨
      ∃ pc', inner env n pc (some eoiToken) = .done (.ok (pc', true)) ∧ pc'.applied = [] ∧ pc'.src = pc.src ∧ pc'.tokens = pc.tokens ∧
        ∃ nd', pc'.stack = [nd'] ∧ nd'.hooks = [] ∧ nd'.sides = [] ∧ nd'.state = s := by
  rcases n with _ | n
  · exact .inl rfl
  have h1 : nextRule env n pc (some eoiToken) nd.state = .done (pc, some ⟨-3, s, i⟩) := by
    rw [nextRule, ha, hnd]
    simp only [hf, orPanic]
  have hi : Go.index env.g.tables.states (s : Int) = some gs := by
    unfold Go.index
    rw [if_pos (by omega)]
    simpa using hg
  have hne1 : ¬ ((s : Int) = repeatState) := by unfold repeatState; omega
  have hne2 : ¬ ((s : Int) = finalState) := by unfold finalState; omega
  have hne3 : ¬ ((f : Int) = finalState) := by unfold finalState; omega
  have hne4 : ¬ ((i : Int) = sameNode) := by unfold sameNode; omega
  have hno : sideEvents nd = [] := by unfold sideEvents; rw [hsd]; rfl
  obtain ⟨pc1, h2, h3, h4, h5, n1, h6, h7, h8, h9, h10, h11, h12⟩ : ∃ pc', applyRule env pc (some eoiToken) ⟨-3, s, i⟩ = .done (.ok (pc', false)) ∧ pc'.applied = [] ∧
      pc'.src = pc.src ∧ pc'.tokens = pc.tokens ∧
      ∃ n1, pc'.stack = [n1, { nd with toFrame := { nd.toFrame with state := s, types := gs.types } }] ∧ n1.hooks = [] ∧ n1.sides = [] ∧ n1.state = f ∧
        nd.hooks = [] ∧ nd.sides = [] ∧ True := by
    unfold applyRule
    rw [hs]
    simp only [moveFrame, if_neg hne1, if_neg hne2, hi, Option.map_some, orPanic, ne_eq, hne4, not_false_eq_true, if_true, Int.natCast_nonneg,
      Int.toNat_natCast, pushNode, sideEvents, hsd, List.flatMap_nil, send, liveHooks, hh, List.zipIdx_nil, List.filterMap_nil, List.map_nil,
      addNode, hl, List.range_zero, makeHooks, hff, hg', bindRes, bindRun, hne3, if_false, consumes, false_and, false_or, reduceCtorEq,
      decide_false]
    exact ⟨_, rfl, ha, rfl, rfl, _, rfl, rfl, rfl, rfl, trivial, trivial, trivial⟩
  rcases n with _ | n
  · refine .inl ?_
    rw [inner, hs]
    simp only [h1, bindRun, h2, bindRes, Bool.false_eq_true, if_false]
    rfl
  refine .inr ?_
  have h13 : nextRule env n pc1 (some eoiToken) n1.state = .done (pc1, some ⟨-3, -1, -1⟩) := by
    rw [nextRule, h3, h9]
    simp only [hf', orPanic]
  obtain ⟨pc2, h14, h15⟩ : ∃ pc', applyRule env pc1 (some eoiToken) ⟨-3, -1, -1⟩ = .done (.ok (pc', true)) ∧ pc'.applied = [] ∧
      pc'.src = pc.src ∧ pc'.tokens = pc.tokens ∧ ∃ nd', pc'.stack = [nd'] ∧ nd'.hooks = [] ∧ nd'.sides = [] ∧ nd'.state = s := by
    unfold applyRule
    rw [h6]
    have hne5 : ¬ ((-1 : Int) = repeatState) := by unfold repeatState; omega
    simp only [moveFrame, if_neg hne5, finalState, if_true, orPanic, sameNode, ne_eq, not_true_eq_false, if_false, consumes, anyToken,
      handleNodeToken, Grammar.isSideType, eoiToken, eoiTokenType, sideEvents, h8, List.flatMap_nil, tokenEvents, liveHooks, h7, List.zipIdx_nil,
      List.filterMap_nil, List.map_nil, List.append_nil, send, popNode, popLoop, endHooks, bindRes, bindRun, hh, ite_self, hne2,
      show ¬ ((0 : Int) ≤ -3) by omega, show ¬ ((-3 : Int) = -1) by omega, and_self, not_false_eq_true, true_or, decide_true, Bool.false_eq_true,
      List.isEmpty_cons]
    rw [if_pos (show ¬ ((s : Int) = -1) by omega)]
    exact ⟨_, rfl, h3, h4, h5, _, rfl, rfl, rfl, rfl⟩
  refine ⟨pc2, ?_, h15⟩
  rw [inner, hs]
  simp only [h1, bindRun, h2, bindRes, Bool.false_eq_true, if_false]
  rw [inner, h6]
  simp only [h13, bindRun, h14, bindRes, if_true]

theorem outer_ends {env : PEnv σ} (hl : env.layers = 0) {s i f : Nat} {gs gs' : GState} (hg : env.g.tables.states[s]? = some gs)
    (hff : env.g.firsts[i]? = some f) (hg' : env.g.tables.states[f]? = some gs')
    (hf : findRules env.g env.upper (some eoiToken) s = some [⟨-3, s, i⟩])
    (hf' : findRules env.g env.upper (some eoiToken) f = some [⟨-3, -1, -1⟩]) {src : σ}
    (hp : ∀ types, env.pull src types = .done (src, .ok (some eoiToken))) (n : Nat) (pc : PC σ) (tok : Option Token) (b : Bool)
    (ha : pc.applied = []) (hsrc : pc.src = src) (ht : pc.tokens = []) {nd : NodeRec}
    (hs : pc.stack = [nd]) (hh : nd.hooks = []) (hsd : nd.sides = []) (hnd : nd.state = s) : outer env n pc tok b = .timeout := by
  induction n generalizing pc tok b nd with
  | zero => rfl
  | succ n ih =>
    rw [outer, hs]
    have h1 : nextToken env n pc nd.types = .timeout ∨
        nextToken env n pc nd.types = .done ({ pc with delivered := pc.delivered ++ [some eoiToken] }, .ok (some eoiToken)) := by
      rw [nextToken, ht]
      rcases n with _ | n
      · exact .inl rfl
      · refine .inr ?_
        rw [nextLoop, hsrc, hp]
        simp only [bindRun, Option.any_some, eoiToken, eofTokenType, eoiTokenType, Grammar.isSideToken, Grammar.isSideType,
          show ¬ ((-3 : Int) = -2) by omega, show ¬ ((0 : Int) ≤ -3) by omega, decide_false, if_false, Bool.false_eq_true, false_and, or_self]
        rw [← hsrc, ← ht]
    rcases h1 with h1 | h1
    · simp only [h1, bindRun]
    · simp only [h1, bindRun]
      rcases inner_ends hl hg hff hg' hf hf' n { pc with delivered := pc.delivered ++ [some eoiToken] } ha hs hh hsd hnd with h2 |
        ⟨pc', h2, h3, h4, h5, nd', h6, h7, h8, h9⟩
      · rw [h2]; rfl
      · rw [h2]
        simp only [bindRes, bindRun]
        exact ih pc' _ _ h3 (h4.trans hsrc) (h5.trans ht) h6 h7 h8 h9

end Verif.Proof
