/-
Tokens are read ahead only while there are several branches.
-/
import Verif.Proof.Shapes
import Verif.Proof.Conflict

namespace Verif.Proof

open Verif.Model Verif.Spec
open Verif.Model.Tree (bindRun)

variable {σ : Type} {g : Grammar} {upper : List Nat → List Nat}

/-- There are at least two branches before each of the next tokens. -/
theorem conflictLoop_wide {env : PEnv σ} {P : Option Token → Prop} (hP : Feeds env P) (fuel : Nat) {start : Branch} {pc pc' : PC σ} {tok0 tok : Option Token}
    {ts tokens : List (Option Token)} {rc : RC} {o : Traced} {rules : List Rule}
    (hfit : ∀ ts L dead fuel tok, (ts ≠ [] → ts.head? = some tok0) → (∀ t ∈ ts, P t) → P tok → Rounds env.g env.upper start ts L →
      Fits env.g env.upper tok fuel 0 L { dead := dead })
    (h0 : (ts ++ [tok]).head? = some tok0) (hts : ∀ t ∈ ts, P t) (htok : P tok) (hpc : ∀ t ∈ pc.tokens, P t)
    (hsim : Sim rc [] [] o []) (hr : Rounds env.g env.upper start ts o.next)
    (h : conflictLoop env fuel pc tok ts rc = .done (pc', tokens, rules)) :
    ∀ p q, tokens = p ++ q → q ≠ [] → ts.length < p.length → ∃ L, Rounds env.g env.upper start p L ∧ 2 ≤ L.length := by
  induction fuel generalizing pc tok ts rc o with
  | zero => simp [conflictLoop] at h
  | succ fuel ih =>
    intro p q hpq hq hlt
    have hspec := h
    rw [conflictLoop, bindRun_done] at h
    obtain ⟨rc1, h1, h⟩ := h
    obtain ⟨o1, h2, hsim1⟩ := round_sim hsim (hfit _ _ _ _ _ (fun hne => by
      cases ts with
      | nil => exact absurd rfl hne
      | cons t ts => simpa using h0) hts htok hr) h1
    have hts1 : ∀ t ∈ ts ++ [tok], P t := by
      intro t ht
      rcases List.mem_append.mp ht with ht | ht
      · exact hts t ht
      · rw [List.mem_singleton.mp ht]; exact htok
    dsimp only at h
    have fin : ∀ {pc1 : PC σ}, (orPanic rc1.chosen fun rules => Run.done (pc1, ts ++ [tok], rules)) = .done (pc', tokens, rules) → False := by
      intro pc1 h
      obtain ⟨_, -, h⟩ := orPanic_done.mp h
      cases h
      have := congrArg List.length hpq
      have := List.length_pos_of_ne_nil hq
      simp at *
      omega
    split at h
    · exact (fin h).elim
    · rename_i hlen
      split at h
      · exact (fin h).elim
      · rw [bindRun_done] at h
        obtain ⟨⟨pc1, r⟩, h3, h⟩ := h
        cases r with
        | error e => exact (fin h).elim
        | ok tok' =>
          obtain ⟨k1, k2⟩ := nextToken_fed hP hpc h3
          by_cases he : p.length = ts.length + 1
          · refine ⟨o1.next, ?_, by rw [sim_len hsim1]; omega⟩
            obtain ⟨_, _, _, more, -, e, -⟩ := conflictLoop_spec (fuel + 1) hspec
            rw [e, show ts ++ tok :: more = (ts ++ [tok]) ++ more by simp] at hpq
            obtain ⟨rfl, -⟩ := List.append_inj hpq (by simp [he])
            exact .step hr h2
          · exact ih (by simpa using h0) hts1 k1 k2 hsim1 (.step hr h2) h p q hpq hq (by simp; omega)

theorem resolve_wide {env : PEnv σ} {P : Option Token → Prop} (hP : Feeds env P) (hsafe : SafeLookaheadOn P env.g env.upper) {fuel : Nat} {pc pc' : PC σ} {tok : Option Token}
    {node : NodeRec} {rest : List NodeRec} {tokens : List (Option Token)} {rules0 rules : List Rule}
    (hs : pc.stack = node :: rest) (hf : findRules env.g env.upper tok node.state = some rules0) (hl : 1 < rules0.length)
    (htok : P tok) (hpc : ∀ t ∈ pc.tokens, P t) (h : resolveConflict env fuel pc tok = .done (pc', tokens, rules)) :
    ∀ p q, tokens = p ++ q → q ≠ [] → p ≠ [] → ∃ L, Rounds env.g env.upper ⟨[node.toFrame], []⟩ p L ∧ 2 ≤ L.length := by
  rw [resolveConflict, hs] at h
  dsimp only [List.head?_cons, orPanic] at h
  have hfit : ∀ ts L dead fuel tok1, (ts ≠ [] → ts.head? = some tok) → (∀ t ∈ ts, P t) → P tok1 → Rounds env.g env.upper ⟨[node.toFrame], []⟩ ts L →
      Fits env.g env.upper tok1 fuel 0 L { dead := dead } := by
    intro ts L dead fuel tok1 hh hp1 hp2 hr
    cases ts with
    | nil =>
      generalize hts : ([] : List (Option Token)) = ts at hr
      cases hr with
      | nil => exact ⟨by simp, fun _ _ => trivial⟩
      | step _ _ => simp at hts
    | cons t ts =>
      have : t = tok := by simpa using hh
      subst this
      exact hsafe _ _ _ htok hf hl ts L (fun t ht => hp1 t (by simp [ht])) hr tok1 dead fuel hp2
  intro p q hpq hq hp
  exact conflictLoop_wide hP fuel hfit (by simp) (by simp) htok hpc (start_sim _) .nil h p q hpq hq (by
    have := List.length_pos_of_ne_nil hp
    simpa using this)

/-- Shapes of lists of branches after given tokens. -/
theorem rounds_shaped {Cls : Type} {In : Cls → List Int → Prop} {S : List (Option Token) → List Cls → Prop} {P : Option Token → Prop} {f : Frame}
    {tok0 : Option Token}
    (h0 : ∀ N, TracedTo g upper tok0 [f.state] N → ∃ sh, S [tok0] sh ∧ List.Forall₂ In sh N)
    (h2 : ∀ tok, P tok → ∀ ts sh, S ts sh → ∀ L Ns, List.Forall₂ In sh L → List.Forall₂ (TracedTo g upper tok) L Ns →
      ∃ sh', S (ts ++ [tok]) sh' ∧ List.Forall₂ In sh' Ns.flatten) {ts0 : List (Option Token)} {L : List Branch}
    (hr : Rounds g upper ⟨[f], []⟩ ts0 L) (hall : ∀ t ∈ ts0, P t) (ts : List (Option Token)) (he : ts0 = tok0 :: ts) :
    ∃ sh, S ts0 sh ∧ List.Forall₂ In sh (L.map branchStates) := by
  induction hr generalizing ts with
  | nil => cases he
  | @step ts1 L1 tok1 fuel1 dead1 o hrr htr ih =>
    obtain ⟨Ns, e1, e2⟩ := traceEach_states _ htr
    rw [List.map_nil, List.nil_append] at e2
    cases ts1 with
    | nil =>
      rw [List.nil_append, List.cons.injEq] at he
      obtain ⟨rfl, rfl⟩ := he
      have hL1 : L1 = [⟨[f], []⟩] := by
        generalize hts1 : ([] : List (Option Token)) = ts1 at hrr
        cases hrr with
        | nil => rfl
        | step _ _ => simp at hts1
      subst hL1
      cases e1 with
      | cons e3 e4 =>
        cases e4
        rw [e2, List.flatten_cons, List.flatten_nil, List.append_nil]
        exact h0 _ e3
    | cons t ts1 =>
      rw [List.cons_append, List.cons.injEq] at he
      obtain ⟨rfl, rfl⟩ := he
      obtain ⟨sh, e3, e4⟩ := ih (fun t ht => hall t (by simp only [List.mem_append]; exact .inl ht)) _ rfl
      rw [e2]
      exact h2 _ (hall _ (by simp)) _ sh e3 _ _ e4 e1

end Verif.Proof
