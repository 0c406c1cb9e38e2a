/-
Rules chosen by a lookahead are used for the tokens they were chosen for.
-/
import Verif.Proof.Variants
import Verif.Proof.Sound

namespace Verif.Proof

open Verif.Model Verif.Spec Verif.Props
open Verif.Model.Tree (bindRun)

variable {σ : Type}

/-- States of nodes of the stack. -/
def nodeStates (l : List NodeRec) : List Int := l.map fun n => n.state

theorem popLoop_states {env : PEnv σ} {sides : List Token} (l : List NodeRec) {log log' : List Event} {last last' : Option Nat}
    {st : List NodeRec} (h : popLoop env sides l log last = .ok (st, log', last')) :
    nodeStates st = (nodeStates l).dropWhile (· = -1) := by
  induction l generalizing log last with
  | nil => cases h; rfl
  | cons node rest ih =>
    rw [popLoop] at h
    rw [show nodeStates (node :: rest) = node.state :: nodeStates rest from rfl, List.dropWhile_cons]
    split at h
    · rename_i hn
      cases h
      have hn : ¬ node.state = -1 := hn
      rw [if_neg (by simpa using hn)]
      rfl
    · rename_i hn
      have hn : node.state = -1 := not_not.mp hn
      rw [if_pos (by simpa using hn)]
      split at h
      · cases h
      · split at h
        · cases h
        · cases rest with
          | nil => cases h; rfl
          | cons parent rest' =>
            dsimp only at h
            split at h
            · cases h
            · exact ih h

theorem addNode_states {env : PEnv σ} {pc pc' : PC σ} {index : Nat} {tok : Option Token} {st : List NodeRec}
    {log : List Event} (h : addNode env pc index tok st log = .done (.ok pc')) :
    ∃ f : Nat, env.g.firsts[index]? = some f ∧ nodeStates pc'.stack = (f : Int) :: nodeStates st := by
  rw [addNode] at h
  split at h
  · cases h
  · obtain ⟨f, hf, h⟩ := orPanic_done.mp h
    obtain ⟨_, -, h⟩ := orPanic_done.mp h
    cases h; exact ⟨f, hf, rfl⟩

theorem pushNode_states {env : PEnv σ} {pc pc' : PC σ} {index : Nat} {tok : Option Token}
    (h : pushNode env pc index tok = .done (.ok pc')) :
    ∃ f : Nat, env.g.firsts[index]? = some f ∧ nodeStates pc'.stack = (f : Int) :: nodeStates pc.stack := by
  rw [pushNode] at h
  split at h
  · rename_i hs
    rw [hs]
    exact addNode_states h
  · rename_i node rest hs
    split at h
    · cases h
    · split at h
      · cases h
      · obtain ⟨f, h1, h2⟩ := addNode_states h
        exact ⟨f, h1, by rw [h2, hs]; rfl⟩

theorem handleNodeToken_states {env : PEnv σ} {pc pc' : PC σ} {tok : Option Token}
    (h : handleNodeToken env pc tok = .done (.ok pc')) : nodeStates pc'.stack = nodeStates pc.stack := by
  rw [handleNodeToken.eq_def] at h
  split at h
  · cases h; rfl
  · cases h
  · rename_i hs
    rw [hs]
    split at h
    · cases h; rfl
    · split at h
      · cases h
      · cases h; rfl

/-- Changes of states made by `applyRule`. -/
theorem applyRule_states {env : PEnv σ} {pc pc' : PC σ} {tok : Option Token} {r : Rule} {b : Bool} {node : NodeRec}
    {rest : List NodeRec} (hs : pc.stack = node :: rest) (h : applyRule env pc tok r = .done (.ok (pc', b))) :
    ∃ top, ((r.node = -1 ∧ top = [after r node.state]) ∨
        ∃ i f1 : Nat, r.node = (i : Int) ∧ env.g.firsts[i]? = some f1 ∧ top = [(f1 : Int), after r node.state]) ∧
      nodeStates pc'.stack = (top ++ nodeStates rest).dropWhile (· = -1) ∧ b = consumes r tok := by
  rw [applyRule, hs] at h
  obtain ⟨f, hf, h⟩ := orPanic_done.mp h
  have hst := moveFrame_state hf
  dsimp only at h
  rw [bindRes_ok] at h
  obtain ⟨pc1, h1, h⟩ := h
  rw [bindRes_ok] at h
  obtain ⟨pc2, h2, h⟩ := h
  cases h
  have h3 : ∃ top, ((r.node = -1 ∧ top = [after r node.state]) ∨
        ∃ i f1 : Nat, r.node = (i : Int) ∧ env.g.firsts[i]? = some f1 ∧ top = [(f1 : Int), after r node.state]) ∧
      nodeStates pc1.stack = top ++ nodeStates rest := by
    split at h1
    · split at h1
      · rename_i h0
        obtain ⟨f1, e1, e2⟩ := pushNode_states h1
        refine ⟨_, .inr ⟨r.node.toNat, f1, (Int.toNat_of_nonneg h0).symm, e1, rfl⟩, ?_⟩
        rw [e2]
        simp [nodeStates, hst]
      · cases h1
    · rename_i hn
      refine ⟨_, .inl ⟨not_not.mp hn, rfl⟩, ?_⟩
      split at h1
      · rw [handleNodeToken_states h1]
        simp [nodeStates, hst]
      · cases h1
        simp [nodeStates, hst]
  obtain ⟨top, e1, e2⟩ := h3
  refine ⟨top, e1, ?_, rfl⟩
  rw [← e2]
  split at h2
  · cases h2
  · rename_i node' rest' hs1
    split at h2
    · rw [popNode, hs1] at h2
      dsimp only at h2
      split at h2
      · cases h2
      · rename_i hp
        cases h2
        rw [hs1]
        have := popLoop_states _ hp
        exact this
    · rename_i hne
      cases h2
      have hne : ¬ node'.state = -1 := hne
      rw [hs1, show nodeStates (node' :: rest') = node'.state :: nodeStates rest' from rfl, List.dropWhile_cons,
        if_neg (by simpa using hne)]

/-- A branch is a part of the stack. -/
theorem applyRule_move {env : PEnv σ} {pc pc' : PC σ} {tok : Option Token} {r : Rule} {b u : Bool} {node : NodeRec}
    {rest : List NodeRec} {st st' below : List Int} (hs : pc.stack = node :: rest)
    (hst : nodeStates pc.stack = st ++ below) (hm : Move env.g env.upper tok st r st' u)
    (h : applyRule env pc tok r = .done (.ok (pc', b))) :
    u = b ∧ (st' ≠ [] → nodeStates pc'.stack = st' ++ below) := by
  obtain ⟨top, e1, e2, e3⟩ := applyRule_states hs h
  obtain ⟨s, rest', rules, top', rfl, -, -, f4, f5, f6⟩ := hm
  rw [hs] at hst
  simp only [nodeStates, List.map_cons, List.cons_append, List.cons.injEq] at hst
  obtain ⟨rfl, hst⟩ := hst
  have ht : top' = top := by
    rcases e1 with ⟨a, b⟩ | ⟨i, f1, a, b, c⟩ <;> rcases f4 with ⟨a', b'⟩ | ⟨i', f1', a', b', c'⟩
    · rw [b, b']
    · omega
    · omega
    · have : i' = i := by omega
      subst this
      rw [b] at b'; cases b'
      rw [c, c']
  subst ht
  constructor
  · have : u = true ↔ b = true := by rw [f6, e3, consumes_spec]
    exact Bool.eq_iff_iff.mpr this
  · intro hne
    rw [e2, f5, show nodeStates rest = rest' ++ below from hst, ← List.append_assoc]
    rw [f5] at hne
    rw [List.dropWhile_append, if_neg (by simpa using hne)]

/-- Remaining chosen rules can be used for remaining tokens, beginning with the current one. -/
def Follows (env : PEnv σ) (pc : PC σ) (ts : List (Option Token)) : Prop :=
  ∃ st below, nodeStates pc.stack = st ++ below ∧ Legal env.g env.upper ts st pc.applied

theorem follows_nil {env : PEnv σ} {pc : PC σ} {ts : List (Option Token)} (h : pc.applied = []) : Follows env pc ts :=
  ⟨nodeStates pc.stack, [], by simp, by rw [h]; exact .nil⟩

theorem move_ne {g : Grammar} {upper : List Nat → List Nat} {tok : Option Token} {r : Rule} {st st' : List Int} {u : Bool}
    (h : Move g upper tok st r st' u) : st ≠ [] := by
  obtain ⟨s, rest, rules, top, rfl, -⟩ := h
  simp

theorem legal_ne {g : Grammar} {upper : List Nat → List Nat} {ts : List (Option Token)} {rs : List Rule}
    (h : Legal g upper ts [] rs) : rs = [] := by
  cases h with
  | nil => rfl
  | use hm _ => exact absurd rfl (move_ne hm)
  | go hm _ => exact absurd rfl (move_ne hm)

/-- The first one of chosen rules is used. -/
theorem legal_step {env : PEnv σ} {pc1 pc2 : PC σ} {tok : Option Token} {ts : List (Option Token)} {r : Rule} {rs : List Rule}
    {node : NodeRec} {rest : List NodeRec} {st below : List Int} {b : Bool} (hs : pc1.stack = node :: rest)
    (hst : nodeStates pc1.stack = st ++ below) (hl : Legal env.g env.upper (tok :: ts) st (r :: rs))
    (ha : pc1.applied = rs) (h : applyRule env pc1 tok r = .done (.ok (pc2, b))) :
    Follows env pc2 (if b then ts else tok :: ts) := by
  obtain ⟨-, stack, log, last, hpc⟩ := applyRule_spec h
  have ha2 : pc2.applied = rs := by rw [hpc]; exact ha
  have fin : ∀ {st' u ts'}, Move env.g env.upper tok st r st' u → Legal env.g env.upper ts' st' rs → Follows env pc2 ts' := by
    intro st' u ts' hm hl'
    obtain ⟨-, h2⟩ := applyRule_move hs hst hm h
    by_cases hne : st' = []
    · subst hne
      exact follows_nil (by rw [ha2]; exact legal_ne hl')
    · exact ⟨st', below, h2 hne, by rw [ha2]; exact hl'⟩
  cases hl with
  | use hm hl' =>
    obtain ⟨rfl, -⟩ := applyRule_move hs hst hm h
    exact fin hm hl'
  | go hm hl' =>
    obtain ⟨rfl, -⟩ := applyRule_move hs hst hm h
    exact fin hm hl'

theorem legal_head {g : Grammar} {upper : List Nat → List Nat} {tok : Option Token} {ts : List (Option Token)} {st : List Int}
    {s : Int} {below : List Int} {r : Rule} {rs : List Rule} (h : Legal g upper (tok :: ts) st (r :: rs)) (hs : s :: below = st ++ l) :
    ∃ rules, findRules g upper tok s = some rules ∧ r ∈ rules := by
  have : ∀ {st' u}, Move g upper tok st r st' u → ∃ rules, findRules g upper tok s = some rules ∧ r ∈ rules := by
    rintro st' u ⟨s', rest, rules, top, rfl, e2, e3, -⟩
    simp only [List.cons_append, List.cons.injEq] at hs
    rw [hs.1]
    exact ⟨rules, e2, e3⟩
  cases h with
  | use hm _ => exact this hm
  | go hm _ => exact this hm

/-- What a lookahead leads to, if no branch is overwritten. -/
theorem resolve_chosen_on {env : PEnv σ} {P : Option Token → Prop} (hP : Feeds env P) (hsafe : SafeLookaheadOn P env.g env.upper) {fuel : Nat} {pc pc' : PC σ} {tok : Option Token}
    {node : NodeRec} {rest : List NodeRec} {tokens : List (Option Token)} {rules0 rules : List Rule}
    (hs : pc.stack = node :: rest) (hf : findRules env.g env.upper tok node.state = some rules0) (hl : 1 < rules0.length)
    (htok : P tok) (hpc : ∀ t ∈ pc.tokens, P t) (h : resolveConflict env fuel pc tok = .done (pc', tokens, rules)) :
    Chosen env.g env.upper [node.state] tokens rules ∧ Stopped env [node.state] tokens ∧ (∀ t ∈ tokens, P t) ∧
      ∀ t ∈ pc'.tokens, P t := by
  rw [resolveConflict, hs] at h
  dsimp only [List.head?_cons, orPanic] at h
  have hfit : ∀ ts L dead fuel tok1, (ts ≠ [] → ts.head? = some tok) → (∀ t ∈ ts, P t) → P tok1 → Rounds env.g env.upper ⟨[node.toFrame], []⟩ ts L →
      Fits env.g env.upper tok1 fuel 0 L { dead := dead } := by
    intro ts L dead fuel tok1 hh hp1 hp2 hr
    cases ts with
    | nil =>
      generalize hts : ([] : List (Option Token)) = ts at hr
      cases hr with
      | nil => exact ⟨by simp, fun _ _ => trivial⟩
      | step _ _ => simp at hts
    | cons t ts =>
      have : t = tok := by simpa using hh
      subst this
      exact hsafe _ _ _ htok hf hl ts L (fun t ht => hp1 t (by simp [ht])) hr tok1 dead fuel hp2
  exact conflictLoop_chosen_on hP fuel hfit (by simp) (by simp) htok hpc (start_sim _) (by simp) .nil (traces_start _ rfl) h

theorem feeds_true (env : PEnv σ) : Feeds env fun _ => True := fun _ _ _ _ _ _ _ => trivial

theorem safeOn_of_safe {g : Grammar} {upper : List Nat → List Nat} (h : SafeLookahead g upper) (P : Option Token → Prop) :
    SafeLookaheadOn P g upper :=
  fun f tok0 rules _ h1 h2 ts L _ h3 tok dead fuel _ => h f tok0 rules h1 h2 ts L h3 tok dead fuel

/-- `resolve_chosen_on` for any tokens. -/
theorem resolve_chosen {env : PEnv σ} (hsafe : SafeLookahead env.g env.upper) {fuel : Nat} {pc pc' : PC σ} {tok : Option Token}
    {node : NodeRec} {rest : List NodeRec} {tokens : List (Option Token)} {rules0 rules : List Rule}
    (hs : pc.stack = node :: rest) (hf : findRules env.g env.upper tok node.state = some rules0) (hl : 1 < rules0.length)
    (h : resolveConflict env fuel pc tok = .done (pc', tokens, rules)) :
    Chosen env.g env.upper [node.state] tokens rules ∧ Stopped env [node.state] tokens := by
  obtain ⟨h1, h2, -⟩ := resolve_chosen_on (feeds_true env) (safeOn_of_safe hsafe _) hs hf hl trivial (fun _ _ => trivial) h
  exact ⟨h1, h2⟩

/-- Rules left from a lookahead are used for the tokens left from it. -/
theorem follows_inv_on {env : PEnv σ} {P : Option Token → Prop} (hP : Feeds env P) (hsafe : SafeLookaheadOn P env.g env.upper) :
    LoopInv env (fun pc tok => Follows env pc (tok :: pc.tokens) ∧ P tok ∧ ∀ t ∈ pc.tokens, P t)
      (fun pc => Follows env pc pc.tokens ∧ ∀ t ∈ pc.tokens, P t) where
  token := by
    rintro fuel pc pc' tok node rest ⟨⟨st, below, hst, hl⟩, hpc⟩ hs h
    refine ⟨?_, nextToken_fed hP hpc h⟩
    rw [nextToken] at h
    cases ht : pc.tokens with
    | cons t ts =>
      rw [ht] at h hl; cases h
      exact ⟨st, below, hst, hl⟩
    | nil =>
      rw [ht] at h hl
      obtain ⟨src, rfl⟩ := nextLoop_spec fuel h
      refine follows_nil ?_
      generalize hap : pc.applied = ap at hl
      cases hl
      rfl
  step := by
    rintro fuel pc pc1 pc2 tok node rest r b ⟨⟨st, below, hst, hl⟩, htok, hpc⟩ hs h1 h2
    have key : ∀ {rs} {st below : List Int}, nodeStates pc.stack = st ++ below → pc1.stack = pc.stack →
        Legal env.g env.upper (tok :: pc1.tokens) st (r :: rs) → pc1.applied = rs → (∀ t ∈ pc1.tokens, P t) →
        Phase (fun pc tok => Follows env pc (tok :: pc.tokens) ∧ P tok ∧ ∀ t ∈ pc.tokens, P t)
          (fun pc => Follows env pc pc.tokens ∧ ∀ t ∈ pc.tokens, P t) b pc2 tok := by
      intro rs st below hst hst1 hl ha hpc1
      have h3 := legal_step (ts := pc1.tokens) (by rw [hst1]; exact hs) (by rw [hst1]; exact hst) hl ha h2
      obtain ⟨-, stack, log, last, rfl⟩ := applyRule_spec h2
      cases b
      · exact ⟨h3, htok, hpc1⟩
      · exact ⟨h3, hpc1⟩
    rw [nextRule] at h1
    cases ha : pc.applied with
    | cons a as =>
      rw [ha] at h1 hl
      cases h1
      exact key hst rfl hl rfl hpc
    | nil =>
      rw [ha] at h1
      obtain ⟨rules, hr, h1⟩ := orPanic_done.mp h1
      match rules, hr, h1 with
      | [], _, h1 => cases h1
      | [x], _, h1 =>
        cases h1
        obtain ⟨-, stack, log, last, rfl⟩ := applyRule_spec h2
        have : Follows env { pc with stack := stack, log := log, lastResult := last, steps := pc.steps ++ [(tok, r)] }
            (if b then pc.tokens else tok :: pc.tokens) := follows_nil ha
        cases b
        · exact ⟨this, htok, hpc⟩
        · exact ⟨this, hpc⟩
      | x :: y :: zs, hr, h1 =>
        dsimp only at h1
        rw [bindRun_done] at h1
        obtain ⟨⟨pc0, toks, rules⟩, h3, h1⟩ := h1
        dsimp only at h1
        obtain ⟨r', hr', h1⟩ := orPanic_done.mp h1
        cases h1
        obtain ⟨hc, -, hq1, hq2⟩ := resolve_chosen_on hP hsafe hs hr (by simp) htok hpc h3
        have hc := hc.legal
        rw [resolveConflict] at h3
        obtain ⟨top, -, h3⟩ := orPanic_done.mp h3
        obtain ⟨src, ts, dl, more, rfl, e2, e3⟩ := conflictLoop_spec fuel h3
        rw [List.nil_append] at e2
        subst e2
        cases rules with
        | nil => cases hr'
        | cons r0 rs =>
          cases hr'
          refine key (st := [node.state]) (below := nodeStates rest) (rs := rs) (by rw [hs]; rfl) rfl ?_ rfl ?_
          · exact legal_more hc ts
          · intro t ht
            rcases List.mem_append.mp ht with ht | ht
            · exact hq1 t (List.mem_of_mem_drop ht)
            · exact hq2 t ht

theorem follows_inv {env : PEnv σ} (hsafe : SafeLookahead env.g env.upper) :
    LoopInv env (fun pc tok => Follows env pc (tok :: pc.tokens)) (fun pc => Follows env pc pc.tokens) where
  token hj hs h := ((follows_inv_on (feeds_true env) (safeOn_of_safe hsafe _)).token ⟨hj, fun _ _ => trivial⟩ hs h).1
  step {_ _ _ _ _ _ _ _ b} hi hs h1 h2 := by
    have := (follows_inv_on (feeds_true env) (safeOn_of_safe hsafe _)).step ⟨hi, trivial, fun _ _ => trivial⟩ hs h1 h2
    cases b
    · exact this.1
    · exact this.1

theorem follows_rule_on {env : PEnv σ} {P : Option Token → Prop} (hP : Feeds env P) (hsafe : SafeLookaheadOn P env.g env.upper) {fuel : Nat} {pc pc1 : PC σ} {tok : Option Token}
    {node : NodeRec} {rest : List NodeRec} {r : Rule} (hi : Follows env pc (tok :: pc.tokens)) (htok : P tok) (hpc : ∀ t ∈ pc.tokens, P t)
    (hs : pc.stack = node :: rest)
    (h : nextRule env fuel pc tok node.state = .done (pc1, some r)) :
    ∃ rules, findRules env.g env.upper tok node.state = some rules ∧ r ∈ rules := by
  obtain ⟨st, below, hst, hl⟩ := hi
  rw [nextRule] at h
  cases ha : pc.applied with
  | cons a as =>
    rw [ha] at h hl
    cases h
    rw [hs] at hst
    exact legal_head hl hst
  | nil =>
    rw [ha] at h
    obtain ⟨rules, hr, h⟩ := orPanic_done.mp h
    match rules, hr, h with
    | [], _, h => cases h
    | [x], hr, h => cases h; exact ⟨_, hr, by simp⟩
    | x :: y :: zs, hr, h =>
      dsimp only at h
      rw [bindRun_done] at h
      obtain ⟨⟨pc0, toks, rules⟩, h3, h⟩ := h
      dsimp only at h
      obtain ⟨r', hr', h⟩ := orPanic_done.mp h
      cases h
      have hc := (resolve_chosen_on hP hsafe hs hr (by simp) htok hpc h3).1.legal
      rw [resolveConflict] at h3
      obtain ⟨top, -, h3⟩ := orPanic_done.mp h3
      obtain ⟨src, ts, dl, more, rfl, e2, e3⟩ := conflictLoop_spec fuel h3
      rw [List.nil_append] at e2
      subst e2
      cases rules with
      | nil => cases hr'
      | cons r0 rs =>
        cases hr'
        exact legal_head hc (below := []) (l := []) rfl

theorem follows_rule {env : PEnv σ} (hsafe : SafeLookahead env.g env.upper) {fuel : Nat} {pc pc1 : PC σ} {tok : Option Token}
    {node : NodeRec} {rest : List NodeRec} {r : Rule} (hi : Follows env pc (tok :: pc.tokens)) (hs : pc.stack = node :: rest)
    (h : nextRule env fuel pc tok node.state = .done (pc1, some r)) :
    ∃ rules, findRules env.g env.upper tok node.state = some rules ∧ r ∈ rules :=
  follows_rule_on (feeds_true env) (safeOn_of_safe hsafe _) hi trivial (fun _ _ => trivial) hs h

end Verif.Proof
