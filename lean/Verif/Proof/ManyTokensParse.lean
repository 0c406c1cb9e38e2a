/-
The parser follows a run of the node machines when tokens read ahead settle every conflict.
-/
import Verif.Proof.ManyTokensAhead

namespace Verif.Proof

open Verif.Model Verif.Spec Verif.Props
open Verif.Model.Tree (bindRun)

variable {σ : Type} {env : PEnv σ} {m : Table} {node : Nat → Nat} {next after : Nat → Int → Prop} {also : Int → Int → Prop}
  {asks : TokenTypeSet → Prop} {Q : σ → List Token → Prop} {P : Option Token → Prop} {st0 : Option Token}

theorem Fine.ok {α β : Type} {R : α → Prop} {S : Except PErr β → Prop} {x : PRes α} {f : α → PRes β} (h : Fine (fun x => ∃ a, x = .ok a ∧ R a) x)
    (hf : ∀ a, R a → Fine S (f a)) : Fine S (bindRes x f) := by
  rcases x with _ | _ | (e | a)
  · exact h
  · trivial
  · obtain ⟨a, h, -⟩ := h
    cases h
  · obtain ⟨a', h, h'⟩ := h
    cases h
    exact hf a h'

/-- Ended nodes at the top are closed. -/
theorem way_shuts {g : Grammar} {fr : List Part} {ks : List (Token × Nat)} {T : List Item} (h : Way g m fr ks T) (hst : Stacked node next after fr) :
    (∃ (s i : Nat) (st : Option Token) (its : List Item) (rest : List Part), shut [] fr = .inl (⟨(s : Int), i, st, its⟩ :: rest) ∧
      Way g m (⟨(s : Int), i, st, its⟩ :: rest) ks T ∧ Stacked node next after (⟨(s : Int), i, st, its⟩ :: rest) ∧
      partStates fr = (s : Int) :: rest.map (·.state)) ∨ (shut [] fr = .inr T ∧ ks = [] ∧ partStates fr = []) := by
  induction h with
  | @done i st its => exact .inr ⟨by simp [shut], rfl, by rw [partStates_final rfl]; rfl⟩
  | @pop i st its q rest ks T hw ih =>
    have h1 : shut [] (⟨finalState, i, st, its⟩ :: q :: rest) = shut [] ({ q with items := q.items ++ [.node i st its] } :: rest) := shut_closed rfl
    have h2 : partStates (⟨finalState, i, st, its⟩ :: q :: rest) = partStates ({ q with items := q.items ++ [.node i st its] } :: rest) := by
      rw [partStates_final rfl]; rfl
    rw [h1, h2]
    exact ih hst.2.2.content
  | skip hr hn hw _ => exact .inl ⟨_, _, _, _, _, shut_nat, .skip hr hn hw, hst, partStates_nat⟩
  | read hr hn hw _ => exact .inl ⟨_, _, _, _, _, shut_nat, .read hr hn hw, hst, partStates_nat⟩
  | push hr hn hf hw _ => exact .inl ⟨_, _, _, _, _, shut_nat, .push hr hn hf hw, hst, partStates_nat⟩

/-- The context fits the open nodes of a run. -/
structure StandsAt (env : PEnv σ) (st0 : Option Token) (pc : PC σ) (fr : List Part) : Prop where
  tree : Shown env st0 pc.stack pc.log pc.lastResult (shut [] fr)
  frames : StackOk env.g (pc.stack.map (·.toFrame))
  live : ∀ n ∈ pc.stack, Alive env n.hooks

theorem StandsAt.top {pc : PC σ} {fr : List Part} {s i : Nat} {st : Option Token} {its : List Item} {rest : List Part} (h : StandsAt env st0 pc fr)
    (hfr : shut [] fr = .inl (⟨(s : Int), i, st, its⟩ :: rest)) :
    ∃ node nodes gs, pc.stack = node :: nodes ∧ node.state = (s : Int) ∧ env.g.tables.states[s]? = some gs ∧ node.types = gs.types := by
  have h1 := h.tree
  rw [hfr] at h1
  obtain ⟨node, nodes, infos, hs, ho, hp, -, -⟩ := h1
  obtain ⟨a, b, c, rfl⟩ := ho.info
  rw [hs, partsOf] at hp
  simp only [List.cons.injEq, Part.mk.injEq] at hp
  rcases h.frames.1 node.toFrame (by rw [hs]; simp) with h2 | ⟨n, gs, h2, h3, h4⟩
  · rw [hp.1.1] at h2; unfold finalState at h2; omega
  · have : n = s := by have := hp.1.1; omega
    subst this
    exact ⟨node, nodes, gs, hs, hp.1.1, h3, h4⟩

theorem StandsAt.apply (hh : HooksAnswer env) {pc : PC σ} {fr : List Part} {s i : Nat} {st : Option Token} {its : List Item} {rest : List Part}
    (h : StandsAt env st0 pc fr) (hfr : shut [] fr = .inl (⟨(s : Int), i, st, its⟩ :: rest)) {tok : Option Token} {r : Rule} {first : Nat}
    (hf : 0 ≤ r.node → env.g.firsts[r.node.toNat]? = some first) (hr : GoodRule env.g r) :
    ∃ pc', applyRule env pc tok r = .done (.ok (pc', consumes r tok)) ∧
      StandsAt env st0 pc' (grown env.g tok r first (⟨(s : Int), i, st, its⟩ :: rest)) ∧ pc'.tokens = pc.tokens ∧ pc'.applied = pc.applied ∧ pc'.src = pc.src := by
  obtain ⟨node, nodes, gs, hs, -⟩ := h.top hfr
  have hfo := h.frames
  rw [hs, List.map_cons] at hfo
  obtain ⟨l', h1, h3⟩ := applyQuiet_good hr tok hfo
  rw [← List.map_cons, ← hs] at h1
  obtain ⟨pc', h4, h5, h8⟩ := applyRule_pass hh h.live h1
  have ht := h.tree
  rw [hfr] at ht
  have h7 := applyRule_shown hf ht h4
  obtain ⟨-, stack, log, last, h6⟩ := applyRule_spec h4
  exact ⟨pc', h4, ⟨h7, by rw [h5]; exact h3, h8⟩, by rw [h6], by rw [h6], by rw [h6]⟩

/-- The context is on the way: `os` are the tokens at hand, `rules` are chosen by the lookahead. -/
def OnTheWay (env : PEnv σ) (st0 : Option Token) (m : Table) (node : Nat → Nat) (next after : Nat → Int → Prop) (also : Int → Int → Prop)
    (Q : σ → List Token → Prop) (P : Option Token → Prop) (T : List Item) (pc : PC σ) (os : List (Option Token)) (rules : List Rule) : Prop :=
  (∀ o ∈ os, P o) ∧ ∃ fr ts ks os' fr', StandsAt env st0 pc fr ∧ Q pc.src ts ∧ Plan env.g os fr rules os' fr' ∧ Way env.g m fr' ks T ∧
    Stacked node next after fr' ∧ Ready env m also os' ts ks

/-- A token is given and there are no rules chosen by the lookahead. -/
def Given1 (env : PEnv σ) (st0 : Option Token) (m : Table) (node : Nat → Nat) (next after : Nat → Int → Prop) (also : Int → Int → Prop)
    (Q : σ → List Token → Prop) (P : Option Token → Prop) (T : List Item) (pc : PC σ) (tok : Option Token) : Prop :=
  P tok ∧ pc.tokens = [] ∧ pc.applied = [] ∧ ∃ fr ts ks, StandsAt env st0 pc fr ∧ Q pc.src ts ∧ Way env.g m fr ks T ∧ Stacked node next after fr ∧
    AtHand env m also tok (partStates fr) ks ts

/-- What the inner loop gives. -/
def AfterInner (env : PEnv σ) (st0 : Option Token) (m : Table) (node : Nat → Nat) (next after : Nat → Int → Prop) (also : Int → Int → Prop)
    (Q : σ → List Token → Prop) (P : Option Token → Prop) (T : List Item) (tok : Option Token) (x : Except PErr (PC σ × Bool)) : Prop :=
  ∃ pc c, x = .ok (pc, c) ∧ ((c = true ∧ OnTheWay env st0 m node next after also Q P T pc pc.tokens pc.applied) ∨
    (c = false ∧ pc.stack = [] ∧ (∃ t, tok = some t ∧ t.type = eoiTokenType) ∧ Tells env st0 T pc))

/-- With no rules left the next token is at hand. -/
theorem OnTheWay.given {pc : PC σ} {tok : Option Token} (h : OnTheWay env st0 m node next after also Q P T pc (tok :: pc.tokens) pc.applied)
    (hap : pc.applied = []) : Given1 env st0 m node next after also Q P T pc tok := by
  obtain ⟨hP, fr, ts, ks, os', fr', h1, h2, h3, h4, h5, h6⟩ := h
  rw [hap] at h3
  obtain ⟨rfl, h7, -⟩ := h3.rest
  have h8 : StandsAt env st0 pc fr' := ⟨by rw [← h7]; exact h1.tree, h1.frames, h1.live⟩
  rcases h6 with ⟨h6, -⟩ | ⟨t, k, ks1, h6, rfl, h9, h10⟩ | ⟨t, h6, h9, rfl, rfl⟩
  · cases h6
  · simp only [List.cons.injEq] at h6
    obtain ⟨rfl, h6⟩ := h6
    exact ⟨hP _ (by simp), h6, hap, fr', ts, _, h8, h2, h4, h5, .inl ⟨t, k, ks1, rfl, rfl, h9, h10⟩⟩
  · simp only [List.cons.injEq] at h6
    obtain ⟨rfl, h6⟩ := h6
    exact ⟨hP _ (by simp), h6, hap, fr', [], _, h8, h2, h4, h5, .inr (.inl ⟨t, rfl, h9, rfl, rfl⟩)⟩

/-- A rule of the plan is applied. -/
theorem planned_step (hh : HooksAnswer env) {T : List Item} {fuel : Nat} {tok : Option Token}
    (ih : ∀ (pc : PC σ), (OnTheWay env st0 m node next after also Q P T pc (tok :: pc.tokens) pc.applied ∨
      Given1 env st0 m node next after also Q P T pc tok) → Fine (AfterInner env st0 m node next after also Q P T tok) (inner env fuel pc tok))
    {pc : PC σ} {r : Rule} (h : OnTheWay env st0 m node next after also Q P T pc (tok :: pc.tokens) (r :: pc.applied)) :
    Fine (AfterInner env st0 m node next after also Q P T tok) (bindRes (applyRule env pc tok r) fun r => if r.2 then .done (.ok r) else inner env fuel r.1 tok) := by
  obtain ⟨hP, fr, ts, ks, os', fr', h1, h2, h3, h4, h5, h6⟩ := h
  obtain ⟨o, os1, s, i, st, its, rest, first, e1, e2, e3, e4, e5⟩ := h3.step
  simp only [List.cons.injEq] at e1
  obtain ⟨rfl, rfl⟩ := e1
  rw [shut_nat] at e2
  obtain ⟨pc', f1, f2, f3, f4, f5⟩ := h1.apply hh e2 (tok := tok) e4 e3
  rw [f1]
  simp only [bindRes, bindRun]
  rcases e5 with ⟨e6, e7⟩ | ⟨e6, e7⟩
  · rw [e6, if_pos rfl]
    refine ⟨pc', true, rfl, .inl ⟨rfl, fun o ho => hP o (by rw [f3] at ho; simp [ho]), _, ts, ks, os', fr', f2, by rw [f5]; exact h2, ?_, h4, h5, h6⟩⟩
    rw [f3, f4]; exact e7
  · rw [e6, if_neg (by simp)]
    refine ih pc' (.inl ⟨by rw [f3]; exact hP, _, ts, ks, os', fr', f2, by rw [f5]; exact h2, ?_, h4, h5, h6⟩)
    rw [f3, f4]; exact e7

/-- Rules for a token at hand: one of the run, or several. -/
theorem given_rules (ha : AheadTables env.g m node next after also) {s i : Nat} {st : Option Token} {its : List Item} {rest : List Part}
    {ks : List (Token × Nat)} {T : List Item} {tok : Option Token} {ts : List Token} {gs : GState} (hgs : env.g.tables.states[s]? = some gs)
    (hw : Way env.g m (⟨(s : Int), i, st, its⟩ :: rest) ks T) (hst : Stacked node next after (⟨(s : Int), i, st, its⟩ :: rest))
    (hat : AtHand env m also tok ((s : Int) :: rest.map (·.state)) ks ts) :
    (∃ r os' fr' ks', findRules env.g env.upper tok s = some [r] ∧ Plan env.g [tok] (⟨(s : Int), i, st, its⟩ :: rest) [r] os' fr' ∧
      Way env.g m fr' ks' T ∧ Stacked node next after fr' ∧ Ready env m also os' ts ks') ∨
    ∃ r r' rs, findRules env.g env.upper tok s = some (r :: r' :: rs) := by
  have hs := (List.getElem?_eq_some_iff.mp hgs).1
  have hcur : ∀ t, tok = some t → Current env.g env.upper m also t ks → Ready env m also [tok] ts ks →
      (∀ k ks1, ks = (t, k) :: ks1 → Keys env m also ts ks1) →
      (∃ r os' fr' ks', findRules env.g env.upper tok s = some [r] ∧ Plan env.g [tok] (⟨(s : Int), i, st, its⟩ :: rest) [r] os' fr' ∧
        Way env.g m fr' ks' T ∧ Stacked node next after fr' ∧ Ready env m also os' ts ks') ∨
      ∃ r r' rs, findRules env.g env.upper tok s = some (r :: r' :: rs) := by
    rintro t rfl hc hready hkeys
    rcases way_top hw with ⟨r, hr, hn, hw1⟩ | ⟨t', k, ks1, r, rfl, hr, hcase⟩
    · have hst1 := hst.moved ha.predicts hr (its' := its)
      refine .inl ⟨r, [some t], _, ks, find_skip ha (upper := env.upper) hr (hst.1 s rfl) hs hw1 hst1 hc, ?_, hw1, hst1, hready⟩
      refine .go (first := 0) (sound_good ha.sound hr) (fun h => absurd h (by rw [hn]; decide)) (consumes_skip ha hr t) ?_
      rw [grown_skip ha hr hn]
      exact .nil
    · obtain ⟨k', ks', hks, hR⟩ := hc.resolve_right (fun h => by cases h.1)
      obtain ⟨rfl, rfl, rfl⟩ : t' = t ∧ k = k' ∧ ks1 = ks' := by simpa [and_assoc] using hks
      have hfind := find_key ha hr hs hR
      match hm : m s k, hr with
      | [r0], hr0 =>
        rw [hm] at hfind
        cases List.mem_singleton.mp hr0
        left
        rcases hcase with ⟨hn, hw1⟩ | ⟨n, f, hn, hf, hw1⟩
        · refine ⟨r, [], _, ks1, hfind, ?_, hw1, hst.moved ha.predicts hr, .inl ⟨rfl, hkeys _ _ rfl⟩⟩
          refine .use (first := 0) (sound_good ha.sound hr) (fun h => absurd h (by rw [hn]; decide)) (consumes_read ha hr hn _) ?_
          rw [grown_read ha hr hn hR.ordinary]
          exact .nil
        · refine ⟨r, [some t'], _, (t', k) :: ks1, hfind, ?_, hw1, Stacked.pushed ha.predicts hr hn hf hst, hready⟩
          refine .go (first := f) (sound_good ha.sound hr) (fun _ => by rw [hn]; exact hf) (consumes_push hn t') ?_
          rw [grown_push ha hr hn]
          exact .nil
      | r0 :: r1 :: rs, _ => right; rw [hm] at hfind; exact ⟨r0, r1, rs, hfind⟩
  rcases hat with ⟨t, k, ks1, rfl, rfl, hR, hk⟩ | ⟨t, rfl, ht, rfl, rfl⟩ | ⟨rfl, hk, hx, hun⟩ | ⟨t, rfl, hside, hk, hx⟩
  · exact hcur t rfl (.inl ⟨k, ks1, rfl, hR⟩) (.inr (.inl ⟨t, k, ks1, rfl, rfl, hR, hk⟩)) (fun k' ks' h => by cases h; exact hk)
  · exact hcur t rfl (.inr ⟨rfl, ht⟩) (.inr (.inr ⟨t, rfl, ht, rfl, rfl⟩)) (fun k' ks' h => by cases h)
  · left
    rcases way_top hw with ⟨r, hr, hn, hw1⟩ | ⟨t, k, ks1, r, rfl, hr, -⟩
    · refine ⟨r, [], _, ks, ?_, ?_, hw1, hst.moved ha.predicts hr, .inl ⟨rfl, hk⟩⟩
      · rw [C39_no_token ha.sound.means s hs, single_of (ha.many.rest s) hr]
      · refine .use (first := 0) (sound_good ha.sound hr) (fun h => absurd h (by rw [hn]; decide)) (by simp [consumes]) ?_
        rw [grown_skip ha hr hn]
        exact .nil
    · rw [hun s _ t k ks1 rfl rfl] at hr; cases hr
  · left
    refine ⟨⟨t.type, repeatState, sameNode⟩, [], _, ks, side_find hside hgs, ?_, hw, hst, .inl ⟨rfl, hk⟩⟩
    refine .use (first := 0) (side_good t) (fun h => absurd (show (0 : Int) ≤ sameNode from h) (by decide)) (side_uses hside) ?_
    rw [grown_side hside]
    exact .nil

/-- Rules are never absent, the rule is one of the run. -/
theorem nextRule_plan (hs : SettledEnv env m node next after also asks Q P) (fuel : Nat) {T : List Item} {pc : PC σ} {tok : Option Token}
    (h : OnTheWay env st0 m node next after also Q P T pc (tok :: pc.tokens) pc.applied ∨ Given1 env st0 m node next after also Q P T pc tok)
    {nd : NodeRec} {nds : List NodeRec} (hstk : pc.stack = nd :: nds) :
    Fine (fun x => ∃ pc' r, x = (pc', some r) ∧ OnTheWay env st0 m node next after also Q P T pc' (tok :: pc'.tokens) (r :: pc'.applied))
      (nextRule env fuel pc tok nd.state) := by
  rw [nextRule]
  cases hap : pc.applied with
  | cons r rs =>
    rcases h with h | h
    · rw [hap] at h
      obtain ⟨hP, fr, ts, ks, os', fr', h1, h2⟩ := h
      exact ⟨_, r, rfl, hP, fr, ts, ks, os', fr', ⟨h1.tree, h1.frames, h1.live⟩, h2⟩
    · rw [h.2.2.1] at hap; cases hap
  | nil =>
    dsimp only
    obtain ⟨hP, hnil, -, fr, ts, ks, h1, h2, h3, h4, h5⟩ : Given1 env st0 m node next after also Q P T pc tok := by
      rcases h with h | h
      · exact h.given hap
      · exact h
    rcases way_shuts h3 h4 with ⟨s, i, st, its, rest, e1, e2, e3, e4⟩ | ⟨e1, -, -⟩
    · obtain ⟨nd', nds', gs, f1, f2, f3, f4⟩ := h1.top e1
      rw [hstk] at f1
      cases f1
      rw [e4] at h5
      have hplan0 : ∀ {os rules os' fr'}, Plan env.g os (⟨(s : Int), i, st, its⟩ :: rest) rules os' fr' →
          StandsAt env st0 pc (⟨(s : Int), i, st, its⟩ :: rest) := by
        intro _ _ _ _ _
        exact ⟨by rw [shut_nat, ← e1]; exact h1.tree, h1.frames, h1.live⟩
      rcases given_rules hs.ahead f3 e2 e3 h5 with ⟨r, os', fr', ks', g1, g2, g3, g4, g5⟩ | ⟨r, r', rs, g1⟩
      · rw [f2, g1, orPanic]
        refine ⟨pc, r, rfl, ?_, _, ts, ks', os', fr', hplan0 g2, h2, ?_, g3, g4, g5⟩
        · rw [hnil]; simpa using hP
        · rw [hnil, hap]; exact g2
      · rw [f2, g1, orPanic]
        dsimp only
        rw [resolveConflict, hstk, List.head?_cons, orPanic]
        have hfr := h1.frames
        rw [hstk, List.map_cons] at hfr
        have hown : Own env.g node next after (node s) [⟨(s : Int), i, st, its⟩] rest := by
          refine ⟨by simp, fun p hp => ?_, fun p hp => ?_, e3⟩
          · rw [List.mem_singleton.mp hp]; exact .inr ⟨s, gs, rfl, f3⟩
          · cases hp; exact (e3.1 s rfl).symm
        have hat : AtHand env m also tok (partStates [⟨(s : Int), i, st, its⟩]) ks ts := by
          rw [partStates_nat]
          rcases h5 with h | h | ⟨rfl, h, -, h'⟩ | ⟨t, rfl, h, h', -⟩
          · exact .inl h
          · exact .inr (.inl h)
          · refine .inr (.inr (.inl ⟨rfl, h, by simp, ?_⟩))
            intro s' x' t k ks1 e5 e6
            simp only [List.cons.injEq] at e5
            exact h' s' _ t k ks1 (by rw [← e5.1]) e6
          · exact .inr (.inr (.inr ⟨t, rfl, h, h', by simp⟩))
        have hcl := conflictLoop_plan hs fuel (s := s) (f := nd.toFrame) f2 g1 (by simp) hP
          (pc := pc) (tok := tok) (ts := []) (rc := { store := [⟨[nd.toFrame], []⟩], cur := [0], len := 1 })
          (o := { next := [⟨[nd.toFrame], []⟩] }) (rs := []) (fr := ⟨(s : Int), i, st, its⟩ :: rest) (own := [⟨(s : Int), i, st, its⟩]) (low := rest)
          (ks := ks) (tks := ts) (T := T) hnil rfl (by simp) hP (start_sim _) (by simp) .nil (by
            have := traces_start (g := env.g) (upper := env.upper) ⟨[nd.toFrame], []⟩ rfl
            simp only [statesOf, List.map_cons, List.map_nil, f2] at this
            exact this) (by
            refine ⟨?_, by simp, by simp, fun l hl => (by cases hl), by simp, fun p hp => (by cases hp), fun p hp => (by cases hp), by simp, Nat.zero_le _⟩
            intro b hb
            rw [List.mem_singleton.mp hb]
            refine ⟨⟨fun f hf => ?_, fun f hf => ?_⟩, by simp⟩
            · rw [List.mem_singleton.mp hf]; exact hfr.1 _ (by simp)
            · cases hf; exact hfr.2 _ rfl) (by simp) rfl (.inr ⟨_, nd.toFrame, [], rfl, rfl, rfl, r, r', rs, by
              rw [show nd.toFrame.state = (s : Int) from f2]; exact g1⟩)
            (by rw [partStates_nat]; exact .nil) .nil e2 hown hat h2
        refine Fine.bind hcl ?_
        rintro ⟨pc', tokens, rules⟩ ⟨⟨src, del, k1⟩, k2, k3, k4, os', fr', ks', ts', k5, k6, k7, k8, k9⟩
        dsimp only at k1 k2 k3 k4 k5 k9 ⊢
        cases rules with
        | nil => exact absurd rfl k2
        | cons r0 rules =>
          cases tokens with
          | nil => cases k3
          | cons tok1 tokens =>
            cases k3
            simp only [List.head?_cons, orPanic, List.drop_succ_cons, List.drop_zero]
            have k10 : pc'.tokens = [] := by rw [k1]; exact hnil
            rw [k10, List.append_nil]
            refine ⟨_, r0, rfl, k4, _, ts', ks', os', fr', ?_, k9, k5, k6, k7, k8⟩
            have := hplan0 k5
            rw [k1]
            exact ⟨this.tree, this.frames, this.live⟩
    · have := h1.tree
      rw [e1] at this
      rw [this.1] at hstk; cases hstk

theorem inner_settled (hs : SettledEnv env m node next after also asks Q P) {T : List Item} (fuel : Nat) (tok : Option Token) (pc : PC σ)
    (h : OnTheWay env st0 m node next after also Q P T pc (tok :: pc.tokens) pc.applied ∨ Given1 env st0 m node next after also Q P T pc tok) :
    Fine (AfterInner env st0 m node next after also Q P T tok) (inner env fuel pc tok) := by
  induction fuel generalizing pc with
  | zero => rw [inner]; trivial
  | succ fuel ih =>
    rw [inner]
    cases hstk : pc.stack with
    | nil =>
      dsimp only
      have hgiven : Given1 env st0 m node next after also Q P T pc tok := by
        rcases h with h | h
        · refine h.given ?_
          obtain ⟨-, fr, ts, ks, os', fr', h1, -, h3, -⟩ := h
          cases hap : pc.applied with
          | nil => rfl
          | cons r rs =>
            rw [hap] at h3
            obtain ⟨o, os1, s, i, st, its, rest, first, -, e2, -⟩ := h3.step
            rw [shut_nat] at e2
            obtain ⟨nd, nds, gs, f1, -⟩ := h1.top e2
            rw [hstk] at f1; cases f1
        · exact h
      obtain ⟨-, -, -, fr, ts, ks, h1, h2, h3, h4, h5⟩ := hgiven
      rcases way_shuts h3 h4 with ⟨s, i, st, its, rest, e1, -⟩ | ⟨e1, rfl, e3⟩
      · obtain ⟨nd, nds, gs, f1, -⟩ := h1.top e1
        rw [hstk] at f1; cases f1
      · have htr := h1.tree
        rw [e1] at htr
        refine ⟨pc, false, rfl, .inr ⟨rfl, hstk, ?_, htr.2⟩⟩
        rcases h5 with ⟨t, k, ks1, -, h, -⟩ | ⟨t, h, h', -⟩ | ⟨-, -, h, -⟩ | ⟨t, -, -, -, h⟩
        · cases h
        · exact ⟨t, h, h'⟩
        · exact absurd e3 h
        · exact absurd e3 h
    | cons nd nds =>
      dsimp only
      refine Fine.bind (nextRule_plan hs fuel h hstk) ?_
      rintro x ⟨pc', r, rfl, h1⟩
      exact planned_step hs.hooks (fun pc h => ih pc h) h1

/-- The end of the main loop. -/
def AfterOuter (env : PEnv σ) (st0 : Option Token) (m : Table) (node : Nat → Nat) (next after : Nat → Int → Prop) (also : Int → Int → Prop)
    (Q : σ → List Token → Prop) (P : Option Token → Prop) (T : List Item) (pc : PC σ) (tok : Option Token) (c : Bool) : Prop :=
  (c = true ∧ OnTheWay env st0 m node next after also Q P T pc pc.tokens pc.applied) ∨
    (c = false ∧ pc.stack = [] ∧ (∃ t, tok = some t ∧ t.type = eoiTokenType) ∧ Tells env st0 T pc)

theorem outer_settled (hs : SettledEnv env m node next after also asks Q P) {T : List Item} (fuel : Nat) (pc : PC σ) (tok : Option Token) (c : Bool)
    (h : AfterOuter env st0 m node next after also Q P T pc tok c ∨ (pc.stack ≠ [] ∧ OnTheWay env st0 m node next after also Q P T pc pc.tokens pc.applied)) :
    Fine (fun x => ∃ pc' tok' c', x = .ok (pc', tok', c') ∧ pc'.stack = [] ∧ AfterOuter env st0 m node next after also Q P T pc' tok' c') (outer env fuel pc tok c) := by
  induction fuel generalizing pc tok c with
  | zero => rw [outer]; trivial
  | succ fuel ih =>
    rw [outer]
    cases hstk : pc.stack with
    | nil =>
      refine ⟨pc, tok, c, rfl, hstk, ?_⟩
      rcases h with h | ⟨h, -⟩
      · exact h
      · exact absurd hstk h
    | cons nd nds =>
      dsimp only
      have hway : OnTheWay env st0 m node next after also Q P T pc pc.tokens pc.applied := by
        rcases h with (⟨-, h⟩ | ⟨-, h, -⟩) | ⟨-, h⟩
        · exact h
        · rw [hstk] at h; cases h
        · exact h
      have hcont : ∀ (pc1 : PC σ) (tok1 : Option Token), (OnTheWay env st0 m node next after also Q P T pc1 (tok1 :: pc1.tokens) pc1.applied ∨
          Given1 env st0 m node next after also Q P T pc1 tok1) →
          Fine (fun x => ∃ pc' tok' c', x = .ok (pc', tok', c') ∧ pc'.stack = [] ∧ AfterOuter env st0 m node next after also Q P T pc' tok' c')
            (bindRes (inner env fuel pc1 tok1) fun r => outer env fuel r.1 tok1 r.2) := by
        intro pc1 tok1 h1
        refine Fine.ok (R := fun x => AfterOuter env st0 m node next after also Q P T x.1 tok1 x.2) (Fine.mono (inner_settled hs fuel tok1 pc1 h1) ?_) ?_
        · rintro x ⟨pc2, c2, rfl, h2⟩
          exact ⟨_, rfl, h2⟩
        · rintro ⟨pc2, c2⟩ h2
          exact ih pc2 tok1 c2 (.inl h2)
      rw [nextToken]
      cases htk : pc.tokens with
      | cons o os =>
        dsimp only [bindRun]
        refine hcont _ o (.inl ?_)
        rw [htk] at hway
        obtain ⟨hP, fr, ts, ks, os', fr', h1, h2⟩ := hway
        exact ⟨hP, fr, ts, ks, os', fr', ⟨h1.tree, h1.frames, h1.live⟩, h2⟩
      | nil =>
        dsimp only
        rw [htk] at hway
        obtain ⟨hP, fr, ts, ks, os', fr', h1, h2, h3, h4, h5, h6⟩ := hway
        have hap : pc.applied = [] := h3.none
        rw [hap] at h3
        obtain ⟨rfl, h7, -⟩ := h3.rest
        have h8 : StandsAt env st0 pc fr' := ⟨by rw [← h7]; exact h1.tree, h1.frames, h1.live⟩
        have hk : Keys env m also ts ks := by
          rcases h6 with ⟨-, h⟩ | ⟨t, k, ks1, h, -⟩ | ⟨t, h, -⟩
          · exact h
          · cases h
          · cases h
        refine Fine.bind (Fine.and (fetch_fine hs.supplies nd.types hk fuel pc h2) fun r h => h) ?_
        rintro ⟨pc1, r⟩ ⟨⟨src, tok1, ts', he, hq2, hfe⟩, hload⟩
        cases he
        dsimp only
        have hP1 := nextLoop_gives hs.gives hs.supplies fuel h2 hload
        refine hcont _ tok1 (.inr ⟨hP1, htk, hap, fr', ts', ks, ⟨h8.tree, h8.frames, h8.live⟩, hq2, h4, h5, ?_⟩)
        rcases way_shuts h4 h5 with ⟨s, i, st, its, rest, e1, e2, e3, e4⟩ | ⟨e1, -, -⟩
        · obtain ⟨nd', nds', gs, f1, f2, f3, f4⟩ := h8.top e1
          rw [hstk] at f1
          cases f1
          rcases hfe with ⟨t, rfl, k1, k2, k3⟩ | ⟨t, k, ks', rfl, rfl, k1, k2⟩ | ⟨rfl, k1, k2⟩ | ⟨t, rfl, k1, rfl, rfl⟩
          · exact .inr (.inr (.inr ⟨t, rfl, k1, k3, by rw [e4]; simp⟩))
          · exact .inl ⟨t, k, ks', rfl, rfl, k1, k2⟩
          · refine .inr (.inr (.inl ⟨rfl, k1, by rw [e4]; simp, ?_⟩))
            intro s' x' t k ks' e5 e6
            rw [e4] at e5
            simp only [List.cons.injEq] at e5
            have : s = s' := by omega
            subst this
            rw [e6] at k1
            exact fetched_unwanted hs.supplies hq2 f3 (z := 0) (by rw [f4]; simp) k1 k2
          · exact .inr (.inl ⟨t, rfl, k1, rfl, rfl⟩)
        · have := h8.tree
          rw [e1] at this
          rw [this.1] at hstk; cases hstk

theorem finish_settled (hs : SettledEnv env m node next after also asks Q P) {T : List Item} (fuel : Nat) (pc : PC σ) (tok : Option Token) (c : Bool)
    (hstk : pc.stack = []) (h : AfterOuter env st0 m node next after also Q P T pc tok c) :
    Fine (fun x => ∃ pc', x = .ok pc' ∧ Tells env st0 T pc') (finish env fuel pc tok c) := by
  rcases h with ⟨rfl, h⟩ | ⟨rfl, -, ⟨t, rfl, ht⟩, h⟩
  · obtain ⟨hP, fr, ts, ks, os', fr', h1, h2, h3, h4, h5, h6⟩ := h
    have hap : pc.applied = [] := by
      cases hap : pc.applied with
      | nil => rfl
      | cons r rs =>
        rw [hap] at h3
        obtain ⟨o, os1, s, i, st, its, rest, first, -, e2, -⟩ := h3.step
        rw [shut_nat] at e2
        obtain ⟨nd, nds, gs, f1, -⟩ := h1.top e2
        rw [hstk] at f1; cases f1
    rw [hap] at h3
    obtain ⟨rfl, h7, -⟩ := h3.rest
    have h8 : StandsAt env st0 pc fr' := ⟨by rw [← h7]; exact h1.tree, h1.frames, h1.live⟩
    rcases way_shuts h4 h5 with ⟨s, i, st, its, rest, e1, -⟩ | ⟨e1, rfl, e3⟩
    · obtain ⟨nd, nds, gs, f1, -⟩ := h8.top e1
      rw [hstk] at f1; cases f1
    have htr := h8.tree
    rw [e1] at htr
    have htells : Tells env st0 T pc := htr.2
    rw [finish, putBack.eq_def]
    simp only [if_true, bindRun]
    split
    · rcases h6 with ⟨h6, hk⟩ | ⟨t, k, ks1, -, h, -⟩ | ⟨t, h6, h9, -, -⟩
      · obtain ⟨N, hN⟩ := restLoop_passes hs.supplies (fun t k h => readable_ordinary h) (fun t h => passed_kind h) _ pc ts rfl h6 h2 hk
        have hst : Stays (restLoop env fuel pc) (restLoop env (max fuel N) pc) :=
          restLoop_stays (env := env) (pull := env.pull) (fun _ _ => Stays.refl _) fuel (max fuel N) (Nat.le_max_left _ _) pc
        obtain ⟨pc', k1, k2, k3⟩ := hN _ (Nat.le_max_right _ _)
        rw [k1] at hst
        rcases hst with hst | hst
        · rw [hst]; trivial
        · rw [hst]
          refine ⟨pc', rfl, ?_⟩
          rw [Tells, k2, k3]
          exact htells
      · cases h
      · cases fuel with
        | zero => trivial
        | succ fuel =>
          rw [restLoop, nextToken, h6]
          dsimp only [bindRun]
          rw [if_pos h9]
          exact ⟨_, rfl, htells⟩
    · exact ⟨_, rfl, htells⟩
  · rw [finish, putBack]
    simp only [ht, if_true, bindRun, Option.any_some, decide_true, not_true, and_false, if_false]
    exact ⟨_, rfl, h⟩

/-- If the parse stops then the tree of the run is told. -/
theorem run_settled (hs : SettledEnv env m node next after also asks Q P) {first : Nat} (hfirst : env.g.firsts[rootNode]? = some first)
    {ks : List (Token × Nat)} {T : List Item} {q : σ} {ts : List Token} (hq : Q q ts)
    (hk : Keys env m also ts ks) (pos : SrcPos) (hw : Way env.g m [⟨(first : Int), rootNode, some (rootToken pos), []⟩] ks T) (fuel : Nat) :
    Fine (fun x => ∃ pc, x = .ok pc ∧ Tells env (some (rootToken pos)) T pc) (parse env fuel q pos) := by
  obtain ⟨gs, hgs⟩ := hs.ahead.sound.closed.2 _ _ hfirst
  obtain ⟨pc, h1, h2, hl⟩ := pushNode_pass (pc := { src := q }) (tok := some (rootToken pos)) hs.hooks (by simp) hfirst hgs
  have hst : Stacked node next after [⟨(first : Int), rootNode, some (rootToken pos), []⟩] := by
    refine ⟨fun n hn => ?_, hs.ahead.predicts.root, trivial⟩
    have : first = n := by simpa using hn
    subst this
    exact hs.ahead.predicts.first _ _ hfirst
  have h4 := shown_start h1 hfirst
  obtain ⟨stack, log, last, h3⟩ := pushNode_spec h1
  have hstand : StandsAt env (some (rootToken pos)) pc [⟨(first : Int), rootNode, some (rootToken pos), []⟩] := by
    refine ⟨by rw [shut_nat]; exact h4, ?_, hl⟩
    rw [h2]
    refine ⟨fun f hf => ?_, fun f hf => ?_⟩
    · cases List.mem_singleton.mp hf
      exact .inr ⟨first, gs, rfl, hgs, rfl⟩
    · cases hf
      simp only [finalState]
      omega
  have hway : OnTheWay env (some (rootToken pos)) m node next after also Q P T pc pc.tokens pc.applied := by
    have e1 : pc.tokens = [] := by rw [h3]
    have e2 : pc.applied = [] := by rw [h3]
    refine ⟨by rw [e1]; simp, _, ts, ks, [], _, hstand, by rw [h3]; exact hq, ?_, hw, hst, .inl ⟨rfl, hk⟩⟩
    rw [e1, e2]
    exact .nil
  rw [parse, show (some { type := anyToken, typeName := "", content := [], pos := pos } : Option Token) = some (rootToken pos) from rfl, h1]
  show Fine _ (parseLoop env fuel pc)
  rw [parseLoop]
  have hstk : pc.stack ≠ [] := by
    obtain ⟨nd, nds, gs, f1, -⟩ := hstand.top shut_nat
    rw [f1]; simp
  refine Fine.ok (R := fun x => x.1.stack = [] ∧ AfterOuter env (some (rootToken pos)) m node next after also Q P T x.1 x.2.1 x.2.2)
    (Fine.mono (outer_settled hs fuel pc none false (.inr ⟨hstk, hway⟩)) ?_) ?_
  · rintro x ⟨pc', tok', c', rfl, k⟩
    exact ⟨_, rfl, k⟩
  · rintro ⟨pc', tok', c'⟩ ⟨k1, k2⟩
    exact finish_settled hs fuel pc' tok' c' k1 k2

end Verif.Proof
