/-
C51: a parse succeeds only if the input is described by the grammar.
-/
import Verif.Proof.Calm
import Verif.Proof.CompileMeans
import Verif.Props.Samples

namespace Verif.Props

open Verif.Model Verif.Spec Verif.Spec.Ebnf Verif.Proof

variable {σ : Type}

/-- C51, any grammar in which no branch is overwritten during a lookahead (`SafeLookahead`, see C31): the content of the nodes of a successful parse is what the node
machines accept, and its tokens are the consumed ones. `m` is what the tables hold. -/
theorem C51_accepted_by_machines (env : PEnv σ) (m : Table) (hm : Means env.g.tables m) (hd : DistinctLiterals env.g)
    (hlook : SafeLookahead env.g env.upper) (hst : ∀ (s : Nat) k, ∀ r ∈ m s k, r.state ≠ -128)
    (heoi : ∀ (s : Nat) k, m s k ≠ [] → 0 ≤ k ∨ k = anyToken ∨ k = eoiTokenType)
    (fuel : Nat) (src : σ) (pos : SrcPos) (pc : PC σ) (h : parse env fuel src pos = .done (.ok pc)) :
    ∃ items, leavesOf items = (consumedBy pc.steps).reduceOption ∧
      Described env.g env.upper (fun i w => ∃ f : Nat, env.g.firsts[i]? = some f ∧ Accepts m f w) items := by
  obtain ⟨items, ⟨hooks, results, -, ⟨f, hf, hw⟩, -⟩, h4, -⟩ := parse_closed
    (P := fun tok s r => ∃ rules, findRules env.g env.upper tok s = some rules ∧ r ∈ rules) (follows_inv hlook)
    (fun hi hs h => follows_rule hlook hi hs h)
    (fun pc0 h0 => by obtain ⟨_, _, _, rfl⟩ := pushNode_spec h0; exact follows_nil rfl) h
  obtain ⟨w, h5, h6⟩ := walk_spells (g := env.g) (upper := env.upper) (m := m) (rel := Stands env.g env.upper) (by
      intro x t n k r hr hk hx hn _ ht
      unfold Rule.reads at hx
      rw [if_pos (show _ = sameNode from hn)] at hx
      split at hx
      · cases hx
      · rename_i hany
        split at hx
        · cases hx
          rcases ht with ⟨i, rfl, ht⟩ | ⟨h0, -⟩
          · rw [hk]; simpa [Stands] using ht
          · omega
        · cases hx
          rcases ht with ⟨i, rfl, ht⟩ | ⟨h0, ht⟩
          · omega
          · rcases heoi n k (List.ne_nil_of_mem hr) with h | h | h
            · omega
            · exact absurd (hk.trans h) hany
            · rw [Stands, ht, h])
    (fun tok s r ⟨rules, h1, h2⟩ => findRules_usable hm hd h1 h2) hst hw
  have h7 := h6 [] .final
  rw [List.append_nil] at h7
  exact ⟨items, h4, w, ⟨f, hf, h7⟩, h5⟩

/-- A rule slice under a negative key is used by one state, or leads to a state with no dropped state before it (the
hypothesis of `C28_renumbered_partial`). -/
def SharedSafe (pr : PR) (firsts : List Nat) : Prop :=
  ∀ (i j : Nat) (e f : Entry) (k : Int) (c : Nat), i ≠ j → pr.states[i]? = some e → pr.states[j]? = some f →
    e.neg k = some c → f.neg k = some c → ∀ r ∈ pr.rules i k, ∀ t : Nat, (t : Int) ≤ r.state → Used pr firsts t

theorem used_retyped {pr pr' : PR} (h : Retyped pr pr') {fs : List Nat} {i : Nat} : Used pr' fs i ↔ Used pr fs i := by
  unfold Used
  simp only [h.rules]

theorem SharedSafe.retyped {pr pr' : PR} (h : Retyped pr pr') {fs : List Nat} (hs : SharedSafe pr fs) : SharedSafe pr' fs := by
  intro i j e f k c hij he hf hc hc' r hr t ht
  obtain ⟨e1, h1, -, -, h2⟩ := h.entry i e he
  obtain ⟨f1, h3, -, -, h4⟩ := h.entry j f hf
  rw [used_retyped h]
  rw [h.rules] at hr
  exact hs i j e1 f1 k c hij h1 h3 (by rw [← h2]; exact hc) (by rw [← h4]; exact hc') r hr t ht

/-- Description of a language: tokens, node definitions and map orders, for which compilation succeeds. -/
structure Compiled (upper : List Nat → List Nat) (find : Nat → List Nat → List Nat) (ts : List GToken) (bodies : List Chunk)
    (order1 order2 order3 : List Nat) (fuel : Nat) (g : Grammar) : Prop where
  ok : compile upper find ts (bodies.map some) order1 order2 order3 fuel = .done (.ok g)
  wf : ∀ c ∈ bodies, WF c ∧ IsBody c
  defined : ∀ c ∈ bodies, ∀ j ∈ refs c, j < bodies.length
  order2 : order2.Perm (List.range bodies.length)
  order3 : order3.Perm (List.range bodies.length)

/-- Dropping unused states of the machines is safe. -/
def SafeMachines (bodies : List Chunk) (order2 order3 : List Nat) (fuel : Nat) : Prop :=
  ∀ ft pr fs, resolveDependencies (fun i => (bodies[i]?).getD .eoi) (fun i => ((bodies[i]?).getD .eoi).nodes)
    order2 order3 fuel = .done (.ok ft) → buildNodes ft bodies {} = some (pr, fs) → SharedSafe pr fs

/-- C51, partial: the machines in the tables of a compiled grammar accept exactly the words of the definitions of their
nodes. Missing: definitions which are not `LoopOk` (C29), unsafe dropping of states (C28), `$`. -/
theorem C51_compiled_language_partial {upper : List Nat → List Nat} {find : Nat → List Nat → List Nat} {ts : List GToken}
    {bodies : List Chunk} {order1 order2 order3 : List Nat} {fuel : Nat} {g : Grammar}
    (h : Compiled upper find ts bodies order1 order2 order3 fuel g) (hloop : ∀ c ∈ bodies, LoopOk true c)
    (hsafe : SafeMachines bodies order2 order3 fuel) :
    ∃ m, Means g.tables m ∧ (∀ (s : Nat) k, ∀ r ∈ m s k, r.state ≠ -128) ∧ g.firsts.length = bodies.length ∧
      ∀ (i : Nat) (c : Chunk) (f : Nat), bodies[i]? = some c → g.firsts[i]? = some f →
        ∀ w, Accepts m f w ↔ w ∈ lang c := by
  obtain ⟨ttypes, ft, pr, fs, pr', -, -, -, hres, hb, -, has, hg, -⟩ := compile_steps h.ok
  have hid : (bodies.map some).filterMap id = bodies := by simp
  rw [hid] at hres hb
  obtain ⟨hs1, hs2, hs3⟩ := resolved_sets (fun c hc => (h.wf c hc).1) h.defined h.order2 h.order3 hres
  have hmem : ∀ i < bodies.length, (bodies[i]?).getD .eoi ∈ bodies := by
    intro i hi
    rw [List.getElem?_eq_getElem hi]
    exact List.getElem_mem hi
  have hft : ∀ i, ∀ k ∈ ft i, 0 ≤ k := by
    intro i k hk
    by_cases hi : i < bodies.length
    · refine starts_nonneg (n := bodies.length) ?_ ?_ ((hs1 i hi k).mp hk) hi
      · intro i hi w hw
        exact lang_noEoi _ (loopOk_noEoi true _ (hloop _ (hmem i hi))) w hw
      · intro i hi w hw j hj
        exact h.defined _ (hmem i hi) j (lang_refs _ w hw j hj)
    · rw [hs3 i (by omega)] at hk; simp at hk
  obtain ⟨pr2, fs2, hb2, hl, hacc⟩ := C29_machine_language_partial ft bodies hft
    (fun c hc => ⟨(h.wf c hc).1, (h.wf c hc).2, hloop c hc⟩) (fun c hc i hi => hs2 i (h.defined c hc i hi))
  rw [hb] at hb2; cases hb2
  obtain ⟨pr2, fs2, hb2, hgr, -, hfirst⟩ := buildNodes_spec ft bodies (fun c hc => (h.wf c hc).1) ok_empty
  rw [hb] at hb2; cases hb2
  obtain ⟨hre, -⟩ := assignStateTypes_spec fs has
  have hok' := hre.ok hgr.ok
  obtain ⟨hmeans, hfs, -, -⟩ := buildGrammar_means hok' hg
  have hrules : pr'.rules = pr.rules := by funext s k; exact hre.rules s k
  have hlt : ∀ f ∈ fs, f < pr'.states.length := by
    intro f hf
    obtain ⟨i, hi, rfl⟩ := List.getElem_of_mem hf
    obtain ⟨p, q, -, -, -, -, h1, h2⟩ := hfirst i _ _ (List.getElem?_eq_getElem (by rw [← hl]; exact hi)) (List.getElem?_eq_getElem hi)
    have := h2.len
    rw [hre.len]; omega
  refine ⟨_, hmeans, fun s k r hr => ?_, ?_, fun i c f hc hf w => ?_⟩
  · have := ((dropUnused_ok (firsts := fs) hok').tgt s k r hr).1
    unfold finalState at this; omega
  · rw [hfs, dropUnused_firsts, List.length_map, hl]
  · have hi : i < fs.length := by rw [hl]; exact (List.getElem?_eq_some_iff.mp hc).1
    rw [hfs] at hf
    rw [C28_same_words_partial pr' fs hok' hlt ((hsafe ft pr fs hres hb).retyped hre) i fs[i] f
      (List.getElem?_eq_getElem hi) hf w, hrules]
    exact hacc i c _ hc (List.getElem?_eq_getElem hi) w

/-- C51, partial: for a compiled grammar in which no branch is overwritten during a lookahead, a successful parse means that the consumed
tokens are the leaves of a tree described by the grammar: the content of every node, with nested nodes as symbols, is a
word of the definition of the node, and every token is what the definition says. This holds for any token pipeline and
hooks. Missing: other grammars with conflicts, for which it is false (C31); definitions which are not `LoopOk` (C29), unsafe
dropping of states (C28), `$`. -/
theorem C51_accepted_is_described_partial {upper : List Nat → List Nat} {find : Nat → List Nat → List Nat} {ts : List GToken}
    {bodies : List Chunk} {order1 order2 order3 : List Nat} {fuel : Nat} {g : Grammar}
    (h : Compiled upper find ts bodies order1 order2 order3 fuel g) (hloop : ∀ c ∈ bodies, LoopOk true c)
    (hsafe : SafeMachines bodies order2 order3 fuel) (hd : DistinctLiterals g)
    (env : PEnv σ) (henv : env.g = g) (hlook : SafeLookahead env.g env.upper) (fuel' : Nat) (src : σ) (pos : SrcPos) (pc : PC σ)
    (hp : parse env fuel' src pos = .done (.ok pc)) :
    ∃ items, leavesOf items = (consumedBy pc.steps).reduceOption ∧
      Described g env.upper (fun i w => ∃ c, bodies[i]? = some c ∧ w ∈ lang c) items := by
  subst henv
  obtain ⟨m, hm, hst, hlen, hacc⟩ := C51_compiled_language_partial h hloop hsafe
  obtain ⟨items, ⟨hooks, results, -, ⟨f, hf, hw⟩, -⟩, h4, -⟩ := parse_closed
    (P := fun tok s r => ∃ rules, findRules env.g env.upper tok s = some rules ∧ r ∈ rules) (follows_inv hlook)
    (fun hi hs h => follows_rule hlook hi hs h)
    (fun pc0 h0 => by obtain ⟨_, _, _, rfl⟩ := pushNode_spec h0; exact follows_nil rfl) hp
  obtain ⟨w, h5, h6⟩ := walk_spells (g := env.g) (upper := env.upper) (m := m) (rel := Loose env.g env.upper) (by
      intro x t n k r hr hk hx hn _ ht
      unfold Rule.reads at hx
      rw [if_pos (show _ = sameNode from hn)] at hx
      split at hx
      · cases hx
      · split at hx
        · cases hx
          rcases ht with ⟨i, rfl, ht⟩ | ⟨h0, -⟩
          · rw [hk]; simpa [Loose] using ht
          · omega
        · cases hx
          rcases ht with ⟨i, rfl, ht⟩ | ⟨h0, ht⟩
          · omega
          · rw [Loose, ht]; exact h0)
    (fun tok s r ⟨rules, h1, h2⟩ => findRules_usable hm hd h1 h2) hst hw
  have h7 := h6 [] .final
  rw [List.append_nil] at h7
  have hL : ∀ (i f : Nat) (u : List Sym), env.g.firsts[i]? = some f → Accepts m f u →
      (∃ c, bodies[i]? = some c ∧ u ∈ lang c) ∧ ∀ x ∈ u, x ≠ Sym.eoi := by
    intro i f u hf hu
    have hi : i < bodies.length := by rw [← hlen]; exact (List.getElem?_eq_some_iff.mp hf).1
    have hc := List.getElem?_eq_getElem hi
    have hin := (hacc i _ f hc hf u).mp hu
    refine ⟨⟨_, hc, hin⟩, ?_⟩
    rintro x hx rfl
    exact lang_noEoi _ (loopOk_noEoi true _ (hloop _ (List.getElem_mem hi))) u hin hx
  obtain ⟨h8, h9⟩ := hL _ _ _ hf h7
  refine ⟨items, h4, w, h8, ?_⟩
  refine spells_mono (Q := fun x => x ≠ .eoi) ?_ ?_ h5 h9
  · intro x t hq hx
    cases x with
    | tok k => exact hx
    | eoi => exact absurd rfl hq
    | node i => exact hx
  · rintro i u - ⟨f, hf, hu⟩
    exact hL i f u hf hu

/-- A check for `SharedSafe`. -/
def sharedSafe (pr : PR) (fs : List Nat) : Bool :=
  (List.range pr.states.length).all fun i => (List.range pr.states.length).all fun j =>
    i == j || (match pr.states[i]?, pr.states[j]? with
      | some e, some f => (sorted e.keys).all fun k =>
        (e.neg k).isNone || e.neg k != f.neg k || (pr.rules i k).all fun r =>
          (List.range pr.states.length).all fun t => decide ((t : Int) ≤ r.state → t ∈ pr.usedStates fs)
      | _, _ => true)

theorem sharedSafe_spec {pr : PR} (hok : pr.Ok) {fs : List Nat} (h : sharedSafe pr fs = true) : SharedSafe pr fs := by
  intro i j e f k c hij he hf hc hc' r hr t ht
  have hi := (List.getElem?_eq_some_iff.mp he).1
  have hj := (List.getElem?_eq_some_iff.mp hf).1
  have hk : k ∈ e.keys := by
    rw [hok.keys i e k he]
    have : pr.rules i k = pr.slot e k := by rw [PR.rules, he]
    rw [← this]
    exact List.ne_nil_of_mem hr
  have h1 := List.all_eq_true.mp (List.all_eq_true.mp h i (List.mem_range.mpr hi)) j (List.mem_range.mpr hj)
  rw [he, hf] at h1
  simp only [Bool.or_eq_true, beq_iff_eq, hij, false_or] at h1
  have h2 := List.all_eq_true.mp h1 k (mem_sorted.mpr hk)
  simp only [hc, hc', Option.isNone_some, bne_self_eq_false, Bool.or_false, Bool.false_or] at h2
  have h3 := List.all_eq_true.mp h2 r hr
  have hlt := (hok.tgt i k r hr).2
  have h4 := List.all_eq_true.mp h3 t (List.mem_range.mpr (by omega))
  have hu := (decide_eq_true_eq.mp h4) ht
  rcases (Finset.mem_filter.mp hu).2 with h | ⟨e, he, k, -, r, hr, hri⟩
  · exact Or.inl h
  · obtain ⟨s, hs, rfl⟩ := List.getElem_of_mem he
    refine Or.inr ⟨s, k, r, ?_, hri⟩
    rw [PR.rules, List.getElem?_eq_getElem hs]; exact hr

theorem safe_of_check {bodies : List Chunk} {order2 order3 : List Nat} {fuel : Nat} (hwf : ∀ c ∈ bodies, WF c)
    (h : (match resolveDependencies (fun i => (bodies[i]?).getD .eoi) (fun i => ((bodies[i]?).getD .eoi).nodes)
      order2 order3 fuel with
      | .done (.ok ft) => match buildNodes ft bodies {} with
        | some (pr, fs) => sharedSafe pr fs
        | none => true
      | _ => true) = true) : SafeMachines bodies order2 order3 fuel := by
  intro ft pr fs h1 h2
  rw [h1] at h
  dsimp only at h
  rw [h2] at h
  obtain ⟨pr2, fs2, hb2, hgr, -⟩ := buildNodes_spec ft bodies hwf ok_empty
  rw [h2] at hb2; cases hb2
  exact sharedSafe_spec hgr.ok h

theorem distinct_of {g : Grammar} (h : ((g.tokens.filter fun t => t.flags.literal).map (·.name)).Nodup) : DistinctLiterals g := by
  have key : ∀ (a b : GToken) (_ : a.flags.literal = true) (_ : b.flags.literal = true) (_ : a.name = b.name)
      (l : List GToken) (i j : Nat), i < j → l[i]? = some a → l[j]? = some b →
      ¬ ((l.filter fun t => t.flags.literal).map (·.name)).Nodup := by
    intro a b ha hb hn l
    induction l with
    | nil => intro i j _ hi; simp at hi
    | cons x xs ih =>
      intro i j hlt hi hj hnd
      obtain ⟨j, rfl⟩ : ∃ k, j = k + 1 := ⟨j - 1, by omega⟩
      rw [List.getElem?_cons_succ] at hj
      cases i with
      | zero =>
        simp only [List.getElem?_cons_zero, Option.some.injEq] at hi
        subst hi
        rw [List.filter_cons_of_pos (by simpa using ha), List.map_cons, List.nodup_cons] at hnd
        refine hnd.1 (List.mem_map.mpr ⟨b, List.mem_filter.mpr ⟨List.mem_of_getElem? hj, by simpa using hb⟩, hn.symm⟩)
      | succ i =>
        rw [List.getElem?_cons_succ] at hi
        refine ih i j (by omega) hi hj ?_
        by_cases hx : x.flags.literal = true
        · rw [List.filter_cons_of_pos (by simpa using hx), List.map_cons, List.nodup_cons] at hnd
          exact hnd.2
        · rw [List.filter_cons_of_neg (by simpa using hx)] at hnd
          exact hnd
  intro i j a b hi hj ha hb hn
  by_contra hij
  rcases Nat.lt_or_gt_of_ne hij with hlt | hlt
  · exact key a b ha hb hn _ i j hlt hi hj h
  · exact key b a hb ha hn.symm _ j i hlt hj hi h

/-- `root = {item}, 'y'; item = $n, ['1'], item | 'x'` with nested items. -/
def sampleNested : List Chunk :=
  [cSeq [cRep [.node 1], cY], cSeq [.variant [cSeq [.token 0, cOpt [.token 5], .node 1], cX]]]

/-- `root = {item}, 'y'; item = a | b; a = $n, $n, 'x'; b = $n, ['1'], 'y'`: a conflict. -/
def sampleConflict : List Chunk :=
  [cSeq [cRep [.node 1], cY], cSeq [.variant [.node 2, .node 3]], cSeq [.token 0, .token 0, cX],
    cSeq [.token 0, cOpt [.token 5], .token 1]]

/-- The hypotheses of the theorems hold for a sample grammar, and the text is accepted. -/
def SampleOk (defs : List Chunk) (text : String) : Prop :=
  ∃ g, Compiled id sampleFind sampleTokens defs (List.range defs.length) (List.range defs.length) (List.range defs.length) 100 g ∧
    (∀ c ∈ defs, LoopOk true c) ∧ SafeMachines defs (List.range defs.length) (List.range defs.length) 100 ∧ DistinctLiterals g ∧
    SafeLookahead g id ∧ ∃ pc, parse (streamEnv g) 100 (charTokens text) ⟨none, 0⟩ = .done (.ok pc)

theorem sampleOk {defs : List Chunk} {text : String} (S : List Nat)
    (hc : (match sampleCompile defs with
      | .done (.ok g) => decide (((g.tokens.filter fun t => t.flags.literal).map (·.name)).Nodup) && calmCheck g S &&
        (match parse (streamEnv g) 100 (charTokens text) ⟨none, 0⟩ with
        | .done (.ok _) => true
        | _ => false)
      | _ => false) = true) (hwf : ∀ c ∈ defs, WF c ∧ IsBody c) (hrefs : ∀ c ∈ defs, ∀ j ∈ refs c, j < defs.length)
    (hloop : ∀ c ∈ defs, LoopOk true c)
    (hsafe : SafeMachines defs (List.range defs.length) (List.range defs.length) 100) : SampleOk defs text := by
  split at hc
  · rename_i g hs
    simp only [Bool.and_eq_true, decide_eq_true_eq] at hc
    obtain ⟨⟨h1, h2⟩, h3⟩ := hc
    obtain ⟨m, hm⟩ := compiled_means hs (fun c hc => (hwf c hc).1)
    refine ⟨g, ⟨hs, hwf, hrefs, List.Perm.refl _, List.Perm.refl _⟩, hloop, hsafe, distinct_of h1,
      safe_of_calm hm (calm_of_check hm h2), ?_⟩
    split at h3
    · rename_i pc hp; exact ⟨pc, hp⟩
    · cases h3
  · cases hc

/-- All hypotheses of the theorems hold for the sample grammar, and the input `a b1 x x y` is accepted. -/
example : SampleOk sampleNested "a b1 x x y" := by
  have hwf : ∀ c ∈ sampleNested, WF c ∧ IsBody c := by
    simp [sampleNested, cSeq, cRep, cOpt, cX, cY, WF, WFs, IsBody]
  refine sampleOk [] (by decide +kernel) hwf ?_ ?_ (safe_of_check (fun c hc => (hwf c hc).1) (by decide +kernel))
  · simp [sampleNested, cSeq, cRep, cOpt, cX, cY, refs, refsAll]
  · simp [sampleNested, cSeq, cRep, cOpt, cX, cY, LoopOk, LoopOkSeq, LoopOkAny]

/-- The same with a conflict. -/
example : SampleOk sampleConflict "abx c12 d3 y" := by
  have hwf : ∀ c ∈ sampleConflict, WF c ∧ IsBody c := by
    simp [sampleConflict, cSeq, cRep, cOpt, cX, cY, WF, WFs, IsBody]
  refine sampleOk [2, 3, 4, 5, 6, 7] (by decide +kernel) hwf ?_ ?_ (safe_of_check (fun c hc => (hwf c hc).1) (by decide +kernel))
  · simp [sampleConflict, cSeq, cRep, cOpt, cX, cY, refs, refsAll]
  · simp [sampleConflict, cSeq, cRep, cOpt, cX, cY, LoopOk, LoopOkSeq, LoopOkAny]

end Verif.Props
