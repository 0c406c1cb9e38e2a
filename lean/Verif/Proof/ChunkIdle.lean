/-
Compiled grammars have no idle loops.
-/
import Mathlib.Data.Prod.Lex
import Mathlib.Data.Finset.Lattice.Fold
import Verif.Proof.ChunkFalls
import Verif.Proof.ChunkNodes
import Verif.Spec.Weights
import Verif.Props.Sound

namespace Verif.Proof

open Verif Verif.Model Verif.Model.PR Verif.Spec Verif.Spec.Ebnf Verif.Props

/-- Value of the first state of a node. -/
def nodeWt (E : Nat → Bool) (i : Nat) (c : Chunk) : Wt := (if E i then 1 else -1, leftNodes E c)

theorem buildNodes_falls {E : Nat → Bool} (ft : Nat → Finset Int) (cs : List Chunk) (hc : ∀ c ∈ cs, WF c) (hmv : ∀ c ∈ cs, LoopsMove E c)
    (k : Nat) (hE : ∀ (i : Nat) c, cs[i]? = some c → mayBeEmpty E c = true ∨ ¬ NoEoi c → E (k + i) = true)
    {pr : PR} (h : pr.Ok) (D : Int → Wt) (hfin : D finalState = (0, ∅)) (hall : ∀ x, FallsAt E pr D x)
    {pr' : PR} {fs : List Nat} (he : buildNodes ft cs pr = some (pr', fs)) :
    ∃ D' : Int → Wt, (∀ x : Int, x < pr.states.length → D' x = D x) ∧ (∀ x, FallsAt E pr' D' x) ∧
      ∀ (i : Nat) (c : Chunk) (f : Nat), cs[i]? = some c → fs[i]? = some f → D' f = nodeWt E (k + i) c := by
  induction cs generalizing pr D fs k with
  | nil =>
    rw [buildNodes] at he
    cases he
    exact ⟨D, fun _ _ => rfl, hall, by simp⟩
  | cons c cs ih =>
    have hl := addState_length pr
    obtain ⟨q, heq, hg⟩ := Chunk.build_grown ft c (hc c (by simp)) (addState_ok h) (s := pr.states.length)
      (t := finalState) (by omega) (le_refl _) (by unfold finalState; omega)
    have hgl := hg.len
    obtain ⟨p', fs', he', hg', hfl, _⟩ := buildNodes_spec ft cs (fun c hc' => hc c (by simp [hc'])) hg.ok
    rw [buildNodes, heq, Option.bind_some, he'] at he
    simp only [Option.map_some, Option.some.injEq, Prod.mk.injEq] at he
    obtain ⟨rfl, rfl⟩ := he
    let D1 : Int → Wt := Function.update D pr.states.length (nodeWt E k c)
    have hD1 : ∀ x : Int, x < pr.states.length → D1 x = D x :=
      fun x hx => Function.update_of_ne (by omega) _ _
    have hD1f : D1 finalState = (0, ∅) := by rw [hD1 _ (by unfold finalState; omega)]; exact hfin
    have hD1s : D1 pr.states.length = nodeWt E k c := Function.update_self ..
    have hs1 : ∀ j, FallsAt E pr.addState D1 j := by
      intro j
      exact (hall j).congr h (fun k => by rw [addState_rules]) hD1
    have hE0 := hE 0 c (by simp)
    obtain ⟨D2, hD2, hall2⟩ := Chunk.build_falls ft c (hc c (by simp)) (hmv c (by simp)) (E k)
      (fun hb => by
        by_contra hn
        rw [Nat.add_zero, hb] at hE0
        exact absurd (hE0 (Or.inr hn)) (by simp)) (addState_ok h)
      (s := pr.states.length) (t := finalState) (by omega) (le_refl _) (by unfold finalState; omega) D1 hD1f hs1 (by
        rw [hD1f, hD1s]
        refine ⟨fun hm => ⟨?_, by simp⟩, le_refl _, fun hb => ⟨?_, le_refl _⟩⟩
        · have : E k = true := hE0 (Or.inl hm)
          simp [nodeWt, this]
        · simp [nodeWt, hb]) heq
    obtain ⟨D3, hD3, hs3, hn3⟩ := ih (fun c hc' => hc c (by simp [hc'])) (fun c hc' => hmv c (by simp [hc'])) (k + 1)
      (fun i c' hc' hm => by
        have := hE (i + 1) c' (by simpa using hc') hm
        rwa [show k + 1 + i = k + (i + 1) by omega]) hg.ok D2
      (by rw [hD2 _ (by unfold finalState; omega)]; exact hD1f) hall2 he'
    refine ⟨D3, ?_, hs3, ?_⟩
    · intro x hx
      rw [hD3 x (by omega), hD2 x (by omega), hD1 x hx]
    · intro i c' s hci hsi
      cases i with
      | zero =>
        simp only [List.getElem?_cons_zero, Option.some.injEq] at hci hsi
        subst hci hsi
        rw [hD3 _ (by omega), hD2 _ (by omega), hD1s, Nat.add_zero]
      | succ i =>
        simp only [List.getElem?_cons_succ] at hci hsi
        rw [hn3 i c' s hci hsi, show k + 1 + i = k + (i + 1) by omega]

/-- A table that agrees with the weights has no idle loops. -/
theorem noIdleLoops_of_falls {E : Nat → Bool} {g : Grammar} {m : Nat → Int → List Rule} {D : Int → Wt} {bodies : List Chunk}
    (hfin : D (-1) = (0, ∅)) (htok : ∀ (s : Nat) k, ∀ r ∈ m s k, r.token = k) (hst : ∀ (s : Nat) k, ∀ r ∈ m s k, r.state ≠ -128)
    (hD : ∀ (s : Nat) k, ∀ r ∈ m s k, RuleFalls E D (D s) r)
    (hf : ∀ i f : Nat, g.firsts[i]? = some f → ∃ c, bodies[i]? = some c ∧ D f = nodeWt E i c)
    (hr : ∃ rank : Nat → Nat, ∀ (i : Nat) c, bodies[i]? = some c → ∀ j ∈ leftNodes E c, rank j < rank i) : NoIdleLoops g m := by
  obtain ⟨rank, hrank⟩ := hr
  have hafter : ∀ {s : Nat} {k r}, r ∈ m s k → after r s = r.state := fun h => if_neg (hst _ _ _ h)
  have hstay : ∀ {s : Nat} {k r}, r ∈ m s k → r.node = -1 → k = -1 ∨ k = -3 → Falls (D s) (D r.state) := by
    intro s k r h hn hk
    refine (hD s k r h).1 hn ?_
    rw [htok s k r h]
    exact hk
  have hskip : ∀ x, CanSkip g m x → 0 ≤ (D x).1 ∧ (x ≠ -1 → 0 < (D x).1) := by
    intro x hx
    induction hx with
    | ended => rw [hfin]; simp
    | stay h hn hk _ ih =>
      rw [hafter h] at ih
      have := (hstay h hn hk).1
      exact ⟨by linarith [ih.1], fun _ => by linarith [ih.1]⟩
    | push h hn hff _ _ ih1 ih2 =>
      rw [hafter h] at ih2
      obtain ⟨c, -, hc⟩ := hf _ _ hff
      have h1 := ih1.2 (by omega)
      rw [hc, nodeWt] at h1
      have hE := ((hD _ _ _ h).2 _ hn).2 (by
        by_contra hne
        rw [Bool.not_eq_true] at hne
        rw [hne] at h1
        simp at h1
        linarith)
      exact ⟨by linarith [ih2.1, hE.1], fun _ => by linarith [ih2.1, hE.1]⟩
  let R : Int → Nat := fun x => (D x).2.sup fun j => rank j + 1
  let M : Int → ℕ ×ₗ ℚ := fun x => toLex (R x, (D x).1)
  have hfalls : ∀ {x y}, Falls (D x) (D y) → M y < M x := by
    intro x y h
    have h1 : R y ≤ R x := Finset.sup_mono h.2
    rw [Prod.Lex.toLex_lt_toLex]
    rcases h1.lt_or_eq with h2 | h2
    · exact Or.inl h2
    · exact Or.inr ⟨h2, h.1⟩
  have hstep : ∀ {x y}, IdleStep g m x y → M y < M x := by
    intro x y h
    cases h with
    | stay hs h hn hk => rw [hafter h]; exact hfalls (hstay h hn hk)
    | enter hs h hn hff =>
      rename_i s k r i f
      obtain ⟨c, hc, hc'⟩ := hf _ _ hff
      have h1 : R f < R s := by
        have h2 : rank i + 1 ≤ R s := Finset.le_sup (f := fun j => rank j + 1) ((hD _ _ _ h).2 _ hn).1
        have h3 : R f ≤ rank i := by
          refine Finset.sup_le fun j hj => ?_
          rw [hc'] at hj
          exact hrank i c hc j hj
        omega
      rw [Prod.Lex.toLex_lt_toLex]
      exact Or.inl h1
    | leave hs h hn hff hsk =>
      rename_i s k r i f
      rw [hafter h]
      obtain ⟨c, hc, hc'⟩ := hf _ _ hff
      have h1 := (hskip _ hsk).2 (by omega)
      rw [hc', nodeWt] at h1
      refine hfalls (((hD _ _ _ h).2 _ hn).2 ?_)
      by_contra hne
      rw [Bool.not_eq_true] at hne
      rw [hne] at h1
      simp at h1
      linarith
  intro s hs
  have : ∀ {x y}, Relation.TransGen (IdleStep g m) x y → M y < M x := by
    intro x y h
    induction h with
    | single h => exact hstep h
    | tail _ h ih => exact (hstep h).trans ih
  exact lt_irrefl _ (this hs)

/-- Compiled grammars have no idle loops. -/
theorem compiled_noIdleLoops {upper : List Nat → List Nat} {find : Nat → List Nat → List Nat} {ts : List GToken}
    {bodies : List Chunk} {order1 order2 order3 : List Nat} {fuel : Nat} {g : Grammar}
    (h : Compiled upper find ts bodies order1 order2 order3 fuel g) {E : Nat → Bool} (hmv : Moves E bodies)
    (hsafe : SafeMachines bodies order2 order3 fuel) :
    ∃ m, Means g.tables m ∧ NoIdleLoops g m := by
  obtain ⟨ttypes, ft, pr, fs, pr', -, -, -, hres, hb, -, has, hg, -⟩ := compile_steps h.ok
  have hid : (bodies.map some).filterMap id = bodies := by simp
  rw [hid] at hres hb
  obtain ⟨pr2, fs2, hb2, hgr, hl, hfirst⟩ := buildNodes_spec ft bodies (fun c hc => (h.wf c hc).1) ok_empty
  rw [hb] at hb2; cases hb2
  obtain ⟨D, hD0, hD, hDf⟩ := buildNodes_falls ft bodies (fun c hc => (h.wf c hc).1) hmv.loops 0
    (fun i c hc hm => by rw [Nat.zero_add]; exact hmv.empty i c hc hm) ok_empty (fun _ => (0, ∅)) rfl
    (fun x => fallsAt_of_ge (by simp)) hb
  obtain ⟨hre, -⟩ := assignStateTypes_spec fs has
  have hok' := hre.ok hgr.ok
  obtain ⟨hmeans, hfs, -, -⟩ := buildGrammar_means hok' hg
  have hrules : ∀ s k, pr'.rules s k = pr.rules s k := hre.rules
  have hlt : ∀ f ∈ fs, f < pr'.states.length := by
    intro f hf
    obtain ⟨i, hi, rfl⟩ := List.getElem_of_mem hf
    obtain ⟨p, q, -, -, -, -, h1, h2⟩ := hfirst i _ _ (List.getElem?_eq_getElem (by rw [← hl]; exact hi)) (List.getElem?_eq_getElem hi)
    have := h2.len
    rw [hre.len]; omega
  obtain ⟨num, hn1, hn2, hn3, hn4⟩ := C28_renumbered_partial pr' fs hok' hlt ((hsafe ft pr fs hres hb).retyped hre)
  have hinj : ∀ i j, Used pr' fs i → Used pr' fs j → num i = num j → i = j := by
    intro i j hi hj he
    rcases Nat.lt_trichotomy i j with h1 | h1 | h1
    · have := hn1 i j hi hj h1; omega
    · exact h1
    · have := hn1 j i hj hi h1; omega
  classical
  let D' : Int → Wt := fun x => if hx : ∃ i, Used pr' fs i ∧ (num i : Int) = x then D hx.choose else (0, ∅)
  have hD' : ∀ i, Used pr' fs i → D' (num i) = D i := by
    intro i hi
    have hx : ∃ j, Used pr' fs j ∧ (num j : Int) = num i := ⟨i, hi, rfl⟩
    have h1 := hx.choose_spec
    show (if hx : ∃ j, Used pr' fs j ∧ (num j : Int) = num i then D hx.choose else (0, ∅)) = _
    rw [dif_pos hx, hinj _ _ h1.1 hi (by exact_mod_cast h1.2)]
  have hDneg : D' (-1) = (0, ∅) := dif_neg (by rintro ⟨i, -, h⟩; omega)
  have hDfin : D (-1) = (0, ∅) := hD0 _ (by simp)
  refine ⟨_, hmeans, noIdleLoops_of_falls (E := E) (D := D') (bodies := bodies) hDneg hmeans.token (fun s k r hr => ?_)
    (fun s k r hr => ?_) (fun i f hf => ?_) hmv.left⟩
  · have := ((dropUnused_ok (firsts := fs) hok').tgt s k r hr).1
    unfold finalState at this; omega
  · have hs := rules_lt hr
    obtain ⟨i, hi, rfl⟩ := (hn2 s).mp hs
    rw [hn4 i hi k] at hr
    obtain ⟨r0, hr0, rfl⟩ := List.mem_map.mp hr
    have h1 := hD i k r0 (by rw [← hrules]; exact hr0)
    have h2 : D' (renumbered num r0).state = D r0.state := by
      unfold renumbered
      split
      · next h0 =>
        simp only
        rw [hD' _ (Or.inr ⟨i, k, r0, hr0, (Int.toNat_of_nonneg h0).symm⟩), Int.toNat_of_nonneg h0]
      · next h0 =>
        have := (hok'.tgt i k r0 hr0).1
        have : r0.state = -1 := by unfold finalState at this; omega
        rw [this, hDneg, hDfin]
    have h3 : (renumbered num r0).node = r0.node ∧ (renumbered num r0).token = r0.token := by
      unfold renumbered; split <;> exact ⟨rfl, rfl⟩
    unfold RuleFalls at h1 ⊢
    rw [hD' i hi, h2, h3.1, h3.2]
    exact h1
  · rw [hfs, hn3, List.getElem?_map] at hf
    obtain ⟨f0, hf0, rfl⟩ := Option.map_eq_some_iff.mp hf
    have hi : i < bodies.length := by rw [← hl]; exact (List.getElem?_eq_some_iff.mp hf0).1
    refine ⟨_, List.getElem?_eq_getElem hi, ?_⟩
    rw [hD' f0 (Or.inl (List.mem_of_getElem? hf0)), hDf i _ f0 (List.getElem?_eq_getElem hi) hf0, Nat.zero_add]

end Verif.Proof
