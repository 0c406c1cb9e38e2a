import Mathlib.Order.WellFounded
import Mathlib.Data.Fintype.EquivFin
import Mathlib.Algebra.Order.BigOperators.Group.List
import Verif.Proof.SupplyHalts
import Verif.Proof.Calm

namespace Verif.Proof

open Verif Verif.Model Verif.Spec

variable {g : Grammar} {m : Nat → Int → List Rule}

/-- Rules of existing states only. -/
def ofStates (g : Grammar) (m : Nat → Int → List Rule) (s : Nat) (k : Int) : List Rule :=
  if s < g.tables.states.length then m s k else []

theorem mem_ofStates {s : Nat} {k : Int} {r : Rule} : r ∈ ofStates g m s k ↔ s < g.tables.states.length ∧ r ∈ m s k := by
  unfold ofStates
  split <;> simp_all

theorem means_ofStates (hm : Means g.tables m) : Means g.tables (ofStates g m) := by
  refine ⟨fun s gs hs keys => ?_, fun s k r hr => hm.token s k r (mem_ofStates.mp hr).2⟩
  have : s < g.tables.states.length := (List.getElem?_eq_some_iff.mp hs).1
  rw [hm.find s gs hs keys]
  congr 2
  funext k
  rw [ofStates, if_pos this]

theorem mem_rules (hm : Means g.tables m) {s : Nat} {k : Int} {r : Rule} (hs : s < g.tables.states.length) (hr : r ∈ m s k) :
    r ∈ g.tables.rules := by
  refine findRulesBy_mem (hm.find s _ (List.getElem?_eq_getElem hs) [k]) ?_
  unfold firstRules
  by_cases h : m s k = []
  · rw [h] at hr; cases hr
  · simpa [h] using hr

theorem canSkip_ofStates {x : Int} (h : CanSkip g (ofStates g m) x) : CanSkip g m x := by
  induction h with
  | ended => exact .ended
  | stay hr hn hk _ ih => exact .stay (mem_ofStates.mp hr).2 hn hk ih
  | push hr hn hf _ _ ih1 ih2 => exact .push (mem_ofStates.mp hr).2 hn hf ih1 ih2

/-- States that may follow. -/
def targets (g : Grammar) : List Int :=
  (List.range g.tables.states.length).flatMap (fun s : Nat => g.tables.rules.map fun r => after r (s : Int)) ++
    g.firsts.map (fun f : Nat => (f : Int))

theorem step_target (hm : Means g.tables m) {x y : Int} (h : IdleStep g m x y) : y ∈ targets g := by
  have ha : ∀ {s : Nat} {k r}, s < g.tables.states.length → r ∈ m s k → after r s ∈ targets g := by
    intro s k r hs hr
    refine List.mem_append_left _ (List.mem_flatMap.mpr ⟨s, List.mem_range.mpr hs, ?_⟩)
    exact List.mem_map.mpr ⟨r, mem_rules hm hs hr, rfl⟩
  cases h with
  | stay hs hr _ _ => exact ha hs hr
  | enter hs hr hn hf =>
    exact List.mem_append_right _ (List.mem_map.mpr ⟨_, List.mem_of_getElem? hf, rfl⟩)
  | leave hs hr _ _ _ => exact ha hs hr

theorem step_source {x y : Int} (h : IdleStep g m x y) : ∃ s : Nat, s < g.tables.states.length ∧ x = s := by
  cases h <;> exact ⟨_, ‹_›, rfl⟩

theorem idle_wellFounded (hl : NoIdleLoops g m) : WellFounded (fun y x => IdleStep g m x y) := by
  have hfin : Finite { x : Int // ∃ s : Nat, s < g.tables.states.length ∧ x = s } := by
    refine Finite.of_surjective (fun s : Fin g.tables.states.length => ⟨(s : Nat), s, s.2, rfl⟩) ?_
    rintro ⟨x, s, hs, rfl⟩
    exact ⟨⟨s, hs⟩, rfl⟩
  let R : { x : Int // ∃ s : Nat, s < g.tables.states.length ∧ x = s } → { x : Int // ∃ s : Nat, s < g.tables.states.length ∧ x = s } → Prop :=
    fun y x => Relation.TransGen (IdleStep g m) x.1 y.1
  have hR : WellFounded R := by
    have : IsTrans _ R := ⟨fun a b c h1 h2 => h2.trans h1⟩
    have : Std.Irrefl R := ⟨fun a h => hl _ h⟩
    exact Finite.wellFounded_of_trans_of_irrefl R
  have hacc : ∀ x : { x : Int // ∃ s : Nat, s < g.tables.states.length ∧ x = s }, Acc (fun y x => IdleStep g m x y) x.1 := by
    intro x
    induction x using hR.induction with
    | _ x ih =>
      refine ⟨_, fun y hy => ?_⟩
      by_cases h : ∃ s : Nat, s < g.tables.states.length ∧ y = s
      · exact ih ⟨y, h⟩ (.single hy)
      · exact ⟨_, fun z hz => absurd (step_source hz) h⟩
  refine ⟨fun x => ⟨_, fun y hy => ?_⟩⟩
  by_cases h : ∃ s : Nat, s < g.tables.states.length ∧ y = s
  · exact hacc ⟨y, h⟩
  · exact ⟨_, fun z hz => absurd (step_source hz) h⟩

open Classical in
theorem descends_of_noIdleLoops (hm : Means g.tables m) (hl : NoIdleLoops g m) :
    ∃ w skip, Descends g (ofStates g m) w skip := by
  have hwf := idle_wellFounded hl
  let F : (x : Int) → ((y : Int) → IdleStep g m x y → Nat) → Nat := fun x ih =>
    1 + 2 * (((targets g).map fun y => if h : IdleStep g m x y then ih y h else 0).sum)
  let w : Int → Nat := hwf.fix F
  have hw : ∀ x, w x = 1 + 2 * ((targets g).map fun y => if IdleStep g m x y then w y else 0).sum := by
    intro x
    show hwf.fix F x = _
    rw [hwf.fix_eq]
    show 1 + 2 * (((targets g).map fun y => if h : IdleStep g m x y then w y else 0).sum) = _
    simp only [dite_eq_ite]
  have hle : ∀ {x y}, IdleStep g m x y → 2 * w y < w x := by
    intro x y h
    rw [hw x]
    have h1 : (if IdleStep g m x y then w y else 0) ≤ ((targets g).map fun y => if IdleStep g m x y then w y else 0).sum :=
      List.single_le_sum (by simp) _ (List.mem_map.mpr ⟨y, step_target hm h, rfl⟩)
    rw [if_pos h] at h1
    omega
  refine ⟨w, fun x => decide (CanSkip g (ofStates g m) x), ?_, ?_, ?_⟩
  · exact decide_eq_true .ended
  · intro s k r hr hn hk
    obtain ⟨hs, hr'⟩ := mem_ofStates.mp hr
    refine ⟨?_, fun h => decide_eq_true (.stay hr hn hk (of_decide_eq_true h))⟩
    have := hle (.stay hs hr' hn hk)
    omega
  · intro s k r hr i f hn hf
    obtain ⟨hs, hr'⟩ := mem_ofStates.mp hr
    refine ⟨?_, fun h h' => decide_eq_true (.push hr hn hf (of_decide_eq_true h) (of_decide_eq_true h'))⟩
    have h1 := hle (.enter hs hr' hn hf)
    split
    · rename_i hc
      have h2 := hle (.leave hs hr' hn hf (canSkip_ofStates (of_decide_eq_true hc)))
      omega
    · omega

theorem canSkip_skip {w : Int → Nat} {skip : Int → Bool} (hd : Descends g m w skip) {x : Int} (h : CanSkip g m x) :
    skip x = true := by
  induction h with
  | ended => exact hd.ended
  | stay hr hn hk _ ih => exact (hd.stay _ _ _ hr hn hk).2 ih
  | push hr hn hf _ _ ih1 ih2 => exact (hd.push _ _ _ hr _ _ hn hf).2 ih1 ih2

theorem noIdleLoops_of_descends {w : Int → Nat} {skip : Int → Bool} (hd : Descends g m w skip) : NoIdleLoops g m := by
  have hlt : ∀ {x y}, IdleStep g m x y → w y < w x := by
    intro x y h
    cases h with
    | stay _ hr hn hk => exact (hd.stay _ _ _ hr hn hk).1
    | enter _ hr hn hf =>
      have := (hd.push _ _ _ hr _ _ hn hf).1
      omega
    | leave _ hr hn hf hc =>
      have := (hd.push _ _ _ hr _ _ hn hf).1
      rw [if_pos (canSkip_skip hd hc)] at this
      omega
  have : ∀ {x y}, Relation.TransGen (IdleStep g m) x y → w y < w x := by
    intro x y h
    induction h with
    | single h => exact hlt h
    | tail _ h ih => exact lt_trans (hlt h) ih
  exact fun s h => lt_irrefl _ (this h)

/-- A check for the absence of loops: weights of states and a list of states that may be skipped. -/
def weightCheck (g : Grammar) (w : List Nat) (skip : List Nat) : Bool :=
  let keys := g.tables.rules.map (·.token)
  let wt (x : Int) : Nat := if x < 0 then 0 else w.getD x.toNat 0
  let sk (x : Int) : Bool := decide (x = -1) || decide (0 ≤ x ∧ x.toNat ∈ skip)
  (List.range g.tables.states.length).all fun s => keys.all fun k => (tableRules g.tables s k).all fun r =>
    (decide (r.node ≠ -1) || decide (k ≠ -1 ∧ k ≠ -3) || (decide (wt (after r s) < wt s) && (!sk (after r s) || sk s))) &&
    (decide (r.node < 0) || match g.firsts[r.node.toNat]? with
      | none => true
      | some f => decide (wt f + (if sk f then wt (after r s) else 0) < wt s) && (!sk f || !sk (after r s) || sk s))

theorem descends_of_check (hm : Means g.tables m) {w skip : List Nat} (h : weightCheck g w skip = true) :
    ∃ w skip, Descends g (ofStates g m) w skip := by
  refine ⟨fun x => if x < 0 then 0 else w.getD x.toNat 0, fun x => decide (x = -1) || decide (0 ≤ x ∧ x.toNat ∈ skip), rfl, ?_, ?_⟩
  · intro s k r hr hn hk
    obtain ⟨hs, hr⟩ := mem_ofStates.mp hr
    have hkey : k ∈ g.tables.rules.map (·.token) := List.mem_map.mpr ⟨r, mem_rules hm hs hr, hm.token s k r hr⟩
    rw [tableRules_eq hm hs] at hr
    have h1 := List.all_eq_true.mp (List.all_eq_true.mp (List.all_eq_true.mp h s (List.mem_range.mpr hs)) k hkey) r hr
    rw [Bool.and_eq_true] at h1
    have h2 := h1.1
    rw [show decide (r.node ≠ -1) = false from decide_eq_false (fun h => h hn),
      show decide (k ≠ -1 ∧ k ≠ -3) = false from decide_eq_false (fun h => hk.elim h.1 h.2), Bool.false_or, Bool.false_or,
      Bool.and_eq_true] at h2
    refine ⟨of_decide_eq_true h2.1, fun h3 => ?_⟩
    have h4 := h2.2
    dsimp only at h4
    rw [h3] at h4
    simpa using h4
  · intro s k r hr i f hn hf
    obtain ⟨hs, hr⟩ := mem_ofStates.mp hr
    have hkey : k ∈ g.tables.rules.map (·.token) := List.mem_map.mpr ⟨r, mem_rules hm hs hr, hm.token s k r hr⟩
    rw [tableRules_eq hm hs] at hr
    have h1 := List.all_eq_true.mp (List.all_eq_true.mp (List.all_eq_true.mp h s (List.mem_range.mpr hs)) k hkey) r hr
    rw [Bool.and_eq_true] at h1
    have h2 := h1.2
    rw [show decide (r.node < 0) = false from decide_eq_false (by omega), Bool.false_or, hn, Int.toNat_natCast, hf] at h2
    dsimp only at h2
    rw [Bool.and_eq_true] at h2
    refine ⟨of_decide_eq_true h2.1, fun h3 h4 => ?_⟩
    have h5 := h2.2
    rw [h3, h4] at h5
    simpa using h5

end Verif.Proof
