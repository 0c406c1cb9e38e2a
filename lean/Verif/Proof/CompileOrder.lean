/-
Compilation does not depend on iteration orders of maps.
-/
import Verif.Proof.CompileMeans

namespace Verif.Proof

open Verif.Model Verif.Spec Verif.Spec.Ebnf Verif.Props

theorem reachLoop_mono {deps : Nat → Finset Nat} (fuel fuel' : Nat) (hf : fuel ≤ fuel') {q : List Nat} {un r : Finset Nat}
    (h : reachLoop deps fuel q un = .done r) : reachLoop deps fuel' q un = .done r := by
  induction fuel generalizing q un fuel' with
  | zero => cases h
  | succ fuel ih =>
    cases fuel' with
    | zero => omega
    | succ fuel' =>
      cases q with
      | nil => exact h
      | cons i q =>
        rw [reachLoop] at h ⊢
        split at h
        · rename_i hq; rw [if_pos hq]; exact ih fuel' (by omega) h
        · rename_i hq; rw [if_neg hq]; exact ih fuel' (by omega) h

theorem unused_mono {deps : Nat → Finset Nat} {n fuel fuel' : Nat} (hf : fuel ≤ fuel') {r : List Nat}
    (h : findUnusedNodes deps n fuel = .done r) : findUnusedNodes deps n fuel' = .done r := by
  unfold findUnusedNodes at h ⊢
  cases hr : reachLoop deps fuel [0] (Finset.range n) with
  | panic => rw [hr] at h; cases h
  | timeout => rw [hr] at h; cases h
  | done un => rw [hr] at h; rw [reachLoop_mono fuel fuel' hf hr]; exact h

theorem anyRun_mono {f f' : Nat → Run Bool} (hf : ∀ j b, f j = .done b → f' j = .done b) {l : List Nat} {b : Bool}
    (h : anyRun f l = .done b) : anyRun f' l = .done b := by
  induction l with
  | nil => exact h
  | cons j js ih =>
    rw [anyRun] at h ⊢
    cases hj : f j with
    | panic => rw [hj] at h; cases h
    | timeout => rw [hj] at h; cases h
    | done x =>
      rw [hf j x hj]
      rw [hj] at h
      cases x with
      | true => exact h
      | false => exact ih h

theorem recursive_mono {next : Nat → List Nat} (fuel fuel' : Nat) (hf : fuel ≤ fuel') {i : Nat} {v : Finset Nat} {b : Bool}
    (h : ntIsRecursive next fuel i v = .done b) : ntIsRecursive next fuel' i v = .done b := by
  induction fuel generalizing i v b fuel' with
  | zero => cases h
  | succ fuel ih =>
    cases fuel' with
    | zero => omega
    | succ fuel' =>
      rw [ntIsRecursive] at h ⊢
      refine anyRun_mono (fun j b hj => ?_) h
      split at hj
      · rename_i hm; rw [if_pos hm]; exact hj
      · rename_i hm; rw [if_neg hm]; exact ih fuel' (by omega) hj

theorem recursionLoop_mono {next : Nat → List Nat} {fuel fuel' : Nat} (hf : fuel ≤ fuel') {l : List Nat} {acc r : Finset Nat}
    (h : recursionLoop next fuel l acc = .done r) : recursionLoop next fuel' l acc = .done r := by
  induction l generalizing acc with
  | nil => exact h
  | cons i is ih =>
    rw [recursionLoop] at h ⊢
    cases hr : ntIsRecursive next fuel i ∅ with
    | panic => rw [hr] at h; cases h
    | timeout => rw [hr] at h; cases h
    | done b =>
      rw [hr] at h
      rw [recursive_mono fuel fuel' hf hr]
      exact ih h

theorem recursions_mono {next : Nat → List Nat} {n fuel fuel' : Nat} (hf : fuel ≤ fuel') {r : List Nat}
    (h : findRecursions next n fuel = .done r) : findRecursions next n fuel' = .done r := by
  unfold findRecursions at h ⊢
  cases hr : recursionLoop next fuel (List.range n) ∅ with
  | panic => rw [hr] at h; cases h
  | timeout => rw [hr] at h; cases h
  | done un => rw [hr] at h; rw [recursionLoop_mono hf hr]; exact h

/-- Orders of maps do not change the first sets. -/
theorem resolve_same {bodies : List Chunk} {order2 order3 order2' order3' : List Nat} {fuel : Nat} {ft : Nat → Finset Int}
    (hwf : ∀ c ∈ bodies, WF c) (hdef : ∀ c ∈ bodies, ∀ j ∈ refs c, j < bodies.length)
    (h2 : order2.Perm (List.range bodies.length)) (h3 : order3.Perm (List.range bodies.length))
    (h2' : order2'.Perm (List.range bodies.length)) (h3' : order3'.Perm (List.range bodies.length))
    (h : resolveDependencies (fun i => (bodies[i]?).getD .eoi) (fun i => ((bodies[i]?).getD .eoi).nodes) order2 order3 fuel = .done (.ok ft)) :
    ∃ N, ∀ fuel', N ≤ fuel' →
      resolveDependencies (fun i => (bodies[i]?).getD .eoi) (fun i => ((bodies[i]?).getD .eoi).nodes) order2' order3' fuel' = .done (.ok ft) := by
  have hmem : ∀ i < bodies.length, (bodies[i]?).getD .eoi ∈ bodies := by
    intro i hi
    rw [List.getElem?_eq_getElem hi]
    exact List.getElem_mem hi
  obtain ⟨hs1, hs2, hs3⟩ := resolved_sets hwf hdef h2 h3 h
  obtain ⟨N, hN⟩ := C24_first_sets (fun i => (bodies[i]?).getD .eoi) (fun i => ((bodies[i]?).getD .eoi).nodes) bodies.length
    order2' order3' (fun i hi => hwf _ (hmem i hi)) (fun i hi => nodes_eq _) (fun i hi => hdef _ (hmem i hi)) h2' h3'
  refine ⟨N, fun fuel' hf => ?_⟩
  obtain ⟨r, hr, hv⟩ := hN fuel' hf
  rw [hr]
  cases r with
  | error is =>
    obtain ⟨hne, -, hv⟩ := hv
    obtain ⟨i, hi⟩ := List.exists_mem_of_ne_nil _ hne
    obtain ⟨hi, hno⟩ := (hv i).1 hi
    obtain ⟨k, hk⟩ := hs2 i hi
    exact absurd ((hs1 i hi k).1 hk) (hno k)
  | ok ft' =>
    obtain ⟨hv1, -, hv3⟩ := hv
    have : ft' = ft := by
      funext i
      by_cases hi : i < bodies.length
      · ext k; rw [hv1 i hi, hs1 i hi]
      · rw [hv3 i (by omega), hs3 i (by omega)]
    rw [this]

end Verif.Proof
