/-
C02, C03: `ints.Set` is a set of integers, whatever history produced it.
-/
import Verif.Proof.IntSet
import Verif.Spec.IntSets

namespace Verif.Props

open Verif.Model Verif.Spec

/-- The model state: all sets created so far (the Go program holds pointers to them). -/
abbrev SetHeap := List IntSet

/-- Pushes a new set. -/
def pushSet (h : SetHeap) (s : Option IntSet) : Option (SetHeap × IntSets.Obs) :=
  s.map fun s => (h ++ [s], .unit)

/-- Replaces the contents of a set. -/
def storeSet (h : SetHeap) (i : Nat) (s : Option IntSet) : Option (SetHeap × IntSets.Obs) :=
  s.map fun s => (h.set i s, .unit)

/-- One API call; `none` is a panic (or an invalid set number). -/
def setCall (h : SetHeap) : IntSets.Op → Option (SetHeap × IntSets.Obs)
  | .new items => pushSet h (IntSet.new items)
  | .add i items => storeSet h i (h[i]?.bind fun s => s.add items)
  | .remove i items => storeSet h i (h[i]?.bind fun s => s.remove items)
  | .copy i => pushSet h (h[i]?.map IntSet.clone)
  | .union i j => pushSet h (h[i]?.bind fun s => h[j]?.bind fun t => s.union t)
  | .intersect i j => pushSet h (h[i]?.bind fun s => h[j]?.bind fun t => s.intersect t)
  | .subtract i j => pushSet h (h[i]?.bind fun s => h[j]?.bind fun t => s.subtract t)
  | .unionIn i j => storeSet h i (h[i]?.bind fun s => h[j]?.bind fun t => s.union t)
  | .intersectIn i j => storeSet h i (h[i]?.bind fun s => h[j]?.bind fun t => s.intersect t)
  | .subtractIn i j => storeSet h i (h[i]?.bind fun s => h[j]?.bind fun t => s.subtract t)
  | .contains i x => h[i]?.bind fun s => (s.contains x).map fun b => (h, .bool b)
  | .isEmpty i => h[i]?.map fun s => (h, .bool s.isEmpty)
  | .isEqual i j => h[i]?.bind fun s => h[j]?.bind fun t => (s.isEqual t).map fun b => (h, .bool b)
  | .toSlice i => h[i]?.bind fun s => s.toSlice.map fun l => (h, .list l)

/-- All observations of a history. -/
def setRun (h : SetHeap) : List IntSets.Op → Option (List IntSets.Obs)
  | [] => some []
  | op :: ops => do
    let (h', o) ← setCall h op
    let os ← setRun h' ops
    return o :: os

/-- A model set represents a predicate. -/
def SetRep (s : IntSet) (p : Int → Prop) : Prop := s.Inv ∧ ∀ x, s.Mem x ↔ p x

/-- A model state represents a specification state. -/
def HeapRep (h : SetHeap) (st : IntSets.State) : Prop :=
  List.Forall₂ SetRep h st

theorem HeapRep.get {h : SetHeap} {st : IntSets.State} (hr : HeapRep h st) {i : Nat} (hi : i < st.length) :
    ∃ s, h[i]? = some s ∧ SetRep s (IntSets.State.get st i) := by
  induction hr generalizing i with
  | nil => simp at hi
  | cons h1 h2 ih =>
    cases i with
    | zero => exact ⟨_, rfl, by simpa [IntSets.State.get] using h1⟩
    | succ i =>
      obtain ⟨s, e, r⟩ := ih (i := i) (by simpa using hi)
      exact ⟨s, by simpa using e, by simpa [IntSets.State.get] using r⟩

theorem HeapRep.push {h : SetHeap} {st : IntSets.State} (hr : HeapRep h st) {s : IntSet} {p : Int → Prop}
    (r : SetRep s p) : HeapRep (h ++ [s]) (st ++ [p]) :=
  by
  induction hr with
  | nil => exact List.Forall₂.cons r List.Forall₂.nil
  | cons h1 h2 ih => exact List.Forall₂.cons h1 ih

theorem HeapRep.store {h : SetHeap} {st : IntSets.State} (hr : HeapRep h st) {s : IntSet} {p : Int → Prop}
    (r : SetRep s p) (i : Nat) : HeapRep (h.set i s) (st.set i p) := by
  induction hr generalizing i with
  | nil => exact List.Forall₂.nil
  | cons h1 h2 ih =>
    cases i with
    | zero => exact List.Forall₂.cons r h2
    | succ i => exact List.Forall₂.cons h1 (ih i)

theorem rep_change {s : IntSet} {p : Int → Prop} (h : SetRep s p) (items : List Int) :
    (∃ s', s.add items = some s' ∧ SetRep s' fun x => p x ∨ x ∈ items) ∧
    (∃ s', s.remove items = some s' ∧ SetRep s' fun x => p x ∧ x ∉ items) := by
  constructor
  · obtain ⟨s', e, i, m⟩ := IntSet.change_spec h.1 items false
    exact ⟨s', e, i, fun x => by rw [m x]; simp [h.2 x]⟩
  · obtain ⟨s', e, i, m⟩ := IntSet.change_spec h.1 items true
    exact ⟨s', e, i, fun x => by rw [m x]; simp [h.2 x]⟩

theorem rep_union {s t : IntSet} {p q : Int → Prop} (h : SetRep s p) (k : SetRep t q) :
    ∃ r, s.union t = some r ∧ SetRep r fun x => p x ∨ q x := by
  obtain ⟨r, e, i, c⟩ := IntSet.union_spec h.1 k.1
  exact ⟨r, e, i, fun x => by
    show _ ↔ (p x ∨ q x)
    rw [← h.2, ← k.2]; simp [IntSet.Mem, c]⟩

theorem rep_intersect {s t : IntSet} {p q : Int → Prop} (h : SetRep s p) (k : SetRep t q) :
    ∃ r, s.intersect t = some r ∧ SetRep r fun x => p x ∧ q x := by
  obtain ⟨r, e, i, c⟩ := IntSet.intersect_spec h.1 k.1
  exact ⟨r, e, i, fun x => by
    show _ ↔ (p x ∧ q x)
    rw [← h.2, ← k.2]; simp [IntSet.Mem, c]⟩

theorem rep_subtract {s t : IntSet} {p q : Int → Prop} (h : SetRep s p) (k : SetRep t q) :
    ∃ r, s.subtract t = some r ∧ SetRep r fun x => p x ∧ ¬ q x := by
  obtain ⟨r, e, i, c⟩ := IntSet.subtract_spec h.1 k.1
  refine ⟨r, e, i, fun x => ?_⟩
  have : (x % 64).toNat < 64 := by omega
  show _ ↔ (p x ∧ ¬ q x)
  rw [← h.2, ← k.2, IntSet.Mem, c, BitVec.getLsbD_and, BitVec.getLsbD_not]
  simp [this, IntSet.Mem]

theorem rep_empty : SetRep IntSet.empty fun _ => False :=
  ⟨IntSet.inv_empty, fun x => by simp [IntSet.Mem, IntSet.chunkAt_empty]⟩

theorem rep_new (items : List Int) : ∃ s, IntSet.new items = some s ∧ SetRep s fun x => x ∈ items := by
  cases items with
  | nil => exact ⟨_, rfl, by simpa using rep_empty⟩
  | cons y ys =>
    obtain ⟨s, e, r⟩ := (rep_change rep_empty (y :: ys)).1
    exact ⟨s, by simp [IntSet.new, e], by simpa using r⟩

theorem setCall_rep {h : SetHeap} {st : IntSets.State} (hr : HeapRep h st) (op : IntSets.Op)
    (ha : ∀ i ∈ IntSets.args op, i < st.length) :
    ∃ h' o, setCall h op = some (h', o) ∧ HeapRep h' (IntSets.next st op) ∧ IntSets.ObsOk st op o := by
  cases op with
  | new items =>
    obtain ⟨s, e, r⟩ := rep_new items
    exact ⟨_, .unit, by simp [setCall, pushSet, e], hr.push r, trivial⟩
  | add i items =>
    obtain ⟨s, es, rs⟩ := hr.get (ha i (by simp [IntSets.args]))
    obtain ⟨s', e, r⟩ := (rep_change rs items).1
    exact ⟨_, .unit, by simp [setCall, storeSet, es, e], hr.store r i, trivial⟩
  | remove i items =>
    obtain ⟨s, es, rs⟩ := hr.get (ha i (by simp [IntSets.args]))
    obtain ⟨s', e, r⟩ := (rep_change rs items).2
    exact ⟨_, .unit, by simp [setCall, storeSet, es, e], hr.store r i, trivial⟩
  | copy i =>
    obtain ⟨s, es, rs⟩ := hr.get (ha i (by simp [IntSets.args]))
    exact ⟨_, .unit, by simp [setCall, pushSet, es, IntSet.clone_eq], hr.push rs, trivial⟩
  | union i j =>
    obtain ⟨s, es, rs⟩ := hr.get (ha i (by simp [IntSets.args]))
    obtain ⟨t, et, rt⟩ := hr.get (ha j (by simp [IntSets.args]))
    obtain ⟨s', e, r⟩ := rep_union rs rt
    exact ⟨_, .unit, by simp [setCall, pushSet, es, et, e], hr.push r, trivial⟩
  | intersect i j =>
    obtain ⟨s, es, rs⟩ := hr.get (ha i (by simp [IntSets.args]))
    obtain ⟨t, et, rt⟩ := hr.get (ha j (by simp [IntSets.args]))
    obtain ⟨s', e, r⟩ := rep_intersect rs rt
    exact ⟨_, .unit, by simp [setCall, pushSet, es, et, e], hr.push r, trivial⟩
  | subtract i j =>
    obtain ⟨s, es, rs⟩ := hr.get (ha i (by simp [IntSets.args]))
    obtain ⟨t, et, rt⟩ := hr.get (ha j (by simp [IntSets.args]))
    obtain ⟨s', e, r⟩ := rep_subtract rs rt
    exact ⟨_, .unit, by simp [setCall, pushSet, es, et, e], hr.push r, trivial⟩
  | unionIn i j =>
    obtain ⟨s, es, rs⟩ := hr.get (ha i (by simp [IntSets.args]))
    obtain ⟨t, et, rt⟩ := hr.get (ha j (by simp [IntSets.args]))
    obtain ⟨s', e, r⟩ := rep_union rs rt
    exact ⟨_, .unit, by simp [setCall, storeSet, es, et, e], hr.store r i, trivial⟩
  | intersectIn i j =>
    obtain ⟨s, es, rs⟩ := hr.get (ha i (by simp [IntSets.args]))
    obtain ⟨t, et, rt⟩ := hr.get (ha j (by simp [IntSets.args]))
    obtain ⟨s', e, r⟩ := rep_intersect rs rt
    exact ⟨_, .unit, by simp [setCall, storeSet, es, et, e], hr.store r i, trivial⟩
  | subtractIn i j =>
    obtain ⟨s, es, rs⟩ := hr.get (ha i (by simp [IntSets.args]))
    obtain ⟨t, et, rt⟩ := hr.get (ha j (by simp [IntSets.args]))
    obtain ⟨s', e, r⟩ := rep_subtract rs rt
    exact ⟨_, .unit, by simp [setCall, storeSet, es, et, e], hr.store r i, trivial⟩
  | contains i x =>
    obtain ⟨s, es, rs⟩ := hr.get (ha i (by simp [IntSets.args]))
    obtain ⟨b, e, hb⟩ := IntSet.contains_spec rs.1 x
    exact ⟨h, .bool b, by simp [setCall, es, e], hr, by rw [IntSets.ObsOk, hb]; exact rs.2 x⟩
  | isEmpty i =>
    obtain ⟨s, es, rs⟩ := hr.get (ha i (by simp [IntSets.args]))
    refine ⟨h, .bool s.isEmpty, by simp [setCall, es], hr, ?_⟩
    rw [IntSets.ObsOk, IntSet.isEmpty_mem rs.1]
    simp [rs.2]
  | isEqual i j =>
    obtain ⟨s, es, rs⟩ := hr.get (ha i (by simp [IntSets.args]))
    obtain ⟨t, et, rt⟩ := hr.get (ha j (by simp [IntSets.args]))
    obtain ⟨b, e, hb⟩ := IntSet.isEqual_mem rs.1 rt.1
    refine ⟨h, .bool b, by simp [setCall, es, et, e], hr, ?_⟩
    rw [IntSets.ObsOk, hb]
    simp [rs.2, rt.2]
  | toSlice i =>
    obtain ⟨s, es, rs⟩ := hr.get (ha i (by simp [IntSets.args]))
    obtain ⟨l, e, hp, hm⟩ := IntSet.toSlice_spec rs.1
    exact ⟨h, .list l, by simp [setCall, es, e], hr, hp, fun x => by rw [hm, rs.2]⟩

theorem setRun_rep {h : SetHeap} {st : IntSets.State} (hr : HeapRep h st) (ops : List IntSets.Op)
    (hv : IntSets.Valid st ops) : ∃ os, setRun h ops = some os ∧ IntSets.AllOk st ops os := by
  induction ops generalizing h st with
  | nil => exact ⟨[], rfl, trivial⟩
  | cons op ops ih =>
    obtain ⟨h', o, e, r, ok⟩ := setCall_rep hr op hv.1
    obtain ⟨os, e2, ok2⟩ := ih r hv.2
    exact ⟨o :: os, by simp [setRun, e, e2], ok, ok2⟩

/-- **C02, C03.** Every history of `ints.Set` API calls over any number of sets runs without a panic and every
observation (`Contains`, `IsEmpty`, `IsEqual`, `ToSlice`) is the right one for the mathematical sets obtained by
the corresponding set operations. -/
theorem C02_set_algebra (ops : List IntSets.Op) (hv : IntSets.Valid [] ops) :
    ∃ os, setRun [] ops = some os ∧ IntSets.AllOk [] ops os :=
  setRun_rep List.Forall₂.nil ops hv

/-- The hypothesis of `C02_set_algebra` is met by a history mixing negative and distant numbers. -/
example : IntSets.Valid [] [.new [-100, 5], .new [700], .union 0 1, .subtractIn 2 0, .isEqual 2 1, .toSlice 2] := by
  simp [IntSets.Valid, IntSets.args, IntSets.next]

/-- **C03.** Two sets produced by any two histories are observed equal iff they have the same elements, even if
their windows differ, and their slices are then identical. -/
theorem C03_observers_canonical {s t : IntSet} {p q : Int → Prop} (hs : SetRep s p) (ht : SetRep t q) :
    (s.isEqual t = some true ↔ ∀ x, p x ↔ q x) ∧ (s.isEqual t ≠ none) ∧
    (s.isEmpty = true ↔ ∀ x, ¬ p x) ∧
    (∃ l, s.toSlice = some l ∧ l.Pairwise (· < ·) ∧ ∀ x, x ∈ l ↔ p x) ∧
    ((∀ x, p x ↔ q x) → s.toSlice = t.toSlice) := by
  obtain ⟨b, e, hb⟩ := IntSet.isEqual_mem hs.1 ht.1
  obtain ⟨l, el, hp, hm⟩ := IntSet.toSlice_spec hs.1
  obtain ⟨l', el', hp', hm'⟩ := IntSet.toSlice_spec ht.1
  have hb' : b = true ↔ ∀ x, p x ↔ q x := by rw [hb]; simp only [hs.2, ht.2]
  refine ⟨by rw [e, ← hb']; simp, by rw [e]; simp, ?_, ⟨l, el, hp, fun x => by rw [hm, hs.2]⟩, ?_⟩
  · rw [IntSet.isEmpty_mem hs.1]; simp only [hs.2]
  · intro hpq
    rw [el, el']
    congr 1
    have hmem : ∀ x, x ∈ l ↔ x ∈ l' := fun x => by rw [hm, hm', hs.2, ht.2, hpq]
    have hperm : l.Perm l' := (List.perm_ext_iff_of_nodup (hp.imp (fun h => ne_of_lt h))
      (hp'.imp (fun h => ne_of_lt h))).2 hmem
    exact hperm.eq_of_pairwise (fun a b _ _ h1 h2 => by omega) hp hp'

/-- `C03_observers_canonical` applies to sets with different windows. -/
example : ∃ s t, IntSet.new [3] = some s ∧ ((IntSet.new [3, 1000]).bind fun t => t.remove [1000]) = some t ∧
    s ≠ t ∧ SetRep s (fun x => x = 3) ∧ SetRep t (fun x => x = 3) := by
  obtain ⟨s, e, r⟩ := rep_new [3]
  obtain ⟨t0, e0, r0⟩ := rep_new [3, 1000]
  obtain ⟨t, e1, r1⟩ := (rep_change r0 [1000]).2
  refine ⟨s, t, e, by simp [e0, e1], ?_, by simpa using r, ?_⟩
  · rintro rfl
    have h1 : IntSet.new [3] = some ⟨0, 64, [8#64]⟩ := by decide +kernel
    have h2 : ((IntSet.new [3, 1000]).bind fun t => t.remove [1000]) = some s := by simp [e0, e1]
    rw [h1] at e
    obtain rfl := Option.some.inj e
    revert h2; decide +kernel
  · refine ⟨r1.1, fun x => ?_⟩
    rw [r1.2]; simp; omega

end Verif.Props
