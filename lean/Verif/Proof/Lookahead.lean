/-
`resolveConflict` does what the reference lookahead does as long as no branch is overwritten.
-/
import Verif.Spec.Lookahead
import Verif.Proof.Parse

namespace Verif.Proof

open Verif.Model Verif.Spec
open Verif.Model.Tree (bindRun)

variable {σ : Type}

/-- Pointers in use. -/
def RC.ptrs (rc : RC) (prot : List Nat) : List Nat := rc.q ++ rc.cur.take rc.len ++ prot

/-- Values behind pointers. -/
def RC.vals (rc : RC) (ps : List Nat) : List (Option Branch) := ps.map fun p => rc.store[p]?

/-- The last listed branch is behind the pointer. -/
def LastIs (rc : RC) (used : List Nat) (p : Option Nat) (l : List Branch) : Prop :=
  (l = [] → p = none) ∧ ∀ b, l.getLast? = some b → ∃ i, p = some i ∧ i ∉ used ∧ rc.store[i]? = some b

/-- Variables of `resolveConflict` stand for branches `q` to trace and results `o`; branches `pv` behind pointers `prot` are
not touched. -/
structure Sim (rc : RC) (prot : List Nat) (q : List Branch) (o : Traced) (pv : List Branch) : Prop where
  nodup : (RC.ptrs rc prot).Nodup
  lt : ∀ p ∈ RC.ptrs rc prot, p < rc.store.length
  len : rc.len ≤ rc.cur.length
  q : RC.vals rc rc.q = q.map some
  next : RC.vals rc (rc.cur.take rc.len) = o.next.map some
  keep : RC.vals rc prot = pv.map some
  left : LastIs rc (RC.ptrs rc prot) rc.lastSuccess o.left
  dead : LastIs rc (RC.ptrs rc prot) rc.lastError o.dead

theorem vals_set {rc : RC} {ps : List Nat} {i : Nat} {b : Branch} (h : i ∉ ps) :
    (ps.map fun p => (rc.store.set i b)[p]?) = RC.vals rc ps := by
  apply List.map_congr_left
  intro p hp
  rw [List.getElem?_set, if_neg]
  rintro rfl
  exact h hp

theorem append_take {grow : Nat → Nat} {rc : RC} {b : Nat} (h : rc.len ≤ rc.cur.length) :
    (rc.append grow b).cur.take (rc.append grow b).len = rc.cur.take rc.len ++ [b] ∧
      (rc.append grow b).len ≤ (rc.append grow b).cur.length := by
  unfold RC.append
  split
  · rename_i hlt
    dsimp only
    refine ⟨?_, by simp; omega⟩
    rw [List.take_add_one, List.take_set_of_le (le_refl _), List.getElem?_set_self hlt]
    rfl
  · dsimp only
    have hl : (rc.cur.take rc.len).length = rc.len := by rw [List.length_take]; omega
    refine ⟨?_, by simp [hl]⟩
    have : ∀ (l m : List Nat) (n : Nat), l.length = n → (l ++ b :: m).take (n + 1) = l ++ [b] := by
      rintro l m _ rfl
      rw [List.take_length_add_append]
      simp
    exact this _ _ _ hl

theorem append_rest (grow : Nat → Nat) (rc : RC) (b : Nat) :
    (rc.append grow b).store = rc.store ∧ (rc.append grow b).q = rc.q ∧ (rc.append grow b).lastSuccess = rc.lastSuccess ∧
      (rc.append grow b).lastError = rc.lastError := by
  unfold RC.append
  split <;> exact ⟨rfl, rfl, rfl, rfl⟩

theorem LastIs.mono {rc rc' : RC} {used used' : List Nat} {p : Option Nat} {l : List Branch} (h : LastIs rc used p l)
    (hu : ∀ i, i ∉ used → i < rc.store.length → i ∉ used') (hs : ∀ i, i ∉ used → i < rc.store.length → rc'.store[i]? = rc.store[i]?) :
    LastIs rc' used' p l := by
  refine ⟨h.1, fun b hb => ?_⟩
  obtain ⟨i, h1, h2, h3⟩ := h.2 b hb
  have hlt := (List.getElem?_eq_some_iff.mp h3).1
  exact ⟨i, h1, hu i h2 hlt, by rw [hs i h2 hlt]; exact h3⟩

theorem lastIs_new {rc : RC} {used : List Nat} {i : Nat} {b : Branch} {l : List Branch} (h : i ∉ used)
    (hs : rc.store[i]? = some b) : LastIs rc used (some i) (l ++ [b]) := by
  refine ⟨by simp, fun b' hb' => ?_⟩
  rw [List.getLast?_concat] at hb'
  cases hb'
  exact ⟨i, rfl, h, hs⟩

/-- One rule is used by the first protected branch. -/
theorem apply_sim {env : PEnv σ} {tok : Option Token} {rc rc' : RC} {p : Nat} {prot : List Nat} {q : List Branch} {o : Traced}
    {br : Branch} {pv : List Branch} {r : Rule} (hsim : Sim rc (p :: prot) q o (br :: pv))
    (h : rc.apply env tok p r = some rc') :
    ∃ x, useRule env.g tok br r = some x ∧
      Sim rc' prot (if x.2 then q else if x.1.stack.isEmpty then q else q ++ [x.1])
        (if x.2 then { o with next := o.next ++ [x.1] } else if x.1.stack.isEmpty then { o with left := o.left ++ [x.1] } else o)
        pv := by
  obtain ⟨hnd, hlt, hlen, hq, hnext, hprot, hleft, hdead⟩ := hsim
  have hp : rc.store[p]? = some br := by
    simpa [RC.vals] using congrArg List.head? hprot
  have hprot' : RC.vals rc prot = pv.map some := by
    simpa [RC.vals] using congrArg List.tail hprot
  have hplt := (List.getElem?_eq_some_iff.mp hp).1
  unfold RC.ptrs at hnd
  rw [List.nodup_append] at hnd
  obtain ⟨hnd1, hnd2, hdis⟩ := hnd
  rw [List.nodup_append] at hnd1
  obtain ⟨hndq, hndt, hdis1⟩ := hnd1
  obtain ⟨hpp, hndp⟩ := List.nodup_cons.mp hnd2
  have hpq : p ∉ rc.q := fun hm => hdis p (by simp [hm]) p (by simp) rfl
  have hpt : p ∉ rc.cur.take rc.len := fun hm => hdis p (List.mem_append_right _ hm) p (by simp) rfl
  rw [RC.apply, hp, Option.bind_some, Option.map_eq_some_iff] at h
  obtain ⟨⟨st, c⟩, ha, h⟩ := h
  refine ⟨(⟨st, br.rules ++ [r]⟩, c), by rw [useRule, ha]; rfl, ?_⟩
  dsimp only at h ⊢
  have hstore : ∀ i, i ≠ p → (rc.store.set p ⟨st, br.rules ++ [r]⟩)[i]? = rc.store[i]? := by
    intro i hi
    rw [List.getElem?_set, if_neg (fun h => hi h.symm)]
  have hself : (rc.store.set p ⟨st, br.rules ++ [r]⟩)[p]? = some ⟨st, br.rules ++ [r]⟩ := List.getElem?_set_self hplt
  -- members of the old pointer list
  have hmemo : ∀ i, i ∈ RC.ptrs rc (p :: prot) ↔ i ∈ rc.q ∨ i ∈ rc.cur.take rc.len ∨ i = p ∨ i ∈ prot := by
    intro i; unfold RC.ptrs; simp only [List.mem_append, List.mem_cons]; tauto
  cases c with
  | true =>
    simp only [if_true] at h ⊢
    cases h
    obtain ⟨e1, e2, e3, e4⟩ := append_rest env.grow { rc with store := rc.store.set p ⟨st, br.rules ++ [r]⟩ } p
    obtain ⟨e5, e6⟩ := append_take (grow := env.grow) (rc := { rc with store := rc.store.set p ⟨st, br.rules ++ [r]⟩ }) (b := p) hlen
    dsimp only at e1 e2 e3 e4 e5
    have hptr : RC.ptrs (RC.append env.grow { rc with store := rc.store.set p ⟨st, br.rules ++ [r]⟩ } p) prot =
        rc.q ++ (rc.cur.take rc.len ++ [p]) ++ prot := by
      unfold RC.ptrs; rw [e2, e5]
    have hmem : ∀ i, i ∈ rc.q ++ (rc.cur.take rc.len ++ [p]) ++ prot ↔ i ∈ RC.ptrs rc (p :: prot) := by
      intro i; rw [hmemo]; simp only [List.mem_append, List.mem_singleton]; tauto
    refine ⟨?_, ?_, e6, ?_, ?_, ?_, ?_, ?_⟩
    · rw [hptr, List.append_assoc, List.append_assoc]
      refine List.nodup_append.mpr ⟨hndq, List.nodup_append.mpr ⟨hndt, ?_, ?_⟩, ?_⟩
      · exact List.nodup_cons.mpr ⟨hpp, hndp⟩
      · intro a ha b hb
        exact hdis a (List.mem_append_right _ ha) b hb
      · intro a ha b hb
        rcases List.mem_append.mp hb with hb | hb
        · exact hdis1 a ha b hb
        · exact hdis a (List.mem_append_left _ ha) b hb
    · intro i hi
      rw [hptr, hmem] at hi
      rw [e1]; simpa using hlt i hi
    · rw [e2]
      unfold RC.vals
      rw [e1, vals_set hpq]; exact hq
    · rw [e5]
      unfold RC.vals
      rw [e1, List.map_append, vals_set hpt, hnext]
      simp [hplt]
    · unfold RC.vals
      rw [e1, vals_set hpp]; exact hprot'
    · rw [e3]
      refine hleft.mono ?_ ?_
      · intro i hi _; rw [hptr, hmem]; exact hi
      · intro i hi _; rw [e1]; apply hstore; rintro rfl; exact hi (by rw [hmemo]; tauto)
    · rw [e4]
      refine hdead.mono ?_ ?_
      · intro i hi _; rw [hptr, hmem]; exact hi
      · intro i hi _; rw [e1]; apply hstore; rintro rfl; exact hi (by rw [hmemo]; tauto)
  | false =>
    simp only [Bool.false_eq_true, if_false] at h ⊢
    by_cases hst : st.isEmpty = true
    · rw [if_pos hst] at h
      rw [if_pos hst, if_pos hst]
      cases h
      have hnew : p ∉ RC.ptrs { rc with store := rc.store.set p ⟨st, br.rules ++ [r]⟩, lastSuccess := some p } prot := by
        unfold RC.ptrs
        simp only [List.mem_append, hpq, hpt, hpp, or_self, not_false_eq_true]
      have hsub : ∀ i, i ∈ RC.ptrs { rc with store := rc.store.set p ⟨st, br.rules ++ [r]⟩, lastSuccess := some p } prot →
          i ∈ RC.ptrs rc (p :: prot) := by
        intro i hi
        rw [hmemo]
        unfold RC.ptrs at hi
        simp only [List.mem_append] at hi
        tauto
      refine ⟨?_, ?_, hlen, ?_, ?_, ?_, ?_, ?_⟩
      · unfold RC.ptrs
        refine List.nodup_append.mpr ⟨List.nodup_append.mpr ⟨hndq, hndt, hdis1⟩, hndp, ?_⟩
        intro a ha b hb
        exact hdis a ha b (by simp [hb])
      · intro i hi
        simpa using hlt i (hsub i hi)
      · unfold RC.vals; dsimp only; rw [vals_set hpq]; exact hq
      · unfold RC.vals; dsimp only; rw [vals_set hpt]; exact hnext
      · unfold RC.vals; dsimp only; rw [vals_set hpp]; exact hprot'
      · exact lastIs_new hnew hself
      · refine hdead.mono ?_ ?_
        · intro i hi _ hi'; exact hi (hsub i hi')
        · intro i hi _; apply hstore; rintro rfl; exact hi (by rw [hmemo]; tauto)
    · rw [if_neg hst] at h
      rw [if_neg hst, if_neg hst]
      cases h
      have hmem : ∀ i, i ∈ RC.ptrs { rc with store := rc.store.set p ⟨st, br.rules ++ [r]⟩, q := rc.q ++ [p] } prot ↔
          i ∈ RC.ptrs rc (p :: prot) := by
        intro i
        rw [hmemo]
        unfold RC.ptrs
        simp only [List.mem_append, List.mem_singleton]
        tauto
      refine ⟨?_, ?_, hlen, ?_, ?_, ?_, ?_, ?_⟩
      · unfold RC.ptrs
        dsimp only
        refine List.nodup_append.mpr ⟨List.nodup_append.mpr ⟨?_, hndt, ?_⟩, hndp, ?_⟩
        · refine List.nodup_append.mpr ⟨hndq, by simp, ?_⟩
          intro a ha b hb
          rw [List.mem_singleton] at hb
          subst hb
          rintro rfl
          exact hpq ha
        · intro a ha b hb
          rcases List.mem_append.mp ha with ha | ha
          · exact hdis1 a ha b hb
          · rw [List.mem_singleton] at ha
            subst ha
            rintro rfl
            exact hpt hb
        · intro a ha b hb
          rcases List.mem_append.mp ha with ha | ha
          · rcases List.mem_append.mp ha with ha | ha
            · exact hdis a (List.mem_append_left _ ha) b (by simp [hb])
            · rw [List.mem_singleton] at ha
              subst ha
              rintro rfl
              exact hpp hb
          · exact hdis a (List.mem_append_right _ ha) b (by simp [hb])
      · intro i hi
        simpa using hlt i ((hmem i).mp hi)
      · unfold RC.vals; dsimp only
        rw [List.map_append, vals_set hpq, hq]
        simp [hplt]
      · unfold RC.vals; dsimp only; rw [vals_set hpt]; exact hnext
      · unfold RC.vals; dsimp only; rw [vals_set hpp]; exact hprot'
      · refine hleft.mono ?_ ?_
        · intro i hi _ hi'; exact hi ((hmem i).mp hi')
        · intro i hi _; apply hstore; rintro rfl; exact hi (by rw [hmemo]; tauto)
      · refine hdead.mono ?_ ?_
        · intro i hi _ hi'; exact hi ((hmem i).mp hi')
        · intro i hi _; apply hstore; rintro rfl; exact hi (by rw [hmemo]; tauto)

theorem applyAll_sim {env : PEnv σ} {tok : Option Token} {prot : List Nat} {br : Branch} {pv : List Branch} (rs : List Rule)
    (ps : List Nat) (hl : ps.length = rs.length) {rc rc' : RC} {q : List Branch} {o : Traced}
    (hsim : Sim rc (ps ++ prot) q o (List.replicate ps.length br ++ pv)) (h : rc.applyAll env tok (ps.zip rs) = some rc') :
    ∃ q' o', useRules env.g tok br rs q o = some (q', o') ∧ Sim rc' prot q' o' pv := by
  induction rs generalizing ps rc q o with
  | nil =>
    have : ps = [] := List.length_eq_zero_iff.mp hl
    subst this
    cases h
    exact ⟨q, o, rfl, hsim⟩
  | cons r rs ih =>
    cases ps with
    | nil => simp at hl
    | cons p ps =>
      rw [List.zip_cons_cons, RC.applyAll, Option.bind_eq_some_iff] at h
      obtain ⟨rc1, h1, h⟩ := h
      obtain ⟨x, h2, h3⟩ := apply_sim hsim h1
      obtain ⟨q', o', h4, h5⟩ := ih ps (by simpa using hl) h3 h
      refine ⟨q', o', ?_, h5⟩
      rw [useRules, h2, Option.bind_some]
      split
      · rename_i hx; rw [if_pos hx, if_pos hx] at h4; exact h4
      · rename_i hx
        rw [if_neg hx, if_neg hx] at h4
        split
        · rename_i hy; rw [if_pos hy, if_pos hy] at h4; exact h4
        · rename_i hy; rw [if_neg hy, if_neg hy] at h4; exact h4

/-- The first branch of the queue is taken. -/
theorem pop_sim {rc : RC} {prot : List Nat} {p : Nat} {ps : List Nat} {q : List Branch} {o : Traced} {pv : List Branch}
    (hsim : Sim rc prot q o pv) (h : rc.q = p :: ps) :
    ∃ br q', q = br :: q' ∧ rc.store[p]? = some br ∧ Sim { rc with q := ps } (p :: prot) q' o (br :: pv) := by
  obtain ⟨hnd, hlt, hlen, hq, hnext, hprot, hleft, hdead⟩ := hsim
  rw [h] at hq
  cases q with
  | nil => simp [RC.vals] at hq
  | cons br q' =>
    simp only [RC.vals, List.map_cons, List.cons.injEq] at hq
    have hmem : ∀ i, i ∈ RC.ptrs { rc with q := ps } (p :: prot) ↔ i ∈ RC.ptrs rc prot := by
      intro i
      unfold RC.ptrs
      rw [h]
      simp only [List.mem_append, List.mem_cons]
      tauto
    refine ⟨br, q', rfl, hq.1, ?_, ?_, hlen, hq.2, hnext, ?_, ?_, ?_⟩
    · have hperm : (RC.ptrs { rc with q := ps } (p :: prot)).Perm (RC.ptrs rc prot) := by
        unfold RC.ptrs
        rw [h]
        dsimp only
        rw [List.cons_append, List.cons_append]
        exact List.perm_middle
      exact hperm.nodup_iff.mpr hnd
    · intro i hi; exact hlt i ((hmem i).mp hi)
    · simp only [RC.vals, List.map_cons, List.cons.injEq]
      exact ⟨hq.1, hprot⟩
    · exact hleft.mono (fun i hi _ hi' => hi ((hmem i).mp hi')) (fun _ _ _ => rfl)
    · exact hdead.mono (fun i hi _ hi' => hi ((hmem i).mp hi')) (fun _ _ _ => rfl)

theorem drop_prot {rc : RC} {p : Nat} {prot : List Nat} {br : Branch} {q : List Branch} {o : Traced} {pv : List Branch}
    (hsim : Sim rc (p :: prot) q o (br :: pv)) : Sim rc prot q o pv ∧ p ∉ RC.ptrs rc prot ∧ rc.store[p]? = some br := by
  obtain ⟨hnd, hlt, hlen, hq, hnext, hprot, hleft, hdead⟩ := hsim
  have hsub : ∀ i, i ∈ RC.ptrs rc prot → i ∈ RC.ptrs rc (p :: prot) := by
    intro i
    unfold RC.ptrs
    simp only [List.mem_append, List.mem_cons]
    tauto
  simp only [RC.vals, List.map_cons, List.cons.injEq] at hprot
  have hperm : (RC.ptrs rc (p :: prot)).Perm (p :: RC.ptrs rc prot) := by
    unfold RC.ptrs
    exact List.perm_middle
  have hnd' := List.nodup_cons.mp (hperm.nodup_iff.mp hnd)
  refine ⟨⟨hnd'.2, fun i hi => hlt i (hsub i hi), hlen, hq, hnext, hprot.2, ?_, ?_⟩, hnd'.1, hprot.1⟩
  · exact hleft.mono (fun i hi _ hi' => hi (hsub i hi')) (fun _ _ _ => rfl)
  · exact hdead.mono (fun i hi _ hi' => hi (hsub i hi')) (fun _ _ _ => rfl)

theorem split_sim {rc : RC} {p : Nat} {prot : List Nat} {br : Branch} {q : List Branch} {o : Traced} {pv : List Branch}
    (hsim : Sim rc (p :: prot) q o (br :: pv)) (n : Nat) :
    Sim (rc.split p br (n + 1)).1 ((rc.split p br (n + 1)).2 ++ prot) q o (List.replicate (n + 1) br ++ pv) ∧
      (rc.split p br (n + 1)).2.length = n + 1 := by
  obtain ⟨hnd, hlt, hlen, hq, hnext, hprot, hleft, hdead⟩ := hsim
  unfold RC.split
  simp only [Nat.add_sub_cancel]
  have hold : ∀ (i : Nat), i < rc.store.length → (rc.store ++ List.replicate n br)[i]? = rc.store[i]? := by
    intro i hi; rw [List.getElem?_append_left hi]
  have hvals : ∀ ps : List Nat, (∀ i ∈ ps, i < rc.store.length) →
      (ps.map fun p => (rc.store ++ List.replicate n br)[p]?) = RC.vals rc ps := by
    intro ps hps
    apply List.map_congr_left
    intro i hi
    exact hold i (hps i hi)
  have hmem : ∀ i, i ∈ rc.q ++ rc.cur.take rc.len ++ ((p :: (List.range n).map fun i => rc.store.length + i) ++ prot) ↔
      i ∈ RC.ptrs rc (p :: prot) ∨ (rc.store.length ≤ i ∧ i < rc.store.length + n) := by
    intro i
    unfold RC.ptrs
    simp only [List.mem_append, List.mem_cons, List.mem_map, List.mem_range]
    constructor
    · rintro ((h | h) | ((h | ⟨a, ha, rfl⟩) | h))
      · tauto
      · tauto
      · tauto
      · right; omega
      · tauto
    · rintro (h | ⟨h1, h2⟩)
      · tauto
      · exact .inr (.inl (.inr ⟨i - rc.store.length, by omega, by omega⟩))
  have hin : ∀ i, i ∈ rc.q ∨ i ∈ rc.cur.take rc.len ∨ i ∈ p :: prot → i < rc.store.length := by
    intro i hi
    apply hlt
    unfold RC.ptrs
    simp only [List.mem_append]
    tauto
  refine ⟨⟨?_, ?_, hlen, ?_, ?_, ?_, ?_, ?_⟩, by simp⟩
  · unfold RC.ptrs at hnd ⊢
    dsimp only
    have hperm : (rc.q ++ rc.cur.take rc.len ++ (p :: (List.range n).map (fun i => rc.store.length + i) ++ prot)).Perm
        ((List.range n).map (fun i => rc.store.length + i) ++ (rc.q ++ rc.cur.take rc.len ++ p :: prot)) := by
      rw [List.cons_append]
      refine (List.perm_middle).trans ?_
      refine List.Perm.trans ?_ (List.perm_append_comm.trans ?_ : (rc.q ++ rc.cur.take rc.len ++ p :: prot ++
        (List.range n).map (fun i => rc.store.length + i)).Perm _)
      · rw [List.append_assoc _ (p :: prot)]
        refine List.Perm.trans ?_ (List.perm_middle).symm
        refine List.Perm.cons _ ?_
        refine List.Perm.append_left _ ?_
        exact List.perm_append_comm
      · exact List.Perm.refl _
    refine hperm.nodup_iff.mpr (List.nodup_append.mpr ⟨?_, hnd, ?_⟩)
    · exact List.Nodup.map (fun a b h => by simpa using h) List.nodup_range
    · intro a ha b hb
      obtain ⟨c, hc, rfl⟩ := List.mem_map.mp ha
      have := hlt b hb
      omega
  · intro i hi
    unfold RC.ptrs at hi
    dsimp only at hi
    rw [hmem] at hi
    simp only [List.length_append, List.length_replicate]
    rcases hi with hi | hi
    · have := hlt i hi; omega
    · omega
  · unfold RC.vals; dsimp only; rw [hvals _ (fun i hi => hin i (.inl hi))]; exact hq
  · unfold RC.vals; dsimp only; rw [hvals _ (fun i hi => hin i (.inr (.inl hi)))]; exact hnext
  · unfold RC.vals; dsimp only
    have h1 : (((List.range n).map fun i => rc.store.length + i).map fun p => (rc.store ++ List.replicate n br)[p]?) =
        (List.replicate n br).map some := by
      rw [List.map_map]
      apply List.ext_getElem?
      intro i
      simp only [List.getElem?_map, Function.comp]
      by_cases hi : i < n
      · rw [List.getElem?_range hi]
        simp [hi]
      · rw [List.getElem?_eq_none (l := List.range n) (by simpa using hi), List.getElem?_eq_none (by simpa using hi)]
        rfl
    simp only [RC.vals, List.map_cons, List.cons.injEq] at hprot
    rw [List.replicate_succ, List.cons_append, List.map_cons, List.map_append, h1, List.cons_append, List.map_cons, List.map_append,
      hold p (hin p (.inr (.inr (by simp)))), hprot.1, hvals prot (fun i hi => hin i (.inr (.inr (by simp [hi]))))]
    rw [RC.vals, hprot.2]
  · refine hleft.mono ?_ ?_
    · intro i hi hlt hi'
      unfold RC.ptrs at hi'
      dsimp only at hi'
      rw [hmem] at hi'
      rcases hi' with hi' | hi'
      · exact hi hi'
      · omega
    · intro i _ hi; exact hold i hi
  · refine hdead.mono ?_ ?_
    · intro i hi hlt hi'
      unfold RC.ptrs at hi'
      dsimp only at hi'
      rw [hmem] at hi'
      rcases hi' with hi' | hi'
      · exact hi hi'
      · omega
    · intro i _ hi; exact hold i hi

theorem drain_sim {env : PEnv σ} {tok : Option Token} (fuel : Nat) {rc rc' : RC} {prot : List Nat} {q : List Branch} {o : Traced}
    {pv : List Branch} (hsim : Sim rc prot q o pv) (h : rc.drain env tok fuel = .done rc') :
    ∃ o', traceQueue env.g env.upper tok fuel q o = .done o' ∧ Sim rc' prot [] o' pv := by
  induction fuel generalizing rc q o with
  | zero => simp [RC.drain] at h
  | succ fuel ih =>
    rw [RC.drain.eq_def] at h
    dsimp only at h
    cases hq : rc.q with
    | nil =>
      rw [hq] at h
      cases h
      have hn : q = [] := by
        have := hsim.q
        rw [hq] at this
        simpa [RC.vals] using this.symm
      subst hn
      exact ⟨o, rfl, hsim⟩
    | cons p ps =>
      rw [hq] at h
      dsimp only at h
      obtain ⟨br, q', rfl, hbr, hsim1⟩ := pop_sim hsim hq
      rw [orPanic_done] at h
      obtain ⟨br', hbr', h⟩ := h
      rw [hbr] at hbr'; cases hbr'
      rw [traceQueue]
      cases hst : br.stack with
      | nil =>
        rw [hst] at h
        dsimp only at h ⊢
        refine ih ?_ h
        obtain ⟨h1, h2, h3⟩ := drop_prot hsim1
        exact ⟨h1.nodup, h1.lt, h1.len, h1.q, h1.next, h1.keep, lastIs_new h2 h3, h1.dead⟩
      | cons top rest =>
        rw [hst] at h
        dsimp only at h ⊢
        rw [orPanic_done] at h
        obtain ⟨rules, hr, h⟩ := h
        rw [hr]
        dsimp only [orPanic]
        match rules, h with
        | [], h =>
          dsimp only at h ⊢
          refine ih ?_ h
          obtain ⟨h1, h2, h3⟩ := drop_prot hsim1
          exact ⟨h1.nodup, h1.lt, h1.len, h1.q, h1.next, h1.keep, h1.left, lastIs_new h2 h3⟩
        | [r], h =>
          dsimp only at h ⊢
          rw [orPanic_done] at h
          obtain ⟨rc1, ha, h⟩ := h
          obtain ⟨x, h2, h3⟩ := apply_sim hsim1 ha
          obtain ⟨o', h4, h5⟩ := ih h3 h
          refine ⟨o', ?_, h5⟩
          simp only [useRules, h2, Option.bind_some]
          by_cases hx : x.2 = true
          · rw [if_pos hx, if_pos hx] at h4
            rw [if_pos hx]; exact h4
          · rw [if_neg hx, if_neg hx] at h4
            rw [if_neg hx]
            by_cases hy : x.1.stack.isEmpty = true
            · rw [if_pos hy, if_pos hy] at h4
              rw [if_pos hy]; exact h4
            · rw [if_neg hy, if_neg hy] at h4
              rw [if_neg hy]; exact h4
        | r :: r' :: rs, h =>
          dsimp only at h ⊢
          rw [orPanic_done] at h
          obtain ⟨rc1, ha, h⟩ := h
          obtain ⟨h1, h2⟩ := split_sim hsim1 (r' :: rs).length
          have hl : (r :: r' :: rs).length = (r' :: rs).length + 1 := rfl
          rw [hl] at ha
          obtain ⟨q2, o2, h3, h4⟩ := applyAll_sim (r :: r' :: rs) _ (by rw [h2]; rfl) (by rw [h2]; exact h1) ha
          obtain ⟨o', h5, h6⟩ := ih h4 h
          refine ⟨o', ?_, h6⟩
          rw [h3]
          exact h5

/-- Arrays change beyond `nextBranches` only when it grows over them. -/
def Grown (rc rc' : RC) : Prop :=
  rc.len ≤ rc'.len ∧ ∀ n, rc'.len ≤ n → n ≤ rc.cur.length →
    rc'.moved = rc.moved ∧ rc'.cur.length = rc.cur.length ∧ rc'.cur.drop n = rc.cur.drop n

theorem Grown.refl {rc rc' : RC} (h1 : rc'.len = rc.len) (h2 : rc'.moved = rc.moved) (h3 : rc'.cur = rc.cur) : Grown rc rc' :=
  ⟨by rw [h1], fun _ _ _ => ⟨h2, by rw [h3], by rw [h3]⟩⟩

theorem Grown.trans {a b c : RC} (h1 : Grown a b) (h2 : Grown b c) : Grown a c := by
  refine ⟨le_trans h1.1 h2.1, fun n hn hle => ?_⟩
  obtain ⟨a1, a2, a3⟩ := h1.2 n (le_trans h2.1 hn) hle
  obtain ⟨b1, b2, b3⟩ := h2.2 n hn (by rw [a2]; exact hle)
  exact ⟨b1.trans a1, b2.trans a2, b3.trans a3⟩

theorem append_grown (grow : Nat → Nat) (rc : RC) (b : Nat) : Grown rc (rc.append grow b) := by
  unfold RC.append
  split
  · refine ⟨by simp, fun n hn hle => ⟨rfl, by simp, ?_⟩⟩
    dsimp only at hn ⊢
    apply List.ext_getElem?
    intro i
    rw [List.getElem?_drop, List.getElem?_drop, List.getElem?_set, if_neg (by omega)]
  · refine ⟨by simp, fun n hn hle => ?_⟩
    dsimp only at hn
    omega

theorem apply_grown {env : PEnv σ} {tok : Option Token} {rc rc' : RC} {p : Nat} {r : Rule}
    (h : rc.apply env tok p r = some rc') : Grown rc rc' := by
  rw [RC.apply, Option.bind_eq_some_iff] at h
  obtain ⟨br, -, h⟩ := h
  rw [Option.map_eq_some_iff] at h
  obtain ⟨x, -, h⟩ := h
  dsimp only at h
  split at h
  · subst h
    exact Grown.trans (b := { rc with store := rc.store.set p ⟨x.1, br.rules ++ [r]⟩ }) (Grown.refl rfl rfl rfl)
      (append_grown env.grow _ p)
  · split at h <;> subst h <;> exact Grown.refl rfl rfl rfl

theorem applyAll_grown {env : PEnv σ} {tok : Option Token} (l : List (Nat × Rule)) {rc rc' : RC}
    (h : rc.applyAll env tok l = some rc') : Grown rc rc' := by
  induction l generalizing rc with
  | nil => cases h; exact Grown.refl rfl rfl rfl
  | cons x l ih =>
    rw [RC.applyAll, Option.bind_eq_some_iff] at h
    obtain ⟨rc1, h1, h⟩ := h
    exact (apply_grown h1).trans (ih h)

theorem drain_grown {env : PEnv σ} {tok : Option Token} (fuel : Nat) {rc rc' : RC}
    (h : rc.drain env tok fuel = .done rc') : Grown rc rc' := by
  induction fuel generalizing rc with
  | zero => simp [RC.drain] at h
  | succ fuel ih =>
    rw [RC.drain.eq_def] at h
    dsimp only at h
    split at h
    · cases h; exact Grown.refl rfl rfl rfl
    · rw [orPanic_done] at h
      obtain ⟨br, -, h⟩ := h
      split at h
      · have h5 := ih h
        exact Grown.trans (Grown.refl rfl rfl rfl) h5
      · rw [orPanic_done] at h
        obtain ⟨rules, -, h⟩ := h
        split at h
        · have h5 := ih h
          exact Grown.trans (Grown.refl rfl rfl rfl) h5
        · rw [orPanic_done] at h
          obtain ⟨rc1, h1, h⟩ := h
          exact (Grown.trans (Grown.refl rfl rfl rfl) (apply_grown h1)).trans (ih h)
        · rw [orPanic_done] at h
          obtain ⟨rc1, h1, h⟩ := h
          exact (Grown.trans (Grown.refl rfl rfl rfl) (applyAll_grown _ h1)).trans (ih h)

/-- A protected branch is put into an empty queue. -/
theorem push_sim {rc : RC} {p : Nat} {prot : List Nat} {br : Branch} {o : Traced} {pv : List Branch}
    (hsim : Sim rc (p :: prot) [] o (br :: pv)) : Sim { rc with q := rc.q ++ [p] } prot [br] o pv := by
  obtain ⟨hnd, hlt, hlen, hq, hnext, hprot, hleft, hdead⟩ := hsim
  have hq0 : rc.q = [] := by simpa [RC.vals] using hq
  simp only [RC.vals, List.map_cons, List.cons.injEq] at hprot
  have hperm : (RC.ptrs { rc with q := rc.q ++ [p] } prot).Perm (RC.ptrs rc (p :: prot)) := by
    unfold RC.ptrs
    dsimp only
    rw [hq0]
    simp only [List.nil_append, List.singleton_append]
    exact List.perm_middle.symm
  refine ⟨hperm.nodup_iff.mpr hnd, fun i hi => hlt i (hperm.mem_iff.mp hi), hlen, ?_, hnext, hprot.2, ?_, ?_⟩
  · unfold RC.vals
    dsimp only
    rw [hq0]
    simp [hprot.1]
  · exact hleft.mono (fun i hi _ hi' => hi (hperm.mem_iff.mp hi')) (fun _ _ _ => rfl)
  · exact hdead.mono (fun i hi _ hi' => hi (hperm.mem_iff.mp hi')) (fun _ _ _ => rfl)

theorem sim_len {rc : RC} {prot : List Nat} {q : List Branch} {o : Traced} {pv : List Branch} (h : Sim rc prot q o pv) :
    o.next.length = rc.len := by
  have h1 := congrArg List.length h.next
  simp only [RC.vals, List.length_map, List.length_take] at h1
  have := h.len
  omega

theorem overBranches_sim {env : PEnv σ} {tok : Option Token} (fuel : Nat) (L : List Branch) (ps : List Nat) (n : Nat)
    {rc rc' : RC} {o : Traced} (hsim : Sim rc ps [] o L)
    (hps : ps ≠ [] → ∃ tail, (rc.moved.getD rc.cur).drop n = ps ++ tail)
    (hm : ps ≠ [] → rc.moved = none ∧ n ≤ rc.cur.length)
    (hfit : Fits env.g env.upper tok fuel n L o)
    (h : rc.overBranches env tok fuel ps.length n = .done rc') :
    ∃ o', traceEach env.g env.upper tok fuel L o = .done o' ∧ Sim rc' [] [] o' [] := by
  induction L generalizing ps n rc o with
  | nil =>
    have : ps = [] := by simpa [RC.vals] using hsim.keep
    subst this
    cases h
    exact ⟨o, rfl, hsim⟩
  | cons br L ih =>
    cases ps with
    | nil => have := hsim.keep; simp [RC.vals] at this
    | cons p ps =>
      obtain ⟨tail, ht⟩ := hps (by simp)
      obtain ⟨hm1, hm2⟩ := hm (by simp)
      rw [List.length_cons, RC.overBranches, orPanic_done] at h
      obtain ⟨p', hp', h⟩ := h
      have : p' = p := by
        have h1 := congrArg List.head? ht
        rw [List.head?_drop, hp'] at h1
        simpa using h1
      subst this
      rw [bindRun_done] at h
      obtain ⟨rc1, h1, h⟩ := h
      obtain ⟨o1, h2, h3⟩ := drain_sim fuel (push_sim hsim) h1
      have hg := drain_grown fuel h1
      have hfit1 := hfit.2 o1 h2
      have hn1 : n + 1 ≤ rc.cur.length := by
        rw [hm1] at ht
        have := congrArg List.length ht
        simp only [Option.getD_none, List.length_drop, List.length_append, List.length_cons] at this
        omega
      have key : ps ≠ [] → rc1.moved = none ∧ rc1.cur.length = rc.cur.length ∧ rc1.cur.drop (n + 1) = rc.cur.drop (n + 1) := by
        intro hne
        have hle : rc1.len ≤ n + 1 := by
          rw [← sim_len h3]
          cases L with
          | nil =>
            have := hsim.keep
            simp only [RC.vals, List.map_cons, List.map_nil, List.cons.injEq, List.map_eq_nil_iff] at this
            exact absurd this.2 hne
          | cons b L => exact hfit1.1
        obtain ⟨a1, a2, a3⟩ := hg.2 (n + 1) hle hn1
        exact ⟨a1.trans hm1, a2, a3⟩
      obtain ⟨o', h4, h5⟩ := ih ps (n + 1) h3 (fun hne => by
        obtain ⟨a1, a2, a3⟩ := key hne
        refine ⟨tail, ?_⟩
        rw [a1, Option.getD_none, a3]
        rw [hm1, Option.getD_none] at ht
        have := congrArg List.tail ht
        rw [List.tail_drop] at this
        simpa using this) (fun hne => by
        obtain ⟨a1, a2, a3⟩ := key hne
        exact ⟨a1, by rw [a2]; exact hn1⟩) hfit1 h
      exact ⟨o', by rw [traceEach, h2]; exact h4, h5⟩

/-- A round is done as in the reference lookahead if no branch is overwritten. -/
theorem round_sim {env : PEnv σ} {tok : Option Token} {fuel : Nat} {rc rc' : RC} {o : Traced} (hsim : Sim rc [] [] o [])
    (hfit : Fits env.g env.upper tok fuel 0 o.next { dead := o.dead }) (h : rc.round env tok fuel = .done rc') :
    ∃ o', traceEach env.g env.upper tok fuel o.next { dead := o.dead } = .done o' ∧ Sim rc' [] [] o' [] := by
  have hq0 : rc.q = [] := by simpa [RC.vals] using hsim.q
  have hl : (rc.cur.take rc.len).length = rc.len := by rw [List.length_take]; have := hsim.len; omega
  have hptr : RC.ptrs { rc with len := 0, moved := none, lastSuccess := none } (rc.cur.take rc.len) = RC.ptrs rc [] := by
    unfold RC.ptrs
    simp
  have hsim0 : Sim { rc with len := 0, moved := none, lastSuccess := none } (rc.cur.take rc.len) [] { dead := o.dead } o.next := by
    refine ⟨?_, ?_, Nat.zero_le _, ?_, ?_, hsim.next, ?_, ?_⟩
    · rw [hptr]; exact hsim.nodup
    · rw [hptr]; exact hsim.lt
    · simp [RC.vals, hq0]
    · simp [RC.vals]
    · exact ⟨fun _ => rfl, fun b hb => by simp at hb⟩
    · rw [hptr]; exact hsim.dead.mono (fun _ h _ => h) (fun _ _ _ => rfl)
  rw [RC.round] at h
  refine overBranches_sim fuel o.next (rc.cur.take rc.len) 0 hsim0 ?_ ?_ hfit ?_
  · intro _
    exact ⟨rc.cur.drop rc.len, by simp⟩
  · intro _
    exact ⟨rfl, Nat.zero_le _⟩
  · rw [hl]; exact h

theorem start_sim (b : Branch) : Sim { store := [b], cur := [0], len := 1 } [] [] { next := [b] } [] := by
  refine ⟨by simp [RC.ptrs], by simp [RC.ptrs], by simp, by simp [RC.vals], by simp [RC.vals], by simp [RC.vals], ?_, ?_⟩
  · exact ⟨fun _ => rfl, fun b hb => by simp at hb⟩
  · exact ⟨fun _ => rfl, fun b hb => by simp at hb⟩

/-- The chosen rules. -/
theorem chosen_sim {rc : RC} {o : Traced} {rules : List Rule} (hsim : Sim rc [] [] o []) (h : rc.chosen = some rules) :
    ∃ b, b.rules = rules ∧ (o.next.head? = some b ∨ (o.next = [] ∧ o.left.getLast? = some b) ∨
      (o.next = [] ∧ o.left = [] ∧ o.dead.getLast? = some b)) := by
  have hlen := sim_len hsim
  rw [RC.chosen, Option.bind_eq_some_iff] at h
  obtain ⟨p, hp, h⟩ := h
  rw [Option.map_eq_some_iff] at h
  obtain ⟨b, hb, h⟩ := h
  refine ⟨b, h, ?_⟩
  split at hp
  · rename_i hne
    left
    have h1 := congrArg List.head? hsim.next
    rw [RC.vals, List.head?_map, List.head?_take, if_neg hne, List.head?_eq_getElem?, hp, List.head?_map] at h1
    cases ho : o.next.head? with
    | none => rw [ho] at h1; simp at h1
    | some a => rw [ho] at h1; simpa [hb] using h1.symm
  · rename_i hne
    have hn : o.next = [] := List.length_eq_zero_iff.mp (by rw [hlen]; omega)
    right
    split at hp
    · rename_i q hq
      cases hp
      left
      refine ⟨hn, ?_⟩
      cases hl : o.left.getLast? with
      | none => rw [hsim.left.1 (List.getLast?_eq_none_iff.mp hl)] at hq; cases hq
      | some b' =>
        obtain ⟨i, h1, -, h3⟩ := hsim.left.2 b' hl
        rw [hq] at h1; cases h1
        rw [hb] at h3; exact h3.symm
    · rename_i hq
      right
      have hl : o.left = [] := by
        cases hl : o.left.getLast? with
        | none => exact List.getLast?_eq_none_iff.mp hl
        | some b' => obtain ⟨i, h1, -, -⟩ := hsim.left.2 b' hl; rw [hq] at h1; cases h1
      refine ⟨hn, hl, ?_⟩
      cases hd : o.dead.getLast? with
      | none => rw [hsim.dead.1 (List.getLast?_eq_none_iff.mp hd)] at hp; cases hp
      | some b' =>
        obtain ⟨i, h1, -, h3⟩ := hsim.dead.2 b' hd
        rw [hp] at h1; cases h1
        rw [hb] at h3; exact h3.symm

end Verif.Proof
