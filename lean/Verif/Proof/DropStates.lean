import Verif.Model.Tables
import Verif.Proof.Chunk

namespace Verif.Proof

open Verif.Model

/-- An entry with the rules under keys ≥ 0 renumbered. -/
def remapEntry (ni : Nat → Nat) (e : Entry) : Entry :=
  { e with pos := fun k => if k ∈ e.keys then (e.pos k).map (remapRule ni) else e.pos k }

/-- State `s` uses the shared slice `c`. -/
def refers (pr : PR) (c : Nat) (s : Nat) : Bool :=
  match pr.states[s]? with
  | none => false
  | some e => decide (∃ k ∈ e.keys, k < 0 ∧ e.neg k = some c)

theorem remapState_states (ni : Nat → Nat) (pr : PR) (s s' : Nat) :
    (pr.remapState ni s).states[s']? = (pr.states[s']?).map fun e => if s' = s then remapEntry ni e else e := by
  unfold PR.remapState
  cases hs : pr.states[s]? with
  | none =>
    simp only []
    by_cases h : s' = s
    · subst h; rw [hs]; rfl
    · simp [h]
  | some e =>
    simp only []
    rw [List.getElem?_set]
    have hlt : s < pr.states.length := (List.getElem?_eq_some_iff.mp hs).1
    by_cases h : s = s'
    · subst h; rw [if_pos rfl, if_pos hlt, hs]; simp [remapEntry]
    · rw [if_neg h]
      have : ¬ s' = s := fun h' => h h'.symm
      simp [this]

theorem remapState_cells (ni : Nat → Nat) (pr : PR) (s c : Nat) :
    (pr.remapState ni s).cells[c]? = (pr.cells[c]?).map fun r => if refers pr c s then remapRule ni r else r := by
  unfold PR.remapState refers
  cases hs : pr.states[s]? with
  | none => simp
  | some e => simp [List.getElem?_mapIdx]

theorem remapState_refers (ni : Nat → Nat) (pr : PR) (s c s' : Nat) :
    refers (pr.remapState ni s) c s' = refers pr c s' := by
  unfold refers
  rw [remapState_states]
  cases pr.states[s']? with
  | none => rfl
  | some e => by_cases h : s' = s <;> simp [h, remapEntry]

theorem fold_states (ni : Nat → Nat) (l : List Nat) (hl : l.Nodup) (pr : PR) (s : Nat) :
    (l.foldl (PR.remapState ni) pr).states[s]? = (pr.states[s]?).map fun e => if s ∈ l then remapEntry ni e else e := by
  induction l generalizing pr with
  | nil => simp
  | cons a l ih =>
    rw [List.foldl_cons, ih (List.nodup_cons.mp hl).2, remapState_states, Option.map_map]
    congr 1
    funext e
    simp only [Function.comp]
    by_cases h : s = a
    · subst h; simp [(List.nodup_cons.mp hl).1]
    · simp [h]

theorem fold_cells (ni : Nat → Nat) (l : List Nat) (pr : PR) (c : Nat) :
    (l.foldl (PR.remapState ni) pr).cells[c]? =
      (pr.cells[c]?).map fun r => (remapRule ni)^[l.countP (refers pr c)] r := by
  induction l generalizing pr with
  | nil => simp
  | cons a l ih =>
    rw [List.foldl_cons, ih, remapState_cells, Option.map_map]
    have : refers (pr.remapState ni a) c = refers pr c := funext fun s' => remapState_refers ni pr a c s'
    rw [this, List.countP_cons]
    congr 1
    funext r
    simp only [Function.comp]
    by_cases h : refers pr c a = true
    · rw [if_pos h, if_pos h, Function.iterate_succ_apply]
    · rw [if_neg h, if_neg h]; rfl

/-- How often the shared slice of state `i` under a negative key is renumbered. -/
def timesRemapped (pr : PR) (firsts : List Nat) (c : Nat) : Nat := (sorted (pr.usedStates firsts)).countP (refers pr c)

theorem mem_used_lt {pr : PR} {firsts : List Nat} {i : Nat} (h : i ∈ pr.usedStates firsts) : i < pr.states.length :=
  Finset.mem_range.mp (Finset.mem_filter.mp h).1

theorem kept_get {pr : PR} (l : List Nat) (hl : ∀ i ∈ l, i < pr.states.length) (j : Nat) :
    (l.filterMap fun i => pr.states[i]?)[j]? = (l[j]?).bind fun i => pr.states[i]? := by
  induction l generalizing j with
  | nil => simp
  | cons a l ih =>
    have ha : pr.states[a]? = some (pr.states[a]'(hl a (by simp))) := List.getElem?_eq_getElem _
    rw [List.filterMap_cons_some ha]
    cases j with
    | zero => simp [ha]
    | succ j => simp [ih (fun i hi => hl i (by simp [hi]))]

theorem kept_length {pr : PR} (l : List Nat) (hl : ∀ i ∈ l, i < pr.states.length) :
    (l.filterMap fun i => pr.states[i]?).length = l.length := by
  induction l with
  | nil => rfl
  | cons a l ih =>
    have ha : pr.states[a]? = some (pr.states[a]'(hl a (by simp))) := List.getElem?_eq_getElem _
    rw [List.filterMap_cons_some ha]
    simp [ih (fun i hi => hl i (by simp [hi]))]

theorem kept_refers {pr : PR} (l : List Nat) (hl : ∀ i ∈ l, i < pr.states.length) (c : Nat) :
    (List.range l.length).countP (refers { pr with states := l.filterMap fun i => pr.states[i]? } c) =
      l.countP (refers pr c) := by
  have h : ∀ j (hj : j < l.length),
      refers { pr with states := l.filterMap fun i => pr.states[i]? } c j = refers pr c l[j] := by
    intro j hj
    unfold refers
    rw [show ({ pr with states := l.filterMap fun i => pr.states[i]? } : PR).states[j]? = _ from kept_get l hl j]
    rw [List.getElem?_eq_getElem hj]; rfl
  have h2 : l = (List.range l.length).map fun j => (l[j]?).getD 0 := by
    apply List.ext_getElem?
    intro j
    by_cases hj : j < l.length
    · simp [hj]
    · simp [hj]
  conv_rhs => rw [h2]
  rw [List.countP_map]
  apply List.countP_congr
  intro j hj
  have hj : j < l.length := List.mem_range.mp hj
  rw [h j hj]
  simp [Function.comp, List.getElem?_eq_getElem hj]

/-- State numbers after dropping. -/
def newNumber (pr : PR) (firsts : List Nat) (i : Nat) : Nat :=
  if (pr.usedStates firsts).card = pr.states.length then i else newIndexes (sorted (pr.usedStates firsts)) i

theorem card_used_eq {pr : PR} {firsts : List Nat} (h : (pr.usedStates firsts).card = pr.states.length) {i : Nat}
    (hi : i < pr.states.length) : i ∈ pr.usedStates firsts := by
  have hs : pr.usedStates firsts ⊆ Finset.range pr.states.length := Finset.filter_subset _ _
  have := Finset.eq_of_subset_of_card_le hs (by simp [h])
  rw [this]; exact Finset.mem_range.mpr hi

theorem newIndexes_get {l : List Nat} {i : Nat} (h : i ∈ l) : l[newIndexes l i]? = some i := by
  rw [newIndexes, if_pos h]
  exact List.getElem?_idxOf h

/-- Exact effect of `dropUnusedStates` when some state is dropped. -/
theorem dropUnused_rules {pr : PR} {firsts : List Nat} (hne : (pr.usedStates firsts).card ≠ pr.states.length) (hok : pr.Ok)
    {i : Nat} (hi : i ∈ pr.usedStates firsts) (k : Int) :
    (pr.dropUnused firsts).1.rules (newNumber pr firsts i) k =
      if 0 ≤ k then (pr.rules i k).map (remapRule (newNumber pr firsts))
      else match pr.states[i]? with
        | none => []
        | some e => match e.neg k with
          | none => []
          | some c => (pr.rules i k).map (remapRule (newNumber pr firsts))^[timesRemapped pr firsts c] := by
  have hlt := mem_used_lt hi
  have hnn : newNumber pr firsts = newIndexes (sorted (pr.usedStates firsts)) := by
    funext j; rw [newNumber, if_neg hne]
  rw [hnn]
  unfold PR.dropUnused
  simp only [length_sorted]
  rw [if_neg hne]
  simp only []
  set l := sorted (pr.usedStates firsts) with hldef
  have hl : ∀ i ∈ l, i < pr.states.length := fun i hi => mem_used_lt (mem_sorted.mp hi)
  have hil : i ∈ l := mem_sorted.mpr hi
  have hget : pr.states[i]? = some pr.states[i] := List.getElem?_eq_getElem hlt
  have hkept : (l.filterMap fun i => pr.states[i]?)[newIndexes l i]? = some pr.states[i] := by
    rw [kept_get l hl, newIndexes_get hil]; exact hget
  have hjlt : newIndexes l i < l.length := by
    by_contra h
    have := newIndexes_get hil
    rw [List.getElem?_eq_none (by omega)] at this; cases this
  have hst := fold_states (newIndexes l) (List.range l.length) List.nodup_range
    { pr with states := l.filterMap fun i => pr.states[i]? } (newIndexes l i)
  simp only [hkept, Option.map_some, List.mem_range, if_pos hjlt] at hst
  rw [kept_length l hl]
  have hc := fun c => fold_cells (newIndexes l) (List.range l.length)
    { pr with states := l.filterMap fun i => pr.states[i]? } c
  simp only [kept_refers l hl] at hc
  unfold PR.rules
  rw [hst, hget]
  simp only []
  unfold PR.slot
  by_cases hk : 0 ≤ k
  · simp only [if_pos hk, remapEntry]
    by_cases hkk : k ∈ (pr.states[i]).keys
    · rw [if_pos hkk]
    · rw [if_neg hkk]
      have : pr.slot pr.states[i] k = [] := by
        by_contra h; exact hkk ((hok.keys i _ k hget).mpr h)
      rw [PR.slot, if_pos hk] at this
      rw [this]; rfl
  · simp only [if_neg hk]
    have : (remapEntry (newIndexes l) pr.states[i]).neg = (pr.states[i]).neg := rfl
    rw [this]
    cases he : (pr.states[i]).neg k with
    | none => rfl
    | some c =>
      simp only []
      rw [hc c]
      cases hcc : pr.cells[c]? with
      | none => simp
      | some r => simp [timesRemapped, hldef]

end Verif.Proof

namespace Verif.Proof

open Verif.Model

theorem remapRule_token (ni : Nat → Nat) (r : Rule) : (remapRule ni r).token = r.token := by
  unfold remapRule; split <;> rfl

theorem remapRule_iter_token (ni : Nat → Nat) (n : Nat) (r : Rule) : ((remapRule ni)^[n] r).token = r.token := by
  induction n generalizing r with
  | zero => rfl
  | succ n ih => rw [Function.iterate_succ_apply, ih, remapRule_token]

theorem dropUnused_same {pr : PR} {firsts : List Nat} (h : (pr.usedStates firsts).card = pr.states.length) :
    pr.dropUnused firsts = (pr, firsts) := by
  unfold PR.dropUnused
  simp only [length_sorted]
  rw [if_pos h]

theorem dropUnused_firsts (pr : PR) (firsts : List Nat) :
    (pr.dropUnused firsts).2 = firsts.map (newNumber pr firsts) := by
  by_cases h : (pr.usedStates firsts).card = pr.states.length
  · rw [dropUnused_same h]
    have : newNumber pr firsts = id := by funext i; rw [newNumber, if_pos h]; rfl
    rw [this]; simp
  · have hnn : newNumber pr firsts = newIndexes (sorted (pr.usedStates firsts)) := by
      funext j; rw [newNumber, if_neg h]
    unfold PR.dropUnused
    simp only [length_sorted]
    rw [if_neg h, hnn]

theorem remapState_length (ni : Nat → Nat) (pr : PR) (s : Nat) :
    (pr.remapState ni s).states.length = pr.states.length := by
  unfold PR.remapState
  cases pr.states[s]? with
  | none => rfl
  | some e => simp

theorem fold_length (ni : Nat → Nat) (l : List Nat) (pr : PR) :
    (l.foldl (PR.remapState ni) pr).states.length = pr.states.length := by
  induction l generalizing pr with
  | nil => rfl
  | cons a l ih => rw [List.foldl_cons, ih, remapState_length]

theorem dropUnused_length (pr : PR) (firsts : List Nat) :
    (pr.dropUnused firsts).1.states.length = (pr.usedStates firsts).card := by
  by_cases h : (pr.usedStates firsts).card = pr.states.length
  · rw [dropUnused_same h, h]
  · unfold PR.dropUnused
    simp only [length_sorted]
    rw [if_neg h]
    simp only []
    rw [fold_length, kept_length _ (fun i hi => mem_used_lt (mem_sorted.mp hi)), length_sorted]

theorem newNumber_get {pr : PR} {firsts : List Nat} {i : Nat} (hi : i ∈ pr.usedStates firsts) :
    (sorted (pr.usedStates firsts))[newNumber pr firsts i]? = some i := by
  rw [newNumber]
  by_cases h : (pr.usedStates firsts).card = pr.states.length
  · rw [if_pos h]
    have hs : pr.usedStates firsts = Finset.range pr.states.length :=
      Finset.eq_of_subset_of_card_le (Finset.filter_subset _ _) (by simp [h])
    have : sorted (pr.usedStates firsts) = List.range pr.states.length := by
      rw [hs]
      refine List.SortedLT.eq_of_mem_iff (sorted_sortedLT _) (List.sortedLT_range _) ?_
      intro a; rw [mem_sorted]; simp
    rw [this, List.getElem?_range (mem_used_lt hi)]
  · rw [if_neg h]; exact newIndexes_get (mem_sorted.mpr hi)

theorem newNumber_lt {pr : PR} {firsts : List Nat} {i : Nat} (hi : i ∈ pr.usedStates firsts) :
    newNumber pr firsts i < (pr.usedStates firsts).card := by
  rw [← length_sorted]
  by_contra h
  have := newNumber_get hi
  rw [List.getElem?_eq_none (by omega)] at this; cases this

theorem newNumber_mono {pr : PR} {firsts : List Nat} {i j : Nat} (hi : i ∈ pr.usedStates firsts)
    (hj : j ∈ pr.usedStates firsts) (hij : i < j) : newNumber pr firsts i < newNumber pr firsts j := by
  by_contra h
  obtain ⟨h1, h1'⟩ := List.getElem?_eq_some_iff.mp (newNumber_get hi)
  obtain ⟨h2, h2'⟩ := List.getElem?_eq_some_iff.mp (newNumber_get hj)
  have := (sorted_sortedLT (pr.usedStates firsts)).strictMono_get.monotone
    (a := ⟨newNumber pr firsts j, h2⟩) (b := ⟨newNumber pr firsts i, h1⟩) (by simpa using h)
  simp only [List.get_eq_getElem, h1', h2'] at this
  omega

theorem newNumber_surj {pr : PR} {firsts : List Nat} {n : Nat} (hn : n < (pr.usedStates firsts).card) :
    ∃ i ∈ pr.usedStates firsts, newNumber pr firsts i = n := by
  have hl : n < (sorted (pr.usedStates firsts)).length := by rw [length_sorted]; exact hn
  have hm := mem_sorted.mp (List.getElem_mem hl)
  refine ⟨_, hm, ?_⟩
  obtain ⟨h1, h1'⟩ := List.getElem?_eq_some_iff.mp (newNumber_get hm)
  have := (sorted_sortedLT (pr.usedStates firsts)).nodup
  exact (List.Nodup.getElem_inj_iff this).mp h1'

theorem newNumber_le {pr : PR} {firsts : List Nat} (i : Nat) (hi : i ∈ pr.usedStates firsts) :
    newNumber pr firsts i ≤ i := by
  induction i using Nat.strong_induction_on with
  | _ i ih =>
    by_contra h
    obtain ⟨j, hj, hjn⟩ := newNumber_surj (pr := pr) (firsts := firsts) (n := i)
      (by have := newNumber_lt hi; omega)
    rcases lt_trichotomy i j with hij | rfl | hij
    · have := newNumber_mono hi hj hij; omega
    · omega
    · have := ih j hij hj; omega

/-- If no state up to `i` is dropped, `i` keeps its number. -/
theorem newNumber_self {pr : PR} {firsts : List Nat} (i : Nat) (hi : ∀ j ≤ i, j ∈ pr.usedStates firsts) :
    newNumber pr firsts i = i := by
  induction i with
  | zero => have := newNumber_le 0 (hi 0 (le_refl _)); omega
  | succ i ih =>
    have h1 := ih (fun j hj => hi j (by omega))
    have h2 := newNumber_mono (hi i (by omega)) (hi (i + 1) (le_refl _)) (by omega)
    have h3 := newNumber_le (i + 1) (hi (i + 1) (le_refl _))
    omega

theorem target_used {pr : PR} (hok : pr.Ok) {firsts : List Nat} {s : Nat} {k : Int} {r : Rule} (hr : r ∈ pr.rules s k) {t : Nat}
    (ht : r.state = t) : t ∈ pr.usedStates firsts := by
  have h1 := (hok.tgt s k r hr).2
  rw [PR.usedStates, Finset.mem_filter, Finset.mem_range]
  refine ⟨by omega, Or.inr ?_⟩
  unfold PR.rules at hr
  cases he : pr.states[s]? with
  | none => rw [he] at hr; simp at hr
  | some e =>
    rw [he] at hr
    simp only at hr
    exact ⟨e, List.mem_of_getElem? he, k, (hok.keys s e k he).mpr (List.ne_nil_of_mem hr), r, hr, ht⟩

theorem iter_idem {α : Type} (f : α → α) (x : α) (h : f (f x) = f x) (n : Nat) (hn : 1 ≤ n) : f^[n] x = f x := by
  induction n with
  | zero => omega
  | succ n ih =>
    cases n with
    | zero => rfl
    | succ n => rw [Function.iterate_succ_apply', ih (by omega), h]

theorem refers_of_neg {pr : PR} (hok : pr.Ok) {i : Nat} {e : Entry} {k : Int} {c : Nat} (he : pr.states[i]? = some e)
    (hk : k < 0) (hc : e.neg k = some c) : refers pr c i = true := by
  unfold refers
  rw [he]
  simp only [decide_eq_true_eq]
  refine ⟨k, (hok.keys i e k he).mpr ?_, hk, hc⟩
  rw [PR.slot, if_neg (by omega), hc]
  have := hok.ref i e k c he hc
  simp [List.getElem?_eq_getElem this]

theorem rules_of_neg {pr : PR} (hok : pr.Ok) {i : Nat} {e : Entry} {k : Int} {c : Nat} (he : pr.states[i]? = some e)
    (hk : k < 0) (hc : e.neg k = some c) : ∃ r, pr.cells[c]? = some r ∧ pr.rules i k = [r] := by
  have := hok.ref i e k c he hc
  refine ⟨pr.cells[c], List.getElem?_eq_getElem this, ?_⟩
  unfold PR.rules
  rw [he]
  simp only [PR.slot, if_neg (show ¬ 0 ≤ k by omega), hc, List.getElem?_eq_getElem this]

/-- Dropping renumbers once if shared slices are safe. -/
theorem dropUnused_once {pr : PR} {firsts : List Nat} (hok : pr.Ok)
    (hsafe : ∀ (i j : Nat) (e f : Entry) (k : Int) (c : Nat), i ∈ pr.usedStates firsts → j ∈ pr.usedStates firsts → i ≠ j →
      pr.states[i]? = some e → pr.states[j]? = some f → e.neg k = some c → f.neg k = some c →
      ∀ r ∈ pr.rules i k, remapRule (newNumber pr firsts) (remapRule (newNumber pr firsts) r) =
        remapRule (newNumber pr firsts) r)
    {i : Nat} (hi : i ∈ pr.usedStates firsts) (k : Int) :
    (pr.dropUnused firsts).1.rules (newNumber pr firsts i) k = (pr.rules i k).map (remapRule (newNumber pr firsts)) := by
  by_cases h : (pr.usedStates firsts).card = pr.states.length
  · rw [dropUnused_same h]
    have : newNumber pr firsts = id := by funext i; rw [newNumber, if_pos h]; rfl
    rw [this]
    have h2 : remapRule id = id := by
      funext r
      unfold remapRule
      by_cases hr : 0 ≤ r.state
      · rw [if_pos hr]; cases r; simp only [id] at hr ⊢; rw [Int.toNat_of_nonneg hr]
      · rw [if_neg hr]; rfl
    rw [h2]; simp
  · rw [dropUnused_rules h hok hi]
    by_cases hk : 0 ≤ k
    · rw [if_pos hk]
    · rw [if_neg hk]
      have hlt := mem_used_lt hi
      have he : pr.states[i]? = some pr.states[i] := List.getElem?_eq_getElem hlt
      rw [he]
      simp only []
      cases hc : (pr.states[i]).neg k with
      | none =>
        simp only []
        unfold PR.rules
        rw [he]
        simp [PR.slot, hk, hc]
      | some c =>
        simp only []
        obtain ⟨r, hr, hrr⟩ := rules_of_neg hok he (by omega) hc
        rw [hrr]
        simp only [List.map_cons, List.map_nil]
        congr 1
        have hmem : i ∈ sorted (pr.usedStates firsts) := mem_sorted.mpr hi
        have href := refers_of_neg hok he (by omega) hc
        have h1 : 1 ≤ timesRemapped pr firsts c := List.countP_pos_iff.mpr ⟨i, hmem, href⟩
        by_cases h2 : timesRemapped pr firsts c = 1
        · rw [h2]; rfl
        · -- another state uses the slice
          obtain ⟨j, hj, hji, hjr⟩ : ∃ j ∈ sorted (pr.usedStates firsts), j ≠ i ∧ refers pr c j = true := by
            by_contra hno
            push Not at hno
            apply h2
            unfold timesRemapped
            have hnd := (sorted_sortedLT (pr.usedStates firsts)).nodup
            rw [List.countP_eq_length_filter]
            have : (sorted (pr.usedStates firsts)).filter (refers pr c) = (sorted (pr.usedStates firsts)).filter (· == i) := by
              apply List.filter_congr
              intro a ha
              by_cases hai : a = i
              · subst hai; simp [href]
              · have := hno a ha hai
                simp [hai, this]
            rw [this, ← List.countP_eq_length_filter]
            exact List.count_eq_one_of_mem hnd hmem
          refine iter_idem _ _ ?_ _ h1
          unfold refers at hjr
          cases hf : pr.states[j]? with
          | none => rw [hf] at hjr; simp at hjr
          | some f =>
            rw [hf] at hjr
            simp only [decide_eq_true_eq] at hjr
            obtain ⟨k', hk', hk'n, hfc⟩ := hjr
            have hkk : k' = k := by
              obtain ⟨r', hr', hrr'⟩ := rules_of_neg hok hf hk'n hfc
              rw [hr] at hr'
              cases hr'
              have a := hok.tok i k r (by simp [hrr])
              have b := hok.tok j k' r (by simp [hrr'])
              omega
            subst hkk
            exact hsafe i j _ f k' c hi (mem_sorted.mp hj) (fun h => hji h.symm) he hf hc hfc r (by simp [hrr])

theorem dropUnused_ok {pr : PR} {firsts : List Nat} (hok : pr.Ok) : (pr.dropUnused firsts).1.Ok := by
  by_cases h : (pr.usedStates firsts).card = pr.states.length
  · rw [dropUnused_same h]; exact hok
  have hlen := dropUnused_length pr firsts
  -- every rule comes from a rule with the same key
  have hrules : ∀ (s : Nat) (k : Int), (pr.dropUnused firsts).1.rules s k = [] ∨ ∃ (i n : Nat), i ∈ pr.usedStates firsts ∧
      newNumber pr firsts i = s ∧ 1 ≤ n ∧
      (pr.dropUnused firsts).1.rules s k = (pr.rules i k).map (remapRule (newNumber pr firsts))^[n] := by
    intro s k
    by_cases hs : s < (pr.usedStates firsts).card
    · obtain ⟨i, hi, rfl⟩ := newNumber_surj hs
      rw [dropUnused_rules h hok hi]
      by_cases hk : 0 ≤ k
      · rw [if_pos hk]; exact Or.inr ⟨i, 1, hi, rfl, le_refl _, rfl⟩
      · rw [if_neg hk]
        have hlt := mem_used_lt hi
        have he : pr.states[i]? = some pr.states[i] := List.getElem?_eq_getElem hlt
        rw [he]
        simp only []
        cases hc : (pr.states[i]).neg k with
        | none => exact Or.inl rfl
        | some c =>
          refine Or.inr ⟨i, timesRemapped pr firsts c, hi, rfl, ?_, rfl⟩
          exact List.countP_pos_iff.mpr ⟨i, mem_sorted.mpr hi, refers_of_neg hok he (by omega) hc⟩
    · exact Or.inl (PR.rules_of_ge (by omega) k)
  have hiter : ∀ (n : Nat) (r : Rule), finalState ≤ r.state → r.state < pr.states.length → 1 ≤ n →
      (0 ≤ r.state → ∃ t ∈ pr.usedStates firsts, r.state = (t : Nat)) →
      finalState ≤ ((remapRule (newNumber pr firsts))^[n] r).state ∧
      ((remapRule (newNumber pr firsts))^[n] r).state < ((pr.usedStates firsts).card : Nat) := by
    intro n
    induction n with
    | zero => intro r _ _ hn; omega
    | succ n ih =>
      intro r h1 h2 _ h4
      have hstep : ∀ x : Rule, finalState ≤ x.state → (x.state < ((pr.usedStates firsts).card : Nat) ∨
          (0 ≤ x.state → ∃ t ∈ pr.usedStates firsts, x.state = (t : Nat))) →
          finalState ≤ (remapRule (newNumber pr firsts) x).state ∧
          (remapRule (newNumber pr firsts) x).state < ((pr.usedStates firsts).card : Nat) := by
        intro x hx1 hx2
        unfold remapRule
        by_cases hx : 0 ≤ x.state
        · rw [if_pos hx]
          simp only []
          have hpos : newNumber pr firsts x.state.toNat < (pr.usedStates firsts).card := by
            by_cases hu : x.state.toNat ∈ pr.usedStates firsts
            · exact newNumber_lt hu
            · rw [newNumber, if_neg h, newIndexes, if_neg (by rw [mem_sorted]; exact hu)]
              rcases hx2 with hx2 | hx2
              · omega
              · obtain ⟨t, ht, hte⟩ := hx2 hx
                exact Finset.card_pos.mpr ⟨t, ht⟩
          unfold finalState at *
          omega
        · rw [if_neg hx]
          unfold finalState at *
          refine ⟨hx1, by omega⟩
      rw [Function.iterate_succ_apply']
      by_cases hn : n = 0
      · subst hn; exact hstep r h1 (Or.inr h4)
      · have := ih r h1 h2 (by omega) h4
        exact hstep _ this.1 (Or.inl this.2)
  have htok : ∀ (s : Nat) (k : Int) (r : Rule), r ∈ (pr.dropUnused firsts).1.rules s k → r.token = k := by
    intro s k r hr
    rcases hrules s k with he | ⟨i, n, hi, _, _, he⟩
    · rw [he] at hr; simp at hr
    · rw [he] at hr
      obtain ⟨x, hx, rfl⟩ := List.mem_map.mp hr
      rw [remapRule_iter_token]; exact hok.tok i k x hx
  -- entries
  have hent : ∀ (s : Nat) (e : Entry), (pr.dropUnused firsts).1.states[s]? = some e →
      ∃ i f, pr.states[i]? = some f ∧ e = remapEntry (newNumber pr firsts) f ∧ i ∈ pr.usedStates firsts ∧
        newNumber pr firsts i = s := by
    intro s e he
    have hslt : s < (pr.usedStates firsts).card := by
      rw [← hlen]; exact (List.getElem?_eq_some_iff.mp he).1
    obtain ⟨i, hi, rfl⟩ := newNumber_surj hslt
    refine ⟨i, pr.states[i]'(mem_used_lt hi), List.getElem?_eq_getElem _, ?_, hi, rfl⟩
    have hnn : newNumber pr firsts = newIndexes (sorted (pr.usedStates firsts)) := by
      funext j; rw [newNumber, if_neg h]
    unfold PR.dropUnused at he
    simp only [length_sorted] at he
    rw [if_neg h] at he
    simp only [] at he
    have hl : ∀ i ∈ sorted (pr.usedStates firsts), i < pr.states.length := fun i hi => mem_used_lt (mem_sorted.mp hi)
    rw [fold_states _ _ List.nodup_range, kept_get _ hl, newNumber_get hi, Option.bind_some,
      List.getElem?_eq_getElem (mem_used_lt hi), Option.map_some, kept_length _ hl, length_sorted, if_pos, ← hnn] at he
    · exact (Option.some.inj he).symm
    · exact List.mem_range.mpr (newNumber_lt hi)
  have hclen : (pr.dropUnused firsts).1.cells.length = pr.cells.length := by
    unfold PR.dropUnused
    simp only [length_sorted]
    rw [if_neg h]
    simp only []
    generalize List.range _ = l
    generalize hp : ({ states := _, cells := pr.cells } : PR) = p
    have hpc : p.cells.length = pr.cells.length := by rw [← hp]
    rw [← hpc]
    clear hp hpc
    induction l generalizing p with
    | nil => rfl
    | cons a l ih =>
      rw [List.foldl_cons, ih]
      unfold PR.remapState
      cases p.states[a]? with
      | none => rfl
      | some e => simp
  refine ⟨?_, ?_, htok, ?_, ?_⟩
  · intro s e k c he hc
    obtain ⟨i, f, hf, rfl, _⟩ := hent s e he
    rw [hclen]
    exact hok.ref i f k c hf hc
  · intro s e k he
    obtain ⟨i, f, hf, rfl, hi, hs⟩ := hent s e he
    have h1 := hok.keys i f k hf
    have h2 : (pr.dropUnused firsts).1.slot (remapEntry (newNumber pr firsts) f) k = (pr.dropUnused firsts).1.rules s k := by
      rw [PR.rules, he]
    have h3 : pr.slot f k = pr.rules i k := by rw [PR.rules, hf]
    rw [h2, show (remapEntry (newNumber pr firsts) f).keys = f.keys from rfl, h1, h3, ← hs, dropUnused_rules h hok hi, hf]
    by_cases hk : 0 ≤ k
    · rw [if_pos hk]; simp
    · rw [if_neg hk]
      simp only []
      cases hc : f.neg k with
      | none => simp [← h3, PR.slot, hk, hc]
      | some c => simp
  · intro s k hk
    rcases hrules s k with he | ⟨i, n, hi, _, _, he⟩
    · rw [he]; simp
    · rw [he, List.length_map]; exact hok.one i k hk
  · intro s k r hr
    rcases hrules s k with he | ⟨i, n, hi, _, hn, he⟩
    · rw [he] at hr; simp at hr
    · rw [he] at hr
      obtain ⟨x, hx, rfl⟩ := List.mem_map.mp hr
      have := hok.tgt i k x hx
      have h5 := hiter n x this.1 this.2 hn (fun h0 =>
        ⟨x.state.toNat, target_used hok hx (Int.toNat_of_nonneg h0).symm, (Int.toNat_of_nonneg h0).symm⟩)
      rw [hlen]
      exact h5

end Verif.Proof
