/-
The style checker: evaluation of the checks on well-formed trees.
-/
import Verif.Proof.TreeSelect
import Verif.Model.StyleCheck
import Verif.Spec.Style

namespace Verif.Proof.Style

open Verif.Model Verif.Model.Tree Verif.Model.Style Verif.Spec Verif.Spec.Trees Verif.Spec.Select Verif.Spec.Style

/-! Parts of a tree -/

/-- `tx` is a part of `ts`: what goes before and after in both orders. -/
def Splits (k : Nat → Bool) (els mir : List Nat) (tx : Trees.Tree) : Prop :=
  ∃ pre post pre' post', els = pre ++ tx.elements ++ post ∧ mir = pre' ++ tx.mirror.elements ++ post' ∧
    post'.filter (fun y => !k y) = (pre.filter fun y => !k y).reverse

theorem elementsOf_append (a b : List Trees.Tree) : elementsOf (a ++ b) = elementsOf a ++ elementsOf b := by
  induction a with
  | nil => rfl
  | cons t a ih => simp [elementsOf, ih]

theorem tokensOf_eq {h : Heap} {F : Forest} (r : Rep h F) (ts : List Trees.Tree) (hts : Trees.allOf F ts) :
    tokensOf (kinds h) ts = (elementsOf ts).filter fun x => !kinds h x := by
  induction ts with
  | nil => rfl
  | cons t ts ih =>
    simp only [Trees.allOf] at hts
    simp only [tokensOf, elementsOf, List.filter_append, tokens_eq_filter r t hts.1, ih hts.2]

mutual
theorem split_tree {h : Heap} {F : Forest} (r : Rep h F) : ∀ (T : Trees.Tree), T.Of F → ∀ y ∈ T.elements,
    ∃ tx ∈ parts T, tx.Of F ∧ tx.id = y ∧ Splits (kinds h) T.elements T.mirror.elements tx
  | .node id kids, hT, y, hy => by
    simp only [Trees.Tree.elements, List.mem_cons] at hy
    rcases hy with rfl | hy
    · exact ⟨.node y kids, by simp [parts], hT, rfl, [], [], [], [], by simp, by simp, by simp⟩
    · have hT' := hT
      simp only [Trees.Tree.Of] at hT'
      obtain ⟨tx, h1, h2, h3, pre, post, pre', post', h4, h5, h6⟩ := split_trees r kids hT'.2 y hy
      have hn : kinds h id = true := by
        by_contra hc
        have := r.token id (by simpa [kinds] using hc)
        rw [hT'.1] at this
        cases kids with
        | nil => simp [elementsOf] at hy
        | cons _ _ => simp at this
      refine ⟨tx, by simp [parts, h1], h2, h3, id :: pre, post, id :: pre', post', by simp [Trees.Tree.elements, h4], ?_, ?_⟩
      · simp [Trees.Tree.mirror, Trees.Tree.elements, h5]
      · rw [h6]; simp [hn]
theorem split_trees {h : Heap} {F : Forest} (r : Rep h F) : ∀ (ts : List Trees.Tree), Trees.allOf F ts → ∀ y ∈ elementsOf ts,
    ∃ tx ∈ partsOf ts, tx.Of F ∧ tx.id = y ∧ Splits (kinds h) (elementsOf ts) (elementsOf (mirrorAll ts)) tx
  | [], _, y, hy => by simp [elementsOf] at hy
  | t :: ts, hts, y, hy => by
    simp only [Trees.allOf] at hts
    simp only [elementsOf, List.mem_append] at hy
    by_cases hc : y ∈ t.elements
    · obtain ⟨tx, h1, h2, h3, pre, post, pre', post', h4, h5, h6⟩ := split_tree r t hts.1 y hc
      refine ⟨tx, by simp [partsOf, h1], h2, h3, pre, post ++ elementsOf ts, elementsOf (mirrorAll ts) ++ pre', post', ?_, ?_, h6⟩
      · simp [elementsOf, h4]
      · simp [mirrorAll, elementsOf_append, elementsOf, h5]
    · obtain ⟨tx, h1, h2, h3, pre, post, pre', post', h4, h5, h6⟩ := split_trees r ts hts.2 y (hy.resolve_left hc)
      refine ⟨tx, by simp [partsOf, h1], h2, h3, t.elements ++ pre, post, pre', post' ++ t.mirror.elements, ?_, ?_, ?_⟩
      · simp [elementsOf, h4]
      · simp [mirrorAll, elementsOf_append, elementsOf, h5]
      · have e1 : (t.mirror.elements).filter (fun y => !kinds h y) = ((t.elements).filter fun y => !kinds h y).reverse := by
          rw [← tokens_eq_filter r t hts.1, ← tokens_mirror]
          exact (tokens_eq_filter (rep_mirror r) t.mirror (mirror_of t hts.1)).symm
        rw [List.filter_append, h6, e1, List.filter_append, List.reverse_append]
end

mutual
theorem parts_elements : ∀ (T : Trees.Tree), (parts T).map Trees.Tree.id = T.elements
  | .node id kids => by simp [parts, Trees.Tree.elements, Trees.Tree.id, partsOf_elements kids]
theorem partsOf_elements : ∀ (ts : List Trees.Tree), (partsOf ts).map Trees.Tree.id = elementsOf ts
  | [] => rfl
  | t :: ts => by simp [partsOf, elementsOf, parts_elements t, partsOf_elements ts]
end

mutual
theorem parts_of {F : Forest} : ∀ (T : Trees.Tree), T.Of F → ∀ t ∈ parts T, t.Of F
  | .node id kids, hT, t, ht => by
    simp only [parts, List.mem_cons] at ht
    rcases ht with rfl | ht
    · exact hT
    · simp only [Trees.Tree.Of] at hT
      exact partsOf_of kids hT.2 t ht
theorem partsOf_of {F : Forest} : ∀ (ts : List Trees.Tree), Trees.allOf F ts → ∀ t ∈ partsOf ts, t.Of F
  | [], _, t, ht => by simp [partsOf] at ht
  | s :: ts, hts, t, ht => by
    simp only [Trees.allOf] at hts
    simp only [partsOf, List.mem_append] at ht
    rcases ht with ht | ht
    · exact parts_of s hts.1 t ht
    · exact partsOf_of ts hts.2 t ht
end

mutual
theorem topParts_ids (fit : Nat → Bool) : ∀ (T : Trees.Tree), (topParts fit T).map Trees.Tree.id = topmost fit T
  | .node id kids => by
    simp only [topParts, topmost]
    split
    · rfl
    · exact topPartsOf_ids fit kids
theorem topPartsOf_ids (fit : Nat → Bool) : ∀ (ts : List Trees.Tree), (topPartsOf fit ts).map Trees.Tree.id = topmostOf fit ts
  | [] => rfl
  | t :: ts => by simp [topPartsOf, topmostOf, topParts_ids fit t, topPartsOf_ids fit ts]
end

mutual
theorem topParts_sub (fit : Nat → Bool) : ∀ (T : Trees.Tree), ∀ t ∈ topParts fit T, t ∈ parts T ∧ fit t.id = true
  | .node id kids, t, ht => by
    simp only [topParts] at ht
    split at ht
    · rename_i hf
      simp only [List.mem_singleton] at ht
      subst ht
      exact ⟨by simp [parts], hf⟩
    · obtain ⟨h1, h2⟩ := topPartsOf_sub fit kids t ht
      exact ⟨by simp [parts, h1], h2⟩
theorem topPartsOf_sub (fit : Nat → Bool) : ∀ (ts : List Trees.Tree), ∀ t ∈ topPartsOf fit ts, t ∈ partsOf ts ∧ fit t.id = true
  | [], t, ht => by simp [topPartsOf] at ht
  | s :: ts, t, ht => by
    simp only [topPartsOf, List.mem_append] at ht
    rcases ht with ht | ht
    · obtain ⟨h1, h2⟩ := topParts_sub fit s t ht
      exact ⟨by simp [partsOf, h1], h2⟩
    · obtain ⟨h1, h2⟩ := topPartsOf_sub fit ts t ht
      exact ⟨by simp [partsOf, h1], h2⟩
end

mutual
theorem parts_trans : ∀ (T : Trees.Tree), ∀ t ∈ parts T, ∀ s ∈ parts t, s ∈ parts T
  | .node id kids, t, ht, s, hs => by
    simp only [parts, List.mem_cons] at ht
    rcases ht with rfl | ht
    · exact hs
    · simp only [parts, List.mem_cons]
      exact .inr (partsOf_trans kids t ht s hs)
theorem partsOf_trans : ∀ (ts : List Trees.Tree), ∀ t ∈ partsOf ts, ∀ s ∈ parts t, s ∈ partsOf ts
  | [], t, ht, _, _ => by simp [partsOf] at ht
  | u :: ts, t, ht, s, hs => by
    simp only [partsOf, List.mem_append] at ht ⊢
    rcases ht with ht | ht
    · exact .inl (parts_trans u t ht s hs)
    · exact .inr (partsOf_trans ts t ht s hs)
end

theorem partsOf_mem {ts : List Trees.Tree} {t : Trees.Tree} (ht : t ∈ ts) : t ∈ partsOf ts := by
  induction ts with
  | nil => cases ht
  | cons s ts ih =>
    simp only [partsOf, List.mem_append]
    rcases List.mem_cons.mp ht with rfl | ht
    · left; cases t; simp [parts]
    · exact .inr (ih ht)

theorem kids_parts {t k : Trees.Tree} (hk : k ∈ t.kids) : k ∈ parts t := by
  cases t with
  | node id kids => simp only [parts, List.mem_cons]; exact .inr (partsOf_mem hk)

/-! Leaves -/

mutual
theorem topmost_leaves {fit : Nat → Bool} : ∀ (T : Trees.Tree), (∀ t ∈ parts T, fit t.id = true → t.kids = []) →
    topmost fit T = T.elements.filter fit
  | .node id kids, hT => by
    simp only [topmost, Trees.Tree.elements]
    split
    · rename_i hf
      have := hT (.node id kids) (by simp [parts]) hf
      simp only [Trees.Tree.kids] at this
      subst this
      simp [elementsOf, hf]
    · rename_i hf
      rw [topmostOf_leaves kids fun t ht => hT t (by simp [parts, ht])]
      simp [hf]
theorem topmostOf_leaves {fit : Nat → Bool} : ∀ (ts : List Trees.Tree), (∀ t ∈ partsOf ts, fit t.id = true → t.kids = []) →
    topmostOf fit ts = (elementsOf ts).filter fit
  | [], _ => rfl
  | t :: ts, hT => by
    simp only [topmostOf, elementsOf, List.filter_append]
    rw [topmost_leaves t fun s hs => hT s (by simp [partsOf, hs]), topmostOf_leaves ts fun s hs => hT s (by simp [partsOf, hs])]
end

/-! Reports -/

/-- Reports made one after another. -/
def addAll (rs : Reports) (l : List Line) : Reports := l.foldl (fun rs x => rs.report x.1 x.2.1 x.2.2) rs

theorem addAll_nil (rs : Reports) : addAll rs [] = rs := rfl

theorem addAll_append (rs : Reports) (a b : List Line) : addAll rs (a ++ b) = addAll (addAll rs a) b := by
  simp [addAll]

theorem addAll_about (rs : Reports) (t : Token) (m : String) (text : List Nat) :
    addAll rs [about t m text] = rs.reportToken t (m, text) := rfl

/-- The last message for the place. -/
def lastAt (l c : Int) (all : List Line) : Option Message :=
  all.foldl (fun m x => if x.1 = l ∧ x.2.1 = c then some x.2.2 else m) none

theorem report_at (rs : Reports) (line col : Int) (m : Message) (l c : Int) :
    ((rs.report line col m).rm l).bind (· c) = if line = l ∧ col = c then some m else (rs.rm l).bind (· c) := by
  unfold Reports.report
  cases hl : rs.rm line with
  | none =>
    by_cases h1 : l = line
    · subst h1
      by_cases h2 : c = col
      · simp [h2]
      · simp [h2, hl, Ne.symm h2]
    · simp [h1, Ne.symm h1]
  | some lm =>
    by_cases h1 : l = line
    · subst h1
      by_cases h2 : c = col
      · simp [h2]
      · simp [h2, hl, Ne.symm h2]
    · simp [h1, Ne.symm h1]

theorem addAll_at (all : List Line) (rs : Reports) (l c : Int) :
    ((addAll rs all).rm l).bind (· c) = all.foldl (fun m x => if x.1 = l ∧ x.2.1 = c then some x.2.2 else m) ((rs.rm l).bind (· c)) := by
  induction all generalizing rs with
  | nil => rfl
  | cons x all ih =>
    show ((addAll (rs.report x.1 x.2.1 x.2.2) all).rm l).bind (· c) = _
    rw [ih, report_at]
    rfl

theorem lastAt_iff (l c : Int) (m : Message) (all : List Line) :
    lastAt l c all = some m ↔ ∃ a b, all = a ++ (l, c, m) :: b ∧ ∀ x ∈ b, ¬ (x.1 = l ∧ x.2.1 = c) := by
  induction all using List.reverseRecOn with
  | nil => simp [lastAt]
  | append_singleton all x ih =>
    rw [lastAt, List.foldl_append]
    simp only [List.foldl_cons, List.foldl_nil]
    by_cases hx : x.1 = l ∧ x.2.1 = c
    · rw [if_pos hx]
      constructor
      · intro h
        refine ⟨all, [], ?_, by simp⟩
        obtain ⟨x1, x2, x3⟩ := x
        simp only [Option.some.injEq] at h hx
        obtain ⟨rfl, rfl⟩ := hx
        subst h
        rfl
      · rintro ⟨a, b, h1, h2⟩
        rcases List.eq_nil_or_concat b with rfl | ⟨b', y, rfl⟩
        · have := List.append_inj' h1 rfl
          simp only [List.cons.injEq, and_true] at this
          rw [this.2]
        · rw [List.concat_eq_append, ← List.cons_append, ← List.append_assoc] at h1
          have := List.append_inj' h1 rfl
          simp only [List.cons.injEq, and_true] at this
          exact absurd hx (by rw [this.2]; exact h2 y (by simp))
    · rw [if_neg hx]
      show lastAt l c all = some m ↔ _
      rw [ih]
      constructor
      · rintro ⟨a, b, rfl, h2⟩
        refine ⟨a, b ++ [x], by simp, ?_⟩
        intro y hy
        rcases List.mem_append.mp hy with hy | hy
        · exact h2 y hy
        · rw [List.mem_singleton.mp hy]; exact hx
      · rintro ⟨a, b, h1, h2⟩
        rcases List.eq_nil_or_concat b with rfl | ⟨b', y, rfl⟩
        · have := List.append_inj' h1 rfl
          simp only [List.cons.injEq, and_true] at this
          exact absurd (by rw [this.2]; simp) hx
        · rw [List.concat_eq_append, ← List.cons_append, ← List.append_assoc] at h1
          have := List.append_inj' h1 rfl
          simp only [List.cons.injEq, and_true] at this
          exact ⟨a, b', this.1, fun z hz => h2 z (by simp [hz])⟩

/-- Keys of the maps of reports, in any order. -/
structure KeysOf (rs : Reports) (lines : List Int) (cols : Int → List Int) : Prop where
  nodup : lines.Nodup
  lines : ∀ l, l ∈ lines ↔ rs.rm l ≠ none
  colsNodup : ∀ l, (cols l).Nodup
  cols : ∀ l c, c ∈ cols l ↔ (rs.rm l).bind (· c) ≠ none

theorem flatten_report {all : List Line} {lines : List Int} {cols : Int → List Int} (hk : KeysOf (addAll newReports all) lines cols) :
    Report all ((addAll newReports all).flatten lines cols) := by
  have hat : ∀ l c, ((addAll newReports all).rm l).bind (· c) = lastAt l c all := fun l c => addAll_at all newReports l c
  refine ⟨?_, ?_⟩
  · unfold Reports.flatten
    rw [List.pairwise_flatMap]
    constructor
    · intro l hl
      rw [List.pairwise_map]
      have h1 : ((cols l).insertionSort (· ≤ ·)).Pairwise (· ≤ ·) := List.pairwise_insertionSort _ _
      have h2 : ((cols l).insertionSort (· ≤ ·)).Pairwise (· ≠ ·) := ((List.perm_insertionSort (· ≤ ·) (cols l)).nodup_iff).mpr (hk.colsNodup l)
      exact (h1.and h2).imp fun ⟨a, b⟩ => .inr ⟨rfl, lt_of_le_of_ne a b⟩
    · have h1 : (lines.insertionSort (· ≤ ·)).Pairwise (· ≤ ·) := List.pairwise_insertionSort _ _
      have h2 : (lines.insertionSort (· ≤ ·)).Pairwise (· ≠ ·) := ((List.perm_insertionSort (· ≤ ·) lines).nodup_iff).mpr hk.nodup
      refine (h1.and h2).imp fun ⟨a, b⟩ x hx y hy => ?_
      obtain ⟨c, -, rfl⟩ := List.mem_map.mp hx
      obtain ⟨c', -, rfl⟩ := List.mem_map.mp hy
      exact .inl (lt_of_le_of_ne a b)
  · intro l c m
    rw [← lastAt_iff, ← hat]
    unfold Reports.flatten
    simp only [List.mem_flatMap, List.mem_map, List.mem_insertionSort, Prod.mk.injEq]
    constructor
    · rintro ⟨l', h1, c', h2, rfl, rfl, rfl⟩
      obtain ⟨m', hm⟩ := Option.ne_none_iff_exists'.mp ((hk.cols _ _).mp h2)
      simp only [hm, Option.getD_some]
    · intro h
      refine ⟨l, (hk.lines l).mpr ?_, c, (hk.cols l c).mpr (by rw [h]; simp), rfl, rfl, by rw [h]; rfl⟩
      intro h0
      rw [h0] at h
      cases h

end Verif.Proof.Style
