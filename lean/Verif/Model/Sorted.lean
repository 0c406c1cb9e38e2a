/-
Elements of a finite set in ascending order, in a form that can be evaluated (`sort.Ints` on the elements of a set).
-/
import Mathlib.Data.Finset.Sort
import Mathlib.Data.List.Sort

namespace Verif.Model

/-- `/repo/internal/ints/set.go`, `ToSlice`; `/repo/langdef/result.go` lines 158-159: ascending order. -/
def sorted {α : Type} [LinearOrder α] (s : Finset α) : List α :=
  Quot.liftOn s.1 (List.insertionSort (· ≤ ·)) fun _ _ h =>
    ((List.perm_insertionSort _ _).trans (h.trans (List.perm_insertionSort _ _).symm)).eq_of_pairwise' (r := (· ≤ ·))
      (List.pairwise_insertionSort _ _) (List.pairwise_insertionSort _ _)

theorem sorted_eq {α : Type} [LinearOrder α] (s : Finset α) : sorted s = s.sort (· ≤ ·) := by
  obtain ⟨⟨l⟩, h⟩ := s
  exact (List.mergeSort_eq_insertionSort (· ≤ ·) l).symm

@[simp] theorem mem_sorted {α : Type} [LinearOrder α] {s : Finset α} {a : α} : a ∈ sorted s ↔ a ∈ s := by
  rw [sorted_eq, Finset.mem_sort]

@[simp] theorem length_sorted {α : Type} [LinearOrder α] (s : Finset α) : (sorted s).length = s.card := by
  rw [sorted_eq, Finset.length_sort]

theorem sorted_sortedLT {α : Type} [LinearOrder α] (s : Finset α) : (sorted s).SortedLT := by
  rw [sorted_eq]; exact Finset.sortedLT_sort s

end Verif.Model
