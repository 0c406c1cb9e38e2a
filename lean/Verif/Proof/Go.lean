import Verif.Model.Go
import Mathlib.Data.Nat.Bitwise
import Mathlib.Tactic.Ring

namespace Verif.Go

theorem and_mask (a : Int) (k : Nat) : and a ((2 ^ k : Nat) - 1 : Int) = a % (2 ^ k : Nat) := by
  have hpos : 0 < 2 ^ k := Nat.two_pow_pos k
  have h1 : ((2 ^ k : Nat) - 1 : Int) = Int.ofNat (2 ^ k - 1) := by
    simp [Int.ofNat_sub hpos]
  rw [h1]
  cases a with
  | ofNat n =>
    show Int.ofNat (n &&& (2 ^ k - 1)) = _
    rw [Nat.and_two_pow_sub_one_eq_mod]; rfl
  | negSucc n =>
    show Int.ofNat (Nat.ldiff (2 ^ k - 1) n) = _
    have h2 : Nat.ldiff (2 ^ k - 1) n = 2 ^ k - (n % 2 ^ k + 1) := by
      apply Nat.eq_of_testBit_eq
      intro i
      rw [Nat.testBit_two_pow_sub_succ (Nat.mod_lt _ hpos), Nat.testBit_ldiff,
        Nat.testBit_two_pow_sub_one, Nat.testBit_mod_two_pow]
      by_cases h : i < k <;> simp [h]
    rw [h2, Int.negSucc_emod _ (by exact_mod_cast hpos)]
    have := Nat.mod_lt n hpos
    show ((2 ^ k - (n % 2 ^ k + 1) : Nat) : Int) = _
    omega

theorem index_of_lt {α} {a : List α} {i : Int} {n : Nat} (h : i = n) (hn : n < a.length) :
    index a i = some a[n] := by
  subst h; simp [index, hn]

theorem index_nat {α} (a : List α) (n : Nat) : index a n = a[n]? := by
  simp [index]

theorem setIndex_nat {α} {a : List α} {n : Nat} (hn : n < a.length) (x : α) :
    setIndex a n x = some (a.set n x) := by
  simp [setIndex, hn]

theorem slice_nat {α} {a : List α} {lo hi : Nat} (h1 : lo ≤ hi) (h2 : hi ≤ a.length) :
    slice a lo hi = some ((a.drop lo).take (hi - lo)) := by
  simp [slice, h1, h2]

theorem copyAt_nat {α} {a b : List α} {n : Nat} (h1 : n ≤ a.length) :
    copyAt a n b = some (a.take n ++ copy (a.drop n) b) := by
  simp [copyAt, h1]

theorem make_nat {α} [Inhabited α] (n : Nat) : make (α := α) n = some (List.replicate n default) := by
  simp [make]

theorem copy_length {α} (a b : List α) : (copy a b).length = a.length := by
  simp [copy]; omega

end Verif.Go
