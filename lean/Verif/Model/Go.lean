/-
Go primitives used by the model of `github.com/ava12/llx`.

Slices are lists; indexing, slicing and `copy` are partial: `none` is a Go run-time panic.
Simplification: capacity of a slice is taken to be its length, so slicing between length and
capacity (legal in Go) counts as a panic here; the theorems show that this never happens.
-/
import Mathlib.Data.Int.Bitwise

namespace Verif.Go

/-- Go expression `a[i]`. -/
def index {α} (a : List α) (i : Int) : Option α :=
  if 0 ≤ i then a[i.toNat]? else none

/-- Go statement `a[i] = x`. -/
def setIndex {α} (a : List α) (i : Int) (x : α) : Option (List α) :=
  if 0 ≤ i ∧ i.toNat < a.length then some (a.set i.toNat x) else none

/-- Go expression `a[lo:hi]`. -/
def slice {α} (a : List α) (lo hi : Int) : Option (List α) :=
  if 0 ≤ lo ∧ lo ≤ hi ∧ hi ≤ a.length then
    some ((a.drop lo.toNat).take (hi.toNat - lo.toNat))
  else none

/-- Go statement `copy(dst, src)`: result is the new content of `dst`. -/
def copy {α} (dst src : List α) : List α :=
  src.take dst.length ++ dst.drop src.length

/-- Go statement `copy(dst[off:], src)`: result is the new content of `dst`. -/
def copyAt {α} (dst : List α) (off : Int) (src : List α) : Option (List α) :=
  if 0 ≤ off ∧ off ≤ dst.length then
    some (dst.take off.toNat ++ copy (dst.drop off.toNat) src)
  else none

/-- Go expression `make([]T, n)`. -/
def make {α} [Inhabited α] (n : Int) : Option (List α) :=
  if 0 ≤ n then some (List.replicate n.toNat default) else none

/-- Go expression `a & b` on (signed, two's complement) integers. -/
def and (a b : Int) : Int := Int.land a b

/-- Go expression `a << n`. -/
def shl (a : Int) (n : Nat) : Int := a * 2 ^ n

/-- Go expression `a >> n` (arithmetic shift: division rounding down). -/
def shr (a : Int) (n : Nat) : Int := a / 2 ^ n

end Verif.Go
