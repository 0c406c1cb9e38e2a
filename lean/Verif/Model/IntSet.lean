/-
Model of `internal/ints/intset.go`: set of integers as a window of 64-bit chunks.

Simplifications: 64-bit platform (`IntSizeShift = 6`, `IntSize = 64`), unbounded `int`.
Methods that return the receiver are modelled by their new state; all slices stored in a set are freshly
allocated by the Go code (`Copy`, `allocate`, `Union`, `Intersect`, `Subtract`), so there is no sharing.
-/
import Verif.Model.Go

namespace Verif.Model

/-- `/repo/internal/ints/intset.go` lines 6-9, type `Set`. -/
structure IntSet where
  lowItem : Int
  highItem : Int
  chunks : List (BitVec 64)
deriving Repr, DecidableEq

namespace IntSet

/-- `/repo/internal/ints/intset.go` line 3. -/
def shift : Nat := 6

/-- `/repo/internal/ints/intset.go` line 4. -/
def intSize : Nat := 64

theorem and_sub_one_lt {c : BitVec 64} (h : c ≠ 0) : (c &&& (c - 1)).toNat < c.toNat := by
  have h0 : 0 < c.toNat := by
    rcases Nat.eq_zero_or_pos c.toNat with h' | h'
    · exact absurd (BitVec.eq_of_toNat_eq h') h
    · exact h'
  have h1 : (c - 1).toNat = c.toNat - 1 := by
    rw [BitVec.toNat_sub]
    have := c.isLt
    have h2 : (1 : BitVec 64).toNat = 1 := rfl
    rw [h2]
    omega
  rw [BitVec.toNat_and, h1]
  exact Nat.lt_of_le_of_lt Nat.and_le_right (by omega)

/-- `/repo/internal/ints/intset.go` lines 11-18, `countBits`. -/
def countBits (chunk : BitVec 64) : Nat :=
  if h : chunk = 0 then 0
  else countBits (chunk &&& (chunk - 1)) + 1
termination_by chunk.toNat
decreasing_by exact and_sub_one_lt h

/-- `/repo/internal/ints/intset.go` lines 20-26, `NewSet` without items. -/
def empty : IntSet := ⟨0, 0, []⟩

/-- `/repo/internal/ints/intset.go` lines 41-48, inner loop of `ToSlice`; `n` counts down from `IntSize`.
State: `result`, `index`, `item`. -/
def toSliceInner : Nat → BitVec 64 → List Int × Int × Int → Option (List Int × Int × Int)
  | 0, _, st => some st
  | n + 1, chunk, (result, index, item) => do
    let (result, index) ← if chunk &&& 1 ≠ 0 then
        (Go.setIndex result index item).map fun r => (r, index + 1)
      else some (result, index)
    toSliceInner n (chunk >>> 1) (result, index, item + 1)

/-- `/repo/internal/ints/intset.go` lines 32-51, `ToSlice`. -/
def toSlice (s : IntSet) : Option (List Int) := do
  let bitCnt := s.chunks.foldl (fun n chunk => n + countBits chunk) 0
  let result ← Go.make (α := Int) bitCnt
  let (result, _, _) ← s.chunks.foldlM (fun st chunk => toSliceInner intSize chunk st) (result, 0, s.lowItem)
  return result

/-- `/repo/internal/ints/intset.go` lines 53-55, `baseItem`. -/
def baseItem (item : Int) : Int := Go.and item (-(intSize : Int))

/-- `/repo/internal/ints/intset.go` lines 57-80, `allocate`. -/
def allocate (s : IntSet) (low high : Int) : Option IntSet := do
  let lowItem := baseItem low
  let highItem := baseItem high + intSize
  if lowItem ≥ s.lowItem ∧ highItem ≤ s.highItem then
    return s
  else
    let lowItem := if lowItem > s.lowItem then s.lowItem else lowItem
    let highItem := if highItem < s.highItem then s.highItem else highItem
    let chunkCnt := Go.shr (highItem - lowItem) shift
    let chunks ← Go.make (α := BitVec 64) chunkCnt
    let chunks ← if s.lowItem ≠ 0 ∨ s.highItem ≠ 0 then
        Go.copyAt chunks (Go.shr (s.lowItem - lowItem) shift) s.chunks
      else some chunks
    return ⟨lowItem, highItem, chunks⟩

/-- `/repo/internal/ints/intset.go` lines 82-84, `chunkIndex`. -/
def chunkIndex (s : IntSet) (item : Int) : Int := Go.shr (item - s.lowItem) shift

/-- `/repo/internal/ints/intset.go` lines 86-88, `bitMask`; `uint(item) & 63` equals `item & 63`. -/
def bitMask (item : Int) : BitVec 64 := (1#64) <<< (Go.and item ((intSize : Int) - 1)).toNat

/-- `/repo/internal/ints/intset.go` lines 90-96, `doSet`. -/
def doSet (s : IntSet) (item : Int) (invert : Bool) : Option IntSet := do
  let i := s.chunkIndex item
  let c ← Go.index s.chunks i
  let chunks ← Go.setIndex s.chunks i
    (if invert then c &&& ~~~ (bitMask item) else c ||| bitMask item)
  return { s with chunks := chunks }

/-- `/repo/internal/ints/intset.go` lines 98-111, `minMax` of `x :: items`. -/
def minMax (x : Int) (items : List Int) : Int × Int :=
  items.foldl (fun (mn, mx) item => (if item < mn then item else mn, if item > mx then item else mx)) (x, x)

/-- Common part of `Add` and `Remove`, lines 113-124 and 126-137. -/
def change (s : IntSet) (items : List Int) (invert : Bool) : Option IntSet :=
  match items with
  | [] => some s
  | x :: rest => do
    let (mn, mx) := minMax x rest
    let s ← s.allocate mn mx
    items.foldlM (fun s item => s.doSet item invert) s

/-- `/repo/internal/ints/intset.go` lines 113-124, `Add`. -/
def add (s : IntSet) (items : List Int) : Option IntSet := s.change items false

/-- `/repo/internal/ints/intset.go` lines 126-137, `Remove`. -/
def remove (s : IntSet) (items : List Int) : Option IntSet := s.change items true

/-- `/repo/internal/ints/intset.go` lines 20-30, `NewSet`, `FromSlice`. -/
def new (items : List Int) : Option IntSet := if items.length > 0 then empty.add items else some empty

/-- `/repo/internal/ints/intset.go` lines 139-145, `Contains`. -/
def contains (s : IntSet) (item : Int) : Option Bool :=
  if item < s.lowItem ∨ item ≥ s.highItem then some false
  else do
    let c ← Go.index s.chunks (s.chunkIndex item)
    return c &&& bitMask item ≠ 0

/-- `/repo/internal/ints/intset.go` lines 147-151, `Copy`. -/
def clone (s : IntSet) : IntSet :=
  ⟨s.lowItem, s.highItem, Go.copy (List.replicate s.chunks.length 0) s.chunks⟩

/-- `/repo/internal/ints/intset.go` lines 153-161, `isEmpty`. -/
def chunksEmpty (chunks : List (BitVec 64)) : Bool := chunks.all (· == 0)

/-- `/repo/internal/ints/intset.go` lines 163-165, `IsEmpty`. -/
def isEmpty (s : IntSet) : Bool := chunksEmpty s.chunks

/-- `/repo/internal/ints/intset.go` lines 197-206, the comparison loop of `IsEqual`; `n` iterations left. -/
def eqLoop (s t : IntSet) : Nat → Int → Int → Option Bool
  | 0, _, _ => some true
  | n + 1, i, offset => do
    let a ← Go.index s.chunks i
    let b ← Go.index t.chunks offset
    if a ≠ b then return false else eqLoop s t n (i + 1) (offset + 1)

/-- `/repo/internal/ints/intset.go` lines 170-180, first part of `IsEqual`: common low bound and whether the
chunks below it are all empty. -/
def eqHead (s t : IntSet) : Option (Int × Bool) :=
  if s.lowItem < t.lowItem then
    (Go.slice s.chunks 0 (Go.shr (t.lowItem - s.lowItem) shift)).map fun part => (t.lowItem, chunksEmpty part)
  else
    (Go.slice t.chunks 0 (Go.shr (s.lowItem - t.lowItem) shift)).map fun part => (s.lowItem, chunksEmpty part)

/-- `/repo/internal/ints/intset.go` lines 182-194, second part of `IsEqual`: common high bound and whether the
chunks above it are all empty. -/
def eqTail (s t : IntSet) : Option (Int × Bool) :=
  if s.highItem > t.highItem then
    let i := s.chunks.length - Go.shr (s.highItem - t.highItem) shift
    (Go.slice s.chunks i s.chunks.length).map fun part => (t.highItem, chunksEmpty part)
  else
    let i := t.chunks.length - Go.shr (t.highItem - s.highItem) shift
    (Go.slice t.chunks i t.chunks.length).map fun part => (s.highItem, chunksEmpty part)

/-- `/repo/internal/ints/intset.go` lines 167-207, `IsEqual`. -/
def isEqual (s t : IntSet) : Option Bool := do
  let (low, headEmpty) ← eqHead s t
  if !headEmpty then some false
  else
    let (high, tailEmpty) ← eqTail s t
    if !tailEmpty then some false
    else
      let firstIndex := Go.shr (low - s.lowItem) shift
      let lastIndex := firstIndex + Go.shr (high - low) shift
      let offset := Go.shr (low - t.lowItem) shift
      eqLoop s t (lastIndex - firstIndex).toNat firstIndex offset

/-- `/repo/internal/ints/intset.go` lines 243-246, `Union` merge loop. -/
def orLoop : List (BitVec 64) → Int → List (BitVec 64) → Option (List (BitVec 64))
  | chunks, _, [] => some chunks
  | chunks, offset, c :: cs => do
    let a ← Go.index chunks offset
    let chunks ← Go.setIndex chunks offset (a ||| c)
    orLoop chunks (offset + 1) cs

/-- `/repo/internal/ints/intset.go` lines 220-248, `Union`; the method of the same name (215-218) stores the
result in the receiver. -/
def union (s t : IntSet) : Option IntSet := do
  let low := if s.lowItem < t.lowItem then s.lowItem else t.lowItem
  let high := if s.highItem > t.highItem then s.highItem else t.highItem
  if low = high then
    return empty
  else
    let result ← empty.allocate low (high - 1)
    let chunks ← Go.copyAt result.chunks (Go.shr (s.lowItem - low) shift) s.chunks
    let chunks ← orLoop chunks (Go.shr (t.lowItem - low) shift) t.chunks
    return { result with chunks := chunks }

/-- `/repo/internal/ints/intset.go` lines 278-281, `Intersect` loop, from index `i`, `n` iterations left. -/
def andLoop (t : List (BitVec 64)) : Nat → List (BitVec 64) → Int → Int → Option (List (BitVec 64))
  | 0, chunks, _, _ => some chunks
  | n + 1, chunks, i, offset => do
    let a ← Go.index chunks i
    let b ← Go.index t offset
    let chunks ← Go.setIndex chunks i (a &&& b)
    andLoop t n chunks (i + 1) (offset + 1)

/-- `/repo/internal/ints/intset.go` lines 255-283, `Intersect`; the method (250-253) stores the result. -/
def intersect (s t : IntSet) : Option IntSet := do
  let low := if s.lowItem > t.lowItem then s.lowItem else t.lowItem
  let high := if s.highItem < t.highItem then s.highItem else t.highItem
  if low = high then
    return empty
  else
    let result ← empty.allocate low (high - 1)
    let part ← Go.slice s.chunks (Go.shr (low - s.lowItem) shift) s.chunks.length
    let chunks := Go.copy result.chunks part
    let chunks ← andLoop t.chunks chunks.length chunks 0 (Go.shr (low - t.lowItem) shift)
    return { result with chunks := chunks }

/-- `/repo/internal/ints/intset.go` lines 311-314, `Subtract` loop, from index `i`, `n` iterations left. -/
def subLoop (t : List (BitVec 64)) : Nat → List (BitVec 64) → Int → Int → Option (List (BitVec 64))
  | 0, chunks, _, _ => some chunks
  | n + 1, chunks, i, offset => do
    let a ← Go.index chunks i
    let b ← Go.index t offset
    let chunks ← Go.setIndex chunks i (a &&& ~~~ b)
    subLoop t n chunks (i + 1) (offset + 1)

/-- `/repo/internal/ints/intset.go` lines 290-316, `Subtract`; the method (285-288) stores the result. -/
def subtract (s t : IntSet) : Option IntSet := do
  let result := s.clone
  let low := if s.lowItem > t.lowItem then s.lowItem else t.lowItem
  let high := if s.highItem < t.highItem then s.highItem else t.highItem
  if low = high then
    return result
  else
    let offset := Go.shr (low - t.lowItem) shift
    let firstIndex := Go.shr (low - s.lowItem) shift
    let lastIndex := firstIndex + Go.shr (high - low) shift
    let chunks ← subLoop t.chunks (lastIndex - firstIndex).toNat result.chunks firstIndex offset
    return { result with chunks := chunks }

end IntSet

end Verif.Model
