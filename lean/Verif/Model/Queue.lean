/-
Model of `internal/queue/queue.go`: growing ring buffer used as a double-ended queue.
-/
import Verif.Model.Go

namespace Verif.Model

/-- `/repo/internal/queue/queue.go` lines 5-10, type `Queue`.
`size` is the index mask (capacity minus one), the `zero` field is `default`. -/
structure Queue (α : Type) where
  items : List α
  size : Int
  head : Int
  tail : Int
deriving Repr, DecidableEq

namespace Queue

variable {α : Type} [Inhabited α]

/-- `/repo/internal/queue/queue.go` line 3. -/
def minSize : Nat := 3

/-- `/repo/internal/queue/queue.go` lines 111-122, `computeSize`.
The argument is a length, i.e. never negative. -/
def computeSize (length : Nat) : Nat :=
  if length ≤ minSize then minSize
  else
    let length := length ||| length >>> 1
    let length := length ||| length >>> 2
    let length := length ||| length >>> 4
    let length := length ||| length >>> 8
    length ||| length >>> 16

/-- `/repo/internal/queue/queue.go` lines 98-105, `Fill` (previous state is irrelevant). -/
def fill (items : List α) : Option (Queue α) := do
  let l := items.length
  let size := computeSize l
  let arr ← Go.make (α := α) ((size : Int) + 1)
  return { items := Go.copy arr items, size := size, head := 0, tail := l }

/-- `/repo/internal/queue/queue.go` lines 12-16, `New`. -/
def new (items : List α) : Option (Queue α) := fill items

/-- `/repo/internal/queue/queue.go` lines 107-109, `Clear`. -/
def clear : Option (Queue α) := fill []

/-- `/repo/internal/queue/queue.go` lines 18-20, `IsEmpty`. -/
def isEmpty (q : Queue α) : Bool := q.head == q.tail

/-- `/repo/internal/queue/queue.go` lines 22-24, `Len`. -/
def len (q : Queue α) : Int := Go.and (q.tail + q.size + 1 - q.head) q.size

/-- `/repo/internal/queue/queue.go` lines 26-36, `Items`. -/
def getItems (q : Queue α) : Option (List α) := do
  let result ← Go.make (α := α) q.len
  if q.tail ≥ q.head then
    return Go.copy result (← Go.slice q.items q.head q.tail)
  else
    let result := Go.copy result (← Go.slice q.items q.head (q.size + 1))
    Go.copyAt result (q.size - q.head + 1) (← Go.slice q.items 0 q.tail)

/-- `/repo/internal/queue/queue.go` lines 124-134, `grow`. -/
def grow (q : Queue α) : Option (Queue α) := do
  let items ← Go.make (α := α) (Go.shl (q.size + 1) 1)
  let items := Go.copy items (← Go.slice q.items q.head q.items.length)
  let items ← if q.head > 0 then
      Go.copyAt items (q.size + 1 - q.head) (← Go.slice q.items 0 q.head)
    else some items
  return { items := items, head := 0, tail := q.size + 1, size := q.size + (q.size + 1) }

/-- `/repo/internal/queue/queue.go` lines 38-45, `Append`. -/
def append (q : Queue α) (item : α) : Option (Queue α) := do
  let items ← Go.setIndex q.items q.tail item
  let q := { q with items := items, tail := Go.and (q.tail + 1) q.size }
  if q.tail = q.head then q.grow else some q

/-- `/repo/internal/queue/queue.go` lines 47-54, `Prepend`. -/
def prepend (q : Queue α) (item : α) : Option (Queue α) := do
  let head := Go.and (q.head - 1) q.size
  let items ← Go.setIndex q.items head item
  let q := { q with items := items, head := head }
  if q.head = q.tail then q.grow else some q

/-- `/repo/internal/queue/queue.go` lines 56-73, `First`. -/
def first (q : Queue α) : Option (Queue α × α × Bool) := do
  if q.head = q.tail then
    return (q, default, false)
  else
    let result ← Go.index q.items q.head
    let items ← Go.setIndex q.items q.head default
    let q := { q with items := items, head := Go.and (q.head + 1) q.size }
    if q.head = 0 ∧ q.size > (minSize : Int) ∧ Go.shl q.tail 2 ≤ q.size then
      let size := computeSize (Go.shl q.tail 1).toNat
      let items ← Go.make (α := α) ((size : Int) + 1)
      let items := Go.copy items (← Go.slice q.items 0 q.tail)
      return ({ q with items := items, size := size }, result, true)
    else
      return (q, result, true)

/-- `/repo/internal/queue/queue.go` lines 75-84, `Last`. -/
def last (q : Queue α) : Option (Queue α × α × Bool) := do
  if q.head = q.tail then
    return (q, default, false)
  else
    let tail := Go.and (q.tail - 1) q.size
    let result ← Go.index q.items tail
    let items ← Go.setIndex q.items tail default
    return ({ q with items := items, tail := tail }, result, true)

/-- `/repo/internal/queue/queue.go` lines 86-96, `Peek`. -/
def peek (q : Queue α) (index : Int) : Option (α × Bool) := do
  let l := q.len
  let index := if index < 0 then index + l else index
  if index < 0 ∨ index ≥ l then
    return (default, false)
  else
    return (← Go.index q.items (Go.and (q.head + index) q.size), true)

end Queue

end Verif.Model
