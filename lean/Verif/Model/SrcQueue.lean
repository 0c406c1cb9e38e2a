/-
Model of `source/source.go`, part 2: `Pos` and `Queue`.
-/
import Verif.Model.Queue

namespace Verif.Model

/-- A source as seen through a pointer `*Source`: identity, name and content. The mutable line cache is left out
(answers of `LineCol` do not depend on it, see C05). -/
structure Src where
  id : Nat
  name : String
  content : List Nat
deriving Repr, DecidableEq, Inhabited

/-- `/repo/source/source.go` lines 50-52, `Len`. -/
def Src.len (s : Src) : Nat := s.content.length

/-- `/repo/source/source.go` lines 144-147, type `Pos`: captured source and position. -/
structure SrcPos where
  src : Option Src
  pos : Int
deriving Repr, DecidableEq, Inhabited

/-- `/repo/source/source.go` lines 150-156, `NewPos`. -/
def SrcPos.new (s : Option Src) (pos : Int) : SrcPos :=
  match s with
  | none => ⟨none, 0⟩
  | some s => ⟨some s, pos⟩

/-- `/repo/source/source.go` lines 164-170, `SourceName`. -/
def SrcPos.sourceName (p : SrcPos) : String :=
  match p.src with
  | none => ""
  | some s => s.name

/-- `/repo/source/source.go` lines 186-189, type `queueItem`. -/
structure QItem where
  source : Option Src
  pos : Int
deriving Repr, DecidableEq, Inhabited

/-- `/repo/source/source.go` lines 192-196, type `QueueSnapshot`. -/
structure QSnapshot where
  items : List QItem
  source : Option Src
  pos : Int
deriving Repr, DecidableEq

/-- `/repo/source/source.go` lines 199-203, type `Queue`. -/
structure SrcQueue where
  q : Queue QItem
  source : Option Src
  pos : Int
deriving Repr, DecidableEq

namespace SrcQueue

/-- `/repo/source/source.go` lines 206-208, `NewQueue`. -/
def new : Option SrcQueue := do
  return { q := ← Queue.new [], source := none, pos := 0 }

/-- `/repo/source/source.go` lines 216-222, `SourceName`. -/
def sourceName (q : SrcQueue) : String :=
  match q.source with
  | none => ""
  | some s => s.name

/-- `/repo/source/source.go` lines 231-233, `SourcePos`. -/
def sourcePos (q : SrcQueue) : SrcPos := SrcPos.new q.source q.pos

/-- `/repo/source/source.go` lines 238-248, `NextSource`. -/
def nextSource (q : SrcQueue) : Option (SrcQueue × Bool) := do
  let (q', qi, fetched) ← q.q.first
  if fetched then return ({ q := q', source := qi.source, pos := qi.pos }, true)
  else return ({ q := q', source := none, pos := 0 }, false)

/-- Condition `q.source != nil && q.source.Len() != 0`. -/
def hasContent (q : SrcQueue) : Bool :=
  match q.source with
  | none => false
  | some s => s.len != 0

/-- `/repo/source/source.go` lines 252-264, `Append`. -/
def append (q : SrcQueue) (s : Option Src) : Option SrcQueue :=
  match s with
  | none => some q
  | some s =>
    if s.len = 0 ∧ q.hasContent then some q
    else if ¬ q.hasContent then some { q with source := some s, pos := 0 }
    else (q.q.append { source := some s, pos := 0 }).map fun q' => { q with q := q' }

/-- `/repo/source/source.go` lines 269-282, `Prepend`. -/
def prepend (q : SrcQueue) (s : Option Src) : Option SrcQueue :=
  match s with
  | none => some q
  | some s =>
    if s.len = 0 ∧ q.hasContent then some q
    else do
      let q' ← if q.hasContent then q.q.prepend { source := q.source, pos := q.pos } else some q.q
      return { q := q', source := some s, pos := 0 }

/-- `/repo/source/source.go` lines 285-287, `IsEmpty`. -/
def isEmpty (q : SrcQueue) : Bool := q.source.isNone

/-- `/repo/source/source.go` lines 290-292, `Eof`. -/
def eof (q : SrcQueue) : Bool :=
  match q.source with
  | none => true
  | some s => q.pos ≥ s.len

/-- `/repo/source/source.go` lines 295-301, `ContentPos`. -/
def contentPos (q : SrcQueue) : List Nat × Int :=
  match q.source with
  | none => ([], 0)
  | some s => (s.content, q.pos)

/-- `/repo/source/source.go` lines 306-315, `Skip`. -/
def skip (q : SrcQueue) (size : Int) : SrcQueue :=
  match q.source with
  | none => q
  | some s =>
    if size ≤ 0 then q
    else
      let pos := q.pos + size
      { q with pos := if pos ≥ s.len then s.len else pos }

/-- `/repo/source/source.go` lines 320-330, `Rewind`. -/
def rewind (q : SrcQueue) (size : Int) : SrcQueue :=
  match q.source with
  | none => q
  | some _ =>
    if size ≤ 0 then q
    else { q with pos := if q.pos ≤ size then 0 else q.pos - size }

/-- `/repo/source/source.go` lines 335-350, `Seek`. -/
def seek (q : SrcQueue) (pos : Int) : SrcQueue :=
  match q.source with
  | none => q
  | some s =>
    { q with pos := if pos ≤ 0 then 0 else if pos > s.len then s.len else pos }

/-- `/repo/source/source.go` lines 363-365, `Snapshot`. -/
def snapshot (q : SrcQueue) : Option QSnapshot := do
  return { items := ← q.q.getItems, source := q.source, pos := q.pos }

/-- `/repo/source/source.go` lines 368-372, `Restore`. -/
def restore (_q : SrcQueue) (s : QSnapshot) : Option SrcQueue := do
  return { q := ← Queue.fill s.items, source := s.source, pos := s.pos }

end SrcQueue

end Verif.Model
