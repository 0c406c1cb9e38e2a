/-
Model of `source/source.go`, part 1: type `Source` and `NormalizeNls`.
-/
import Verif.Model.Go
import Verif.Model.Utf8

namespace Verif.Model

/-- Code of the newline byte. -/
abbrev LF : Nat := 10

/-- Code of the carriage return byte. -/
abbrev CR : Nat := 13

/-- `/repo/source/source.go` lines 12-17, type `Source`. The cache `prevLineIndex` is mutable: methods that change
it return the new source. -/
structure Source where
  name : String
  content : List Nat
  lineStarts : List Nat
  prevLineIndex : Int
deriving Repr, DecidableEq

namespace Source

/-- `/repo/source/source.go` lines 29-35, the loop of `New`: `i` is the index of the first byte of `rest`. -/
def newLoop (lineCnt : Nat) : List Nat → Nat → Nat → List Nat → Option (List Nat)
  | [], _, _, starts => some starts
  | b :: rest, i, j, starts =>
    if j < lineCnt then
      if b = LF then do
        let starts ← Go.setIndex starts j (i + 1)
        newLoop lineCnt rest (i + 1) (j + 1) starts
      else newLoop lineCnt rest (i + 1) j starts
    else some starts

/-- `/repo/source/source.go` lines 23-38, `New`. -/
def new (name : String) (content : List Nat) : Option Source := do
  let lineCnt := content.count LF + 1
  let starts ← Go.make (α := Nat) lineCnt
  let starts ← Go.setIndex starts 0 0
  let starts ← newLoop lineCnt content 0 1 starts
  return { name := name, content := content, lineStarts := starts, prevLineIndex := -1 }

/-- `/repo/source/source.go` lines 50-53, `Len`. -/
def len (s : Source) : Nat := s.content.length

/-- `/repo/source/source.go` lines 108-110, the scan in `findLineIndex`; `n` is `last + 1 - lineIndex`, so the
loop condition `lineIndex <= last` fails exactly when `n` is 0. -/
def scanUp (starts : List Nat) (pos : Nat) : Nat → Nat → Option Nat
  | 0, lineIndex => some lineIndex
  | n + 1, lineIndex => do
    let st ← starts[lineIndex]?
    if st ≤ pos then scanUp starts pos n (lineIndex + 1) else some lineIndex

/-- `/repo/source/source.go` lines 124-137, the binary search in `findLineIndex`. Result: found index and whether
the cache is to be updated (an exact hit returns early without updating it). -/
def bsearch (starts : List Nat) (pos : Nat) (left right index : Nat) : Option (Nat × Bool) :=
  if _h : left < right then do
    let index := (left + right + 1) / 2
    let lineStart ← starts[index]?
    if lineStart = pos then some (index, false)
    else if lineStart < pos then bsearch starts pos index right index
    else bsearch starts pos left (index - 1) (index - 1)
  else some (index, true)
termination_by right - left
decreasing_by all_goals omega

/-- `/repo/source/source.go` lines 104-140, `findLineIndex`; `pos` is a valid offset (not negative).
Result: changed source and the index. -/
def findLineIndex (s : Source) (pos : Nat) : Option (Source × Nat) := do
  let prevStart ← if s.prevLineIndex ≥ 0 then (Go.index s.lineStarts s.prevLineIndex).map some else some none
  match prevStart with
  | some st =>
    if st ≤ pos then
      let last := s.lineStarts.length - 1
      let lineIndex ← scanUp s.lineStarts pos (last + 1 - s.prevLineIndex.toNat) s.prevLineIndex.toNat
      let lineIndex := lineIndex - 1
      return ({ s with prevLineIndex := lineIndex }, lineIndex)
    else
      let (index, upd) ← bsearch s.lineStarts pos 0 s.prevLineIndex.toNat 0
      return (if upd then { s with prevLineIndex := index } else s, index)
  | none =>
    let (index, upd) ← bsearch s.lineStarts pos 0 (s.lineStarts.length - 1) 0
    return (if upd then { s with prevLineIndex := index } else s, index)

/-- `/repo/source/source.go` lines 59-73, `LineCol`. -/
def lineCol (s : Source) (pos : Int) : Option (Source × Int × Int) := do
  let (s, pos, lineIndex) ←
    if pos < 0 then some (s, 0, 0)
    else if pos ≥ s.content.length then some (s, s.content.length, s.lineStarts.length - 1)
    else (s.findLineIndex pos.toNat).map fun (s', i) => (s', pos.toNat, i)
  let lineStart ← s.lineStarts[lineIndex]?
  let part ← Go.slice s.content lineStart pos
  return (s, (lineIndex : Int) + 1, (Utf8.runeCount part : Int) + 1)

/-- `/repo/source/source.go` lines 89-97, the loop of `Pos`: `rest` is `s.content[res:]`, `col` counts down to 1
(`n` is `col - 1`). -/
def posLoop : Nat → List Nat → Nat → Nat
  | 0, _, res => res
  | _ + 1, [], res => res
  | n + 1, b :: t, res =>
    let (r, rl) := Utf8.decodeRune (b :: t)
    if r = LF then res else posLoop n ((b :: t).drop rl) (res + rl)

/-- `/repo/source/source.go` lines 78-102, `Pos`. -/
def pos (s : Source) (line col : Int) : Option Int :=
  if line ≤ 0 ∨ col ≤ 0 then some 0
  else
    let l := s.content.length
    if line > s.lineStarts.length then some l
    else do
      let start ← Go.index s.lineStarts (line - 1)
      let rest ← Go.slice s.content start l
      let res := posLoop (col - 1).toNat rest start
      return if res > l then l else res

end Source

/-- `/repo/source/source.go` lines 385-404, loop of `NormalizeNls`. `content` is the whole (mutable) array, `n`
the number of bytes left to visit, `i` the current index; state is `(content, wPos, rPos, crFound)`.
The byte is read from the current content of the array (as `range` over a slice does). -/
def normalizeLoop : Nat → Nat → List Nat × Nat × Nat × Bool → Option (List Nat × Nat × Nat × Bool)
  | 0, _, st => some st
  | n + 1, i, (content, wPos, rPos, crFound) => do
    let b ← content[i]?
    if b = LF then
      if crFound then
        let content ← if rPos ≠ 0 then do
            Go.copyAt content wPos (← Go.slice content rPos i)
          else some content
        normalizeLoop n (i + 1) (content, wPos + (i - rPos), i + 1, false)
      else normalizeLoop n (i + 1) (content, wPos, rPos, crFound)
    else if b = CR then do
      let content ← Go.setIndex content i LF
      normalizeLoop n (i + 1) (content, wPos, rPos, true)
    else normalizeLoop n (i + 1) (content, wPos, rPos, false)

/-- `/repo/source/source.go` lines 375-411, `NormalizeNls`: new value of `*content`. -/
def normalizeNls (content : List Nat) : Option (List Nat) := do
  let l := content.length
  let (content, wPos, rPos, _) ← normalizeLoop l 0 (content, 0, 0, false)
  let content ← if rPos ≠ 0 ∧ rPos < l then do
      Go.copyAt content wPos (← Go.slice content rPos l)
    else some content
  Go.slice content 0 ((l : Int) - rPos + wPos)

end Verif.Model
