/-
Model of `tree/tree.go`: elements of syntax trees live in a heap, pointers are element numbers, nil is `none`.

Every number is a valid element (a non-nil Go pointer always is); elements that have not been created yet are just
elements without any links. Elements are those created by `NewTokenElement` and `NewNodeElement` (not other
implementations of the interface).
-/
import Verif.Model.Lexer

namespace Verif.Model.Tree

/-- `/repo/tree/tree.go` lines 682-687 and 729-735, types `tokenElement` and `nodeElement`;
`firstChild` and `lastChild` of a token are not used. -/
structure Elem where
  isNode : Bool
  typeName : String
  token : Option Token
  parent : Option Nat
  prev : Option Nat
  next : Option Nat
  firstChild : Option Nat
  lastChild : Option Nat
deriving DecidableEq

/-- All elements. -/
abbrev Heap := Nat → Elem

/-- Assignment through a pointer. -/
def Heap.set (h : Heap) (i : Nat) (e : Elem) : Heap := fun j => if j = i then e else h j

/-- `/repo/tree/tree.go` lines 717-719 and 774-776, `SetParent`. -/
def Heap.setParent (h : Heap) (i : Nat) (p : Option Nat) : Heap := h.set i { h i with parent := p }
/-- `/repo/tree/tree.go` lines 721-723 and 828-830, `SetPrev`. -/
def Heap.setPrev (h : Heap) (i : Nat) (p : Option Nat) : Heap := h.set i { h i with prev := p }
/-- `/repo/tree/tree.go` lines 725-727 and 832-834, `SetNext`. -/
def Heap.setNext (h : Heap) (i : Nat) (p : Option Nat) : Heap := h.set i { h i with next := p }
/-- Assignment to the field `firstChild`, `/repo/tree/tree.go` lines 786, 800, 817. -/
def Heap.setFirst (h : Heap) (i : Nat) (p : Option Nat) : Heap := h.set i { h i with firstChild := p }
/-- Assignment to the field `lastChild`, `/repo/tree/tree.go` lines 791, 822. -/
def Heap.setLast (h : Heap) (i : Nat) (p : Option Nat) : Heap := h.set i { h i with lastChild := p }

/-- `/repo/tree/tree.go` lines 778-804, `AddChild` of node `n`. -/
def addChild (h : Heap) (n : Nat) (c before : Option Nat) : Heap :=
  match c with
  | none => h
  | some c =>
    match before with
    | none =>
      let h := h.setParent c (some n)
      match (h n).lastChild with
      | none => (h.setFirst n (some c)).setLast n (some c)
      | some last => ((h.setPrev c (some last)).setNext last (some c)).setLast n (some c)
    | some b =>
      if (h b).parent ≠ some n then h
      else
        let h := h.setParent c (some n)
        let prev := (h b).prev
        let h := h.setPrev b (some c)
        let h := h.setNext c (some b)
        let h := h.setPrev c prev
        match prev with
        | none => h.setFirst n (some c)
        | some p => h.setNext p (some c)

/-- `/repo/tree/tree.go` lines 806-826, `RemoveChild` of node `n`. -/
def removeChild (h : Heap) (n : Nat) (c : Option Nat) : Heap :=
  match c with
  | none => h
  | some c =>
    if (h c).parent ≠ some n then h
    else
      let prev := (h c).prev
      let next := (h c).next
      let h := h.setParent c none
      let h := h.setPrev c none
      let h := h.setNext c none
      let h := match prev with
        | none => h.setFirst n next
        | some p => h.setNext p next
      match next with
      | none => h.setLast n prev
      | some x => h.setPrev x prev

/-- `/repo/tree/tree.go` lines 153-159, `Detach`. -/
def detach (h : Heap) (n : Option Nat) : Heap :=
  match n with
  | none => h
  | some n =>
    match (h n).parent with
    | none => h
    | some p => removeChild h p (some n)

/-- `/repo/tree/tree.go` lines 162-173, `Replace`; calling a method of a nil parent panics. -/
def replace (h : Heap) (old n : Option Nat) : Option Heap :=
  match n, old with
  | some n, some old =>
    let pa := (h old).parent
    let ne := (h old).next
    let h := detach h (some old)
    let h := detach h (some n)
    match pa with
    | none => none
    | some pa => some (addChild h pa (some n) ne)
  | _, _ => some (detach h old)

/-- `/repo/tree/tree.go` lines 178-196, `AppendSibling`. -/
def appendSibling (h : Heap) (prev el : Option Nat) : Heap :=
  match el, prev with
  | some el, some prev =>
    let h := detach h (some el)
    let next := (h prev).next
    match (h prev).parent with
    | none =>
      let h := h.setPrev el (some prev)
      let h := h.setNext el next
      let h := h.setNext prev (some el)
      match next with
      | none => h
      | some x => h.setPrev x (some el)
    | some p => addChild h p (some el) next
  | _, _ => h

/-- `/repo/tree/tree.go` lines 201-219, `PrependSibling`. -/
def prependSibling (h : Heap) (next el : Option Nat) : Heap :=
  match el, next with
  | some el, some next =>
    let h := detach h (some el)
    match (h next).parent with
    | none =>
      let prev := (h next).prev
      let h := h.setPrev el prev
      let h := h.setNext el (some next)
      let h := h.setPrev next (some el)
      match prev with
      | none => h
      | some x => h.setNext x (some el)
    | some p => addChild h p (some el) (some next)
  | _, _ => h

/-- `/repo/tree/tree.go` lines 223-230, `AppendChild`. -/
def appendChild (h : Heap) (parent el : Option Nat) : Heap :=
  match parent, el with
  | some p, some el => addChild (detach h (some el)) p (some el) none
  | _, _ => h

/-! Token elements. Loops and recursion are bounded by `fuel`. -/

mutual
/-- `/repo/tree/tree.go` lines 56-72, `FirstTokenElement`. -/
def firstToken (h : Heap) : Nat → Option Nat → Run (Option Nat)
  | 0, _ => .timeout
  | _ + 1, none => .done none
  | fuel + 1, some n => if (h n).isNode then firstTokenLoop h fuel (h n).firstChild else .done (some n)
/-- `/repo/tree/tree.go` lines 61-71, the loop of `FirstTokenElement`. -/
def firstTokenLoop (h : Heap) : Nat → Option Nat → Run (Option Nat)
  | 0, _ => .timeout
  | _ + 1, none => .done none
  | fuel + 1, some n =>
    if (h n).isNode then
      match firstToken h fuel (some n) with
      | .done (some nn) => .done (some nn)
      | .done none => firstTokenLoop h fuel (h n).next
      | .panic => .panic
      | .timeout => .timeout
    else .done (some n)
end

mutual
/-- `/repo/tree/tree.go` lines 77-93, `LastTokenElement`. -/
def lastToken (h : Heap) : Nat → Option Nat → Run (Option Nat)
  | 0, _ => .timeout
  | _ + 1, none => .done none
  | fuel + 1, some n => if (h n).isNode then lastTokenLoop h fuel (h n).lastChild else .done (some n)
/-- `/repo/tree/tree.go` lines 82-92, the loop of `LastTokenElement`. -/
def lastTokenLoop (h : Heap) : Nat → Option Nat → Run (Option Nat)
  | 0, _ => .timeout
  | _ + 1, none => .done none
  | fuel + 1, some n =>
    if (h n).isNode then
      match lastToken h fuel (some n) with
      | .done (some nn) => .done (some nn)
      | .done none => lastTokenLoop h fuel (h n).prev
      | .panic => .panic
      | .timeout => .timeout
    else .done (some n)
end

/-- `/repo/tree/tree.go` lines 102-110, the loop of `NextTokenElement`: the next sibling of the element or of its closest
ancestor that has one. -/
def nextLoop (h : Heap) : Nat → Nat → Run (Option Nat)
  | 0, _ => .timeout
  | fuel + 1, n =>
    match (h n).next with
    | some nn => .done (some nn)
    | none =>
      match (h n).parent with
      | none => .done none
      | some p => nextLoop h fuel p

/-- `/repo/tree/tree.go` lines 97-113, `NextTokenElement`. -/
def nextToken (h : Heap) (fuel : Nat) (n : Option Nat) : Run (Option Nat) :=
  match n with
  | none => .done none
  | some n =>
    match nextLoop h fuel n with
    | .done none => .done none
    | .done (some nn) => firstToken h fuel (some nn)
    | .panic => .panic
    | .timeout => .timeout

/-- `/repo/tree/tree.go` lines 122-130, the loop of `PrevTokenElement`. -/
def prevLoop (h : Heap) : Nat → Nat → Run (Option Nat)
  | 0, _ => .timeout
  | fuel + 1, n =>
    match (h n).prev with
    | some nn => .done (some nn)
    | none =>
      match (h n).parent with
      | none => .done none
      | some p => prevLoop h fuel p

/-- `/repo/tree/tree.go` lines 117-133, `PrevTokenElement`. -/
def prevToken (h : Heap) (fuel : Nat) (n : Option Nat) : Run (Option Nat) :=
  match n with
  | none => .done none
  | some n =>
    match prevLoop h fuel n with
    | .done none => .done none
    | .done (some nn) => lastToken h fuel (some nn)
    | .panic => .panic
    | .timeout => .timeout

/-- The common loop of `Children`, `Ancestors`, `PrevSiblings`, `NextSiblings`
(`/repo/tree/tree.go` lines 142-147, 632-640, 651-659, 670-678): follow the links collecting elements. -/
def follow (link : Nat → Option Nat) : Nat → Option Nat → Run (List Nat)
  | 0, _ => .timeout
  | _ + 1, none => .done []
  | fuel + 1, some n =>
    match follow link fuel (link n) with
    | .done l => .done (n :: l)
    | .panic => .panic
    | .timeout => .timeout

/-- `/repo/tree/tree.go` lines 137-149, `Children`. -/
def children (h : Heap) (fuel : Nat) (n : Option Nat) : Run (List Nat) :=
  match n with
  | none => .done []
  | some n => if (h n).isNode then follow (fun x => (h x).next) fuel (h n).firstChild else .done []

/-- `/repo/tree/tree.go` lines 627-642, `Ancestors`. -/
def ancestors (h : Heap) (fuel : Nat) (n : Option Nat) : Run (List Nat) :=
  match n with
  | none => .done []
  | some n => follow (fun x => (h x).parent) fuel (h n).parent

/-- `/repo/tree/tree.go` lines 646-661, `PrevSiblings`. -/
def prevSiblings (h : Heap) (fuel : Nat) (n : Option Nat) : Run (List Nat) :=
  match n with
  | none => .done []
  | some n => follow (fun x => (h x).prev) fuel (h n).prev

/-- `/repo/tree/tree.go` lines 665-680, `NextSiblings`. -/
def nextSiblings (h : Heap) (fuel : Nat) (n : Option Nat) : Run (List Nat) :=
  match n with
  | none => .done []
  | some n => follow (fun x => (h x).next) fuel (h n).next

/-! Walker. Flags are natural numbers, bits are tested with `testBit`. -/

/-- `/repo/tree/tree.go` line 236, `WalkerStop`. -/
def flagStop (f : Nat) : Bool := f.testBit 0
/-- `/repo/tree/tree.go` line 237, `WalkerSkipChildren`. -/
def flagSkipChildren (f : Nat) : Bool := f.testBit 1
/-- `/repo/tree/tree.go` line 238, `WalkerSkipSiblings`. -/
def flagSkipSiblings (f : Nat) : Bool := f.testBit 2

/-- `/repo/tree/tree.go` lines 264-268, type `Walker`. `rtl` is `(mode & WalkRtl) != 0`. The top of the flag stack is the
first element of the list. -/
structure Walker where
  root : Option Nat
  current : Option Nat
  flagStack : List Nat
  rtl : Bool
deriving DecidableEq, Repr

/-- `/repo/tree/tree.go` lines 271-273, `NewWalker`. -/
def newWalker (root : Option Nat) (rtl : Bool) : Walker := ⟨root, none, [], rtl⟩

/-- Result of `Step`: element and level; `none` is the zero value. -/
abbrev Stat := Option (Nat × Nat)

/-- `/repo/tree/tree.go` lines 345-347, `pushFlags`; `f &^ WalkerSkipChildren` clears the bit. -/
def pushFlags (st : List Nat) (f : Nat) : List Nat := (if f.testBit 1 then f - 2 else f) :: st

/-- `/repo/tree/tree.go` lines 312-317, the sibling to go to. -/
def sibling (h : Heap) (rtl : Bool) (cur f : Nat) : Option Nat :=
  if flagSkipSiblings f then none else if rtl then (h cur).prev else (h cur).next

/-- `/repo/tree/tree.go` lines 335-337, the end of traversal. -/
def finish (w : Walker) (cur : Nat) : Walker × Stat :=
  ({ w with root := none, current := some cur, flagStack := [] }, none)

/-- `/repo/tree/tree.go` lines 311-337, the loop of `Step`, the end of `Step` included. `cur` is `w.current`, the first
list is `w.flagStack`; every turn of the loop either returns or pops flags. -/
def exitLoop (h : Heap) (w : Walker) (root : Nat) : List Nat → Nat → Nat → Walker × Stat
  | [], cur, f =>
    if cur = root then finish w cur
    else
      match sibling h w.rtl cur f with
      | some n => ({ w with root := some root, current := some n, flagStack := [] }, some (n, 0))
      | none => finish w cur
  | g :: st, cur, f =>
    if cur = root then finish w cur
    else
      match sibling h w.rtl cur f with
      | some n => ({ w with root := some root, current := some n, flagStack := g :: st }, some (n, (g :: st).length))
      | none =>
        match (h cur).parent with
        | none => finish w cur
        | some n => if (g :: st).length < 2 then finish w cur else exitLoop h w root st n g

/-- `/repo/tree/tree.go` lines 278-338, `Step`. -/
def step (h : Heap) (w : Walker) (f : Nat) : Walker × Stat :=
  let w := if flagStop f then { w with root := none, flagStack := [] } else w
  match w.root with
  | none => (w, none)
  | some root =>
    match w.current with
    | none => ({ w with current := some root }, some (root, 0))
    | some cur =>
      let child := if (h cur).isNode && !flagSkipChildren f then
          (if w.rtl then (h cur).lastChild else (h cur).firstChild)
        else none
      match child with
      | some n =>
        let st := pushFlags w.flagStack f
        ({ w with current := some n, flagStack := st }, some (n, st.length))
      | none => exitLoop h w root w.flagStack cur f

/-- `/repo/tree/tree.go` lines 361-368, `Walker.Walk` after the first `Step`. The visitor has a state and returns flags;
the result is its state and the list of visited elements with their levels. -/
def walkLoop {σ : Type} (h : Heap) (visitor : σ → Nat × Nat → σ × Nat) :
    Nat → Walker × Stat → σ → Run (σ × List (Nat × Nat))
  | 0, _, _ => .timeout
  | _ + 1, (_, none), s => .done (s, [])
  | fuel + 1, (w, some stat), s =>
    let (s, f) := visitor s stat
    if flagStop f then .done (s, [stat])
    else
      match walkLoop h visitor fuel (step h w f) s with
      | .done (s, l) => .done (s, stat :: l)
      | .panic => .panic
      | .timeout => .timeout

/-- `/repo/tree/tree.go` lines 358-369 and 372-374, `Walk`. -/
def walk {σ : Type} (h : Heap) (fuel : Nat) (root : Option Nat) (rtl : Bool)
    (visitor : σ → Nat × Nat → σ × Nat) (s : σ) : Run (σ × List (Nat × Nat)) :=
  walkLoop h visitor fuel (step h (newWalker root rtl) 0) s

/-! Selectors. Filters and extractors are functions; extractors of the library may need fuel. -/

/-- `/repo/tree/tree.go` line 382, type `Extractor`, as a computation. -/
abbrev Extractor := Nat → Run (List Nat)

/-- Sequential composition of computations. -/
def bindRun {α β : Type} (x : Run α) (f : α → Run β) : Run β :=
  match x with
  | .done a => f a
  | .panic => .panic
  | .timeout => .timeout

/-- `/repo/tree/tree.go` lines 434-447, `selectNodes`; the list of extractors is `s :: nss`. -/
def selectNodes (s : Extractor) : List Extractor → List Nat → Run (List Nat)
  | [], ns => ns.foldl (fun res n => bindRun res fun res => bindRun (s n) fun l => .done (res ++ l)) (.done [])
  | s' :: nss, ns =>
    ns.foldl (fun res n => bindRun res fun res => bindRun (s n) fun l => bindRun (selectNodes s' nss l) fun l' =>
      .done (res ++ l')) (.done [])

/-- `/repo/tree/tree.go` lines 386-389, type `Selector`. -/
structure Selector where
  extractors : List Extractor
  unique : Bool

/-- `/repo/tree/tree.go` lines 392-394, `NewSelector`. -/
def newSelector : Selector := ⟨[], false⟩

/-- `/repo/tree/tree.go` lines 451-454, `Unique`. -/
def Selector.setUnique (s : Selector) : Selector := { s with unique := true }

/-- `/repo/tree/tree.go` lines 458-463, `Extract`. -/
def Selector.extract (s : Selector) (ex : Option Extractor) : Selector :=
  match ex with
  | some ex => { s with extractors := s.extractors ++ [ex] }
  | none => s

/-- `/repo/tree/tree.go` lines 467-475, `Filter`. -/
def Selector.filter (s : Selector) (nf : Nat → Bool) : Selector :=
  s.extract (some fun n => if nf n then .done [n] else .done [])

/-- `/repo/tree/tree.go` lines 418-425: appending elements not found in the index; the index holds exactly the elements
appended so far. -/
def addUnique (res : List Nat) : List Nat → List Nat
  | [] => res
  | tn :: ns => if res.contains tn then addUnique res ns else addUnique (res ++ [tn]) ns

/-- `/repo/tree/tree.go` lines 411-416: what is selected for one element of the input. -/
def selectOne (exs : List Extractor) (n : Nat) : Run (List Nat) :=
  match exs with
  | ex :: exs => selectNodes ex exs [n]
  | [] => .done [n]

/-- `/repo/tree/tree.go` lines 406-428, a turn of the loop of `Apply`. -/
def Selector.turn (s : Selector) (res : List Nat) (n : Option Nat) : Run (List Nat) :=
  match n with
  | none => .done res
  | some n => bindRun (selectOne s.extractors n) fun ns => .done (if s.unique then addUnique res ns else res ++ ns)

/-- `/repo/tree/tree.go` lines 398-432, `Apply`. -/
def Selector.apply (s : Selector) (input : List (Option Nat)) : Run (List Nat) :=
  input.foldl (fun res n => bindRun res fun res => s.turn res n) (.done [])

/-- `/repo/tree/tree.go` lines 482-501, the loop of the extractor made by `search`. -/
def searchLoop (h : Heap) (nf : Nat → Bool) (flags : Nat) : Nat → Walker → Nat → List Nat → Run (List Nat)
  | 0, _, _, _ => .timeout
  | fuel + 1, w, f, res =>
    match step h w f with
    | (_, none) => .done res
    | (w, some (n, _)) =>
      if nf n then searchLoop h nf flags fuel w flags (res ++ [n])
      else searchLoop h nf flags fuel w 0 res

/-- `/repo/tree/tree.go` lines 477-502, `search`; `fuel` bounds the loop. -/
def Selector.search (s : Selector) (h : Heap) (fuel : Nat) (nf : Nat → Bool) (deepSearch : Bool) : Selector :=
  let flags := if deepSearch then 0 else 2
  s.extract (some fun n => searchLoop h nf flags fuel (newWalker (some n) false) 0 [])

/-- `/repo/tree/tree.go` lines 522-526, `IsNot`. -/
def isNot (f : Nat → Bool) : Nat → Bool := fun n => !f n

/-- `/repo/tree/tree.go` lines 529-538, `IsAny`. -/
def isAny : List (Nat → Bool) → Nat → Bool
  | [], _ => false
  | f :: fs, n => if f n then true else isAny fs n

/-- `/repo/tree/tree.go` lines 541-550, `IsAll`. -/
def isAll : List (Nat → Bool) → Nat → Bool
  | [], _ => true
  | f :: fs, n => if !f n then false else isAll fs n

/-- `/repo/tree/tree.go` lines 553-564, `IsA`. -/
def isA (h : Heap) (names : List String) (n : Nat) : Bool := go (h n).typeName names
where
  /-- `/repo/tree/tree.go` lines 556-562, the loop. -/
  go (tn : String) : List String → Bool
    | [] => false
    | name :: names => if tn = name then true else go tn names

/-- `/repo/tree/tree.go` lines 567-582, `IsALiteral`; a token element without a token panics. -/
def isALiteral (h : Heap) (texts : List (List Nat)) (n : Nat) : Option Bool :=
  if (h n).isNode then some false
  else match (h n).token with
    | none => none
    | some t => some (texts.any (· = t.content))

/-- `/repo/tree/tree.go` lines 586-596, `Any`. -/
def anyOf : List Extractor → Extractor
  | [], _ => .done []
  | ne :: nes, n => bindRun (ne n) fun res =>
    if res.length > 0 then .done res else anyOf nes n

/-- `/repo/tree/tree.go` lines 600-607, `All`. -/
def allOf : List Extractor → Extractor
  | [], _ => .done []
  | ne :: nes, n => bindRun (ne n) fun res => bindRun (allOf nes n) fun l => .done (res ++ l)

/-- `/repo/tree/tree.go` lines 611-623, `Nth`. -/
def nth (ex : Extractor) (indexes : List Int) : Extractor := fun n =>
  bindRun (ex n) fun els =>
    .done (indexes.filterMap fun (i : Int) => if i ≥ 0 ∧ i < els.length then els[i.toNat]? else none)

end Verif.Model.Tree
