/-
Model of `langdef/chunks.go` and of the state entries of `langdef/result.go`.

Simplifications: `ints.Set` values are finite sets (`Finset`, justified by C02/C03), a node item is identified with its
index. A Go map `map[int][]Rule` is kept as a finite set of keys and functions giving the slice for a key.
Slices stored under keys ≥ 0 are never shared between entries (`append` copies elements). Slices stored under negative
keys always have one element and are shared by `CopyRules`; they are references to cells of a common store.
-/
import Verif.Model.Grammar

namespace Verif.Model

/-- `/repo/langdef/chunks.go` lines 9-170: chunk types; `/repo/langdef/parser.go` lines 26-44: `chunk`. -/
inductive Chunk
  /-- lines 127-143, `tokenChunk` -/
  | token (t : Nat)
  /-- lines 113-125, `eoiChunk` -/
  | eoi
  /-- lines 145-170, `nodeChunk` -/
  | node (i : Nat)
  /-- lines 9-42, `variantChunk` -/
  | variant (cs : List Chunk)
  /-- lines 44-111, `groupChunk` -/
  | group (cs : List Chunk) (opt rep : Bool)
deriving Repr, Inhabited

mutual

/-- `/repo/langdef/chunks.go` lines 26-34, 66-76, 119-121, 137-139, 162-164: `IsOptional`. -/
def Chunk.isOptional : Chunk → Bool
  | .token _ => false
  | .eoi => false
  | .node _ => false
  | .variant cs => Chunk.anyOptional cs
  | .group cs opt _ => opt || Chunk.allOptional cs

/-- `/repo/langdef/chunks.go` lines 27-33, the loop of `variantChunk.IsOptional`. -/
def Chunk.anyOptional : List Chunk → Bool
  | [] => false
  | c :: cs => c.isOptional || Chunk.anyOptional cs

/-- `/repo/langdef/chunks.go` lines 70-75, the loop of `groupChunk.IsOptional`. -/
def Chunk.allOptional : List Chunk → Bool
  | [] => true
  | c :: cs => c.isOptional && Chunk.allOptional cs

end

mutual

/-- `/repo/langdef/chunks.go` lines 17-23, 54-64, 115-117, 133-135, 154-156: `FirstTokens`; `ft` gives the current
`nodeItem.FirstTokens` of every node. -/
def Chunk.firstTokens (ft : Nat → Finset Int) : Chunk → Finset Int
  | .token t => {(t : Int)}
  | .eoi => {eoiTokenType}
  | .node i => ft i
  | .variant cs => Chunk.firstOfAny ft cs
  | .group cs _ _ => Chunk.firstOfSeq ft cs

/-- `/repo/langdef/chunks.go` lines 18-22, the loop of `variantChunk.FirstTokens`. -/
def Chunk.firstOfAny (ft : Nat → Finset Int) : List Chunk → Finset Int
  | [] => ∅
  | c :: cs => c.firstTokens ft ∪ Chunk.firstOfAny ft cs

/-- `/repo/langdef/chunks.go` lines 55-63, the loop of `groupChunk.FirstTokens`. -/
def Chunk.firstOfSeq (ft : Nat → Finset Int) : List Chunk → Finset Int
  | [] => ∅
  | c :: cs => if c.isOptional then c.firstTokens ft ∪ Chunk.firstOfSeq ft cs else c.firstTokens ft

end

/-- `/repo/langdef/result.go` lines 10-13, type `stateEntry`: `keys` are the keys of the map, `pos` gives the slices
under keys ≥ 0, `neg` the references to one-element slices under keys < 0. -/
structure Entry where
  types : BitVec 64 := 0
  keys : Finset Int := ∅
  pos : Int → List Rule := fun _ => []
  neg : Int → Option Nat := fun _ => none

/-- `/repo/langdef/result.go` lines 15-22, the `States` field of `parseResult` together with the store of shared
one-element slices. -/
structure PR where
  states : List Entry := []
  cells : List Rule := []

namespace PR

/-- `/repo/langdef/result.go` lines 35-40, `AddState`. -/
def addState (pr : PR) : PR := { pr with states := pr.states ++ [{}] }

/-- Adds `n` states one by one (`/repo/langdef/chunks.go` lines 91-93). -/
def addStates : Nat → PR → PR
  | 0, pr => pr
  | n + 1, pr => addStates n pr.addState

/-- `/repo/langdef/result.go` lines 100-110, `AddRule` for one token key of the entry `g.States[s]`. -/
def addRule (pr : PR) (s : Nat) (state node : Int) (k : Int) : Option PR :=
  match pr.states[s]? with
  | none => none
  | some e =>
    if 0 ≤ k then
      let e' : Entry := { e with
        keys := insert k e.keys
        pos := Function.update e.pos k (e.pos k ++ [⟨k, state, node⟩]) }
      some { pr with states := pr.states.set s e' }
    else
      let e' : Entry := { e with
        keys := insert k e.keys
        neg := Function.update e.neg k (some pr.cells.length) }
      some { states := pr.states.set s e', cells := pr.cells ++ [⟨k, state, node⟩] }

/-- `/repo/langdef/result.go` lines 102-109, the loop of `AddRule`. -/
def addRules (s : Nat) (state node : Int) : List Int → PR → Option PR
  | [], pr => some pr
  | k :: ks, pr => (pr.addRule s state node k).bind (addRules s state node ks)

/-- `/repo/langdef/result.go` lines 112-114, `BypassRule`. -/
def bypass (pr : PR) (s : Nat) (next : Int) : Option PR := pr.addRule s next sameNode anyToken

/-- `/repo/langdef/result.go` lines 116-124, `CopyRules`: every key of `from` is handled once, so the result does not
depend on the iteration order of the map. -/
def Entry.copy (e f : Entry) : Entry :=
  { e with
    keys := e.keys ∪ f.keys
    pos := fun k => if 0 ≤ k then e.pos k ++ f.pos k else e.pos k
    neg := fun k => match f.neg k with
      | some r => some r
      | none => e.neg k }

/-- `/repo/langdef/chunks.go` lines 105 and 109: `g.States[dst].CopyRules(g.States[src])`. -/
def copyRules (pr : PR) (dst src : Nat) : Option PR :=
  match pr.states[dst]?, pr.states[src]? with
  | some e, some f => some { pr with states := pr.states.set dst (Entry.copy e f) }
  | _, _ => none

end PR

/-- `/repo/langdef/chunks.go` lines 100-107: bypass rule of the last chunk, then copying from the last but one chunk
back to the first. `s` is the state of the first listed chunk, `j`, `j + 1`, ... are the states of the others. -/
def closeSeq : List Chunk → PR → Nat → Nat → Int → Option PR
  | [], pr, _, _, _ => some pr
  | c :: cs, pr, s, j, tail =>
    (closeSeq cs pr j (j + 1) tail).bind fun pr =>
      if c.isOptional then
        if cs.isEmpty then pr.bypass s tail else pr.copyRules s j
      else some pr

mutual

/-- `/repo/langdef/chunks.go` lines 39-43, 83-111, 123-125, 141-143, 167-170: `BuildStates`; `ft` gives the
first tokens of nodes. `none` is a run-time panic (wrong index). -/
def Chunk.build (ft : Nat → Finset Int) : Chunk → PR → Nat → Int → Option PR
  | .token t, pr, s, next => PR.addRules s next sameNode [(t : Int)] pr
  | .eoi, pr, s, _ => PR.addRules s finalState sameNode [eoiTokenType] pr
  | .node i, pr, s, next => PR.addRules s next i (sorted (ft i)) pr
  | .variant cs, pr, s, next => Chunk.buildAll ft cs pr s next
  | .group cs _ rep, pr, s, next =>
    let tail : Int := if rep then s else next
    if rep ∧ cs.length > 1 then
      let first := pr.states.length
      (Chunk.buildSeq ft cs (PR.addStates (cs.length - 1) pr.addState) first (first + 1) tail).bind fun pr =>
        (closeSeq cs pr first (first + 1) tail).bind fun pr =>
          pr.copyRules s first
    else if cs.isEmpty then none
    else
      let j := pr.states.length
      (Chunk.buildSeq ft cs (PR.addStates (cs.length - 1) pr) s j tail).bind fun pr =>
        closeSeq cs pr s j tail

/-- `/repo/langdef/chunks.go` lines 39-41, the loop of `variantChunk.BuildStates`. -/
def Chunk.buildAll (ft : Nat → Finset Int) : List Chunk → PR → Nat → Int → Option PR
  | [], pr, _, _ => some pr
  | c :: cs, pr, s, next => (c.build ft pr s next).bind fun pr => Chunk.buildAll ft cs pr s next

/-- `/repo/langdef/chunks.go` lines 96-98, the loop of `groupChunk.BuildStates`; `s` is the state of the first listed
chunk, `j`, `j + 1`, ... are the states of the others. -/
def Chunk.buildSeq (ft : Nat → Finset Int) : List Chunk → PR → Nat → Nat → Int → Option PR
  | [], pr, _, _, _ => some pr
  | c :: cs, pr, s, j, tail =>
    (c.build ft pr s (if cs.isEmpty then tail else (j : Int))).bind fun pr =>
      Chunk.buildSeq ft cs pr j (j + 1) tail

end

/-- `/repo/langdef/parser.go` lines 1013-1018, the loop of `buildStates`; result: the states and the first state of
every node. -/
def buildNodes (ft : Nat → Finset Int) : List Chunk → PR → Option (PR × List Nat)
  | [], pr => some (pr, [])
  | c :: cs, pr =>
    (c.build ft pr.addState pr.states.length finalState).bind fun pr' =>
      (buildNodes ft cs pr').map fun r => (r.1, pr.states.length :: r.2)

namespace PR

/-- The rules stored in an entry under a key. -/
def slot (pr : PR) (e : Entry) (k : Int) : List Rule :=
  if 0 ≤ k then e.pos k
  else match e.neg k with
    | none => []
    | some r => match pr.cells[r]? with
      | none => []
      | some c => [c]

/-- The rules of a state under a key. -/
def rules (pr : PR) (s : Nat) (k : Int) : List Rule :=
  match pr.states[s]? with
  | none => []
  | some e => pr.slot e k

end PR

end Verif.Model
