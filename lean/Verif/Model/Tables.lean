/-
Model of `langdef/result.go`: `BuildGrammar` (lines 42-54) and the functions it uses, and of the rule search of
`parser/parser.go`, `findRules` (lines 583-612).

Simplifications: `g.States` is filled one state after another, so it is modelled by appending.
-/
import Verif.Model.Chunk
import Verif.Model.Go

namespace Verif.Model

/-- `/repo/grammar/grammar.go` lines 172-195: the `States`, `MultiRules` and `Rules` fields of `Grammar`. -/
structure Tables where
  states : List GState := []
  multi : List MultiRule := []
  rules : List Rule := []
deriving Repr, DecidableEq

/-- `/repo/langdef/result.go` lines 146-161, `rmKeys`: keys with one rule. -/
def rKeys (keys : Finset Int) (get : Int → List Rule) : List Int := sorted (keys.filter fun k => ¬ (get k).length > 1)

/-- `/repo/langdef/result.go` lines 146-161, `rmKeys`: keys with several rules. -/
def mKeys (keys : Finset Int) (get : Int → List Rule) : List Int := sorted (keys.filter fun k => (get k).length > 1)

/-- `/repo/langdef/result.go` lines 163-173, `writeGrammarState`. -/
def writeState (types : BitVec 64) (t : Tables) (erlen emlen : Nat) : Tables :=
  let rstart := if erlen > 0 then t.rules.length else 0
  let mstart := if emlen > 0 then t.multi.length else 0
  { t with states := t.states ++ [⟨types, mstart, mstart + emlen, rstart, rstart + erlen⟩] }

/-- `/repo/langdef/result.go` lines 132-135, the first loop of `BuildGrammarState`. -/
def addSingles (get : Int → List Rule) : List Int → Tables → Option Tables
  | [], t => some t
  | k :: ks, t =>
    match get k with
    | [] => none
    | r :: _ => addSingles get ks { t with rules := t.rules ++ [r] }

/-- `/repo/langdef/result.go` lines 138-144, the second loop of `BuildGrammarState`. -/
def addMultis (get : Int → List Rule) : List Int → Nat → Tables → Tables
  | [], _, t => t
  | k :: ks, rstart, t =>
    addMultis get ks (rstart + (get k).length)
      { t with rules := t.rules ++ get k, multi := t.multi ++ [⟨k, rstart, rstart + (get k).length⟩] }

/-- `/repo/langdef/result.go` lines 126-145, `BuildGrammarState`; `keys` and `get` are the map `se.Rules`. -/
def buildState (types : BitVec 64) (keys : Finset Int) (get : Int → List Rule) (t : Tables) : Option Tables :=
  let rkeys := rKeys keys get
  let mkeys := mKeys keys get
  (addSingles get rkeys (writeState types t rkeys.length mkeys.length)).map fun t =>
    addMultis get mkeys t.rules.length t

/-- `/repo/langdef/result.go` lines 50-52, the loop of `BuildGrammar`. -/
def buildTables (pr : PR) : List Entry → Tables → Option Tables
  | [], t => some t
  | e :: es, t => (buildState e.types e.keys (pr.slot e) t).bind (buildTables pr es)

/-- Go `sort.Search`: binary search in `[i, j)`. -/
def searchIn (f : Nat → Bool) : Nat → Nat → Nat → Nat
  | 0, i, _ => i
  | fuel + 1, i, j =>
    if i < j then
      let h := (i + j) / 2
      if f h then searchIn f fuel i h else searchIn f fuel (h + 1) j
    else i

/-- Go `sort.Search(n, f)`. The interval shrinks on every step, so `n` steps are enough. -/
def search (n : Nat) (f : Nat → Bool) : Nat := searchIn f n 0 n

/-- `/repo/parser/parser.go` lines 595-608, search for one key; `none` is a panic, `some none`: not found. -/
def findKey (all rules : List Rule) (multi : List MultiRule) (key : Int) : Option (Option (List Rule)) :=
  let index := search rules.length fun i => decide (((rules[i]?).map (·.token)).getD 0 ≥ key)
  if index < rules.length ∧ (rules[index]?).map (·.token) = some key then
    (Go.slice rules index (index + 1)).map some
  else
    let index := search multi.length fun i => decide (((multi[i]?).map (·.token)).getD 0 ≥ key)
    match multi[index]? with
    | some mr => if mr.token = key then (Go.slice all mr.lowRule mr.highRule).map some else some none
    | none => some none

/-- `/repo/parser/parser.go` lines 590-611, the loop over keys. -/
def findKeys (all rules : List Rule) (multi : List MultiRule) : List Int → Option (List Rule)
  | [] => some []
  | key :: keys =>
    if key = anyToken ∧ (rules.head?).map (·.token) = some key then Go.slice rules 0 1
    else
      match findKey all rules multi key with
      | none => none
      | some (some rs) => some rs
      | some none => findKeys all rules multi keys

/-- `/repo/parser/parser.go` lines 583-612, `findRules` for a token that is not a side one; `keys` is the result of
`possibleRuleKeys`. -/
def findRulesBy (t : Tables) (s : GState) (keys : List Int) : Option (List Rule) :=
  (Go.slice t.rules s.lowRule s.highRule).bind fun rules =>
    (Go.slice t.multi s.lowMulti s.highMulti).bind fun multi =>
      findKeys t.rules rules multi keys

/-- Sorted members of the set of states in use, `/repo/langdef/result.go` lines 57-72. -/
def PR.usedStates (pr : PR) (firsts : List Nat) : Finset Nat :=
  (Finset.range pr.states.length).filter fun i =>
    i ∈ firsts ∨ ∃ e ∈ pr.states, ∃ k ∈ e.keys, ∃ r ∈ pr.slot e k, r.state = i

/-- `/repo/langdef/result.go` lines 77-83: `newIndexes`; 0 for unused states. -/
def newIndexes (uss : List Nat) (i : Nat) : Nat := if i ∈ uss then uss.idxOf i else 0

/-- `/repo/langdef/result.go` lines 92-94. -/
def remapRule (ni : Nat → Nat) (r : Rule) : Rule :=
  if 0 ≤ r.state then { r with state := (ni r.state.toNat : Nat) } else r

/-- `/repo/langdef/result.go` lines 90-96 for one state. Slices under keys ≥ 0 belong to this state only; a slice under a
negative key is changed wherever it is used. -/
def PR.remapState (ni : Nat → Nat) (pr : PR) (s : Nat) : PR :=
  match pr.states[s]? with
  | none => pr
  | some e =>
    let e' : Entry := { e with pos := fun k => if k ∈ e.keys then (e.pos k).map (remapRule ni) else e.pos k }
    { states := pr.states.set s e'
      cells := pr.cells.mapIdx fun c r => if ∃ k ∈ e.keys, k < 0 ∧ e.neg k = some c then remapRule ni r else r }

/-- `/repo/langdef/result.go` lines 56-98, `dropUnusedStates`; `firsts` are the first states of nodes. -/
def PR.dropUnused (pr : PR) (firsts : List Nat) : PR × List Nat :=
  let uss := sorted (pr.usedStates firsts)
  if uss.length = pr.states.length then (pr, firsts)
  else
    let ni := newIndexes uss
    let kept : PR := { pr with states := uss.filterMap fun i => pr.states[i]? }
    ((List.range kept.states.length).foldl (PR.remapState ni) kept, firsts.map ni)

end Verif.Model

namespace Verif.Model

/-- `/repo/langdef/result.go` lines 42-54, `BuildGrammar`; `firsts` are the first states of nodes, new ones are returned
with the tables. -/
def PR.buildGrammar (pr : PR) (firsts : List Nat) : Option (Tables × List Nat) :=
  let d := pr.dropUnused firsts
  (buildTables d.1 d.1.states {}).map fun t => (t, d.2)

end Verif.Model
