/-
Model of `langdef/parser.go`: `findUndefinedNodes` (875-892), `findUnusedNodes` (894-925), `findRecursions` and
`ntIsRecursive` (1023-1053).

Simplifications: nodes are identified by their indexes (error messages list node names in the order of these indexes),
`queue.Queue` is a list, `ints.Set` is a finite set. The iteration order of maps is a parameter. Loops and recursion
that need not stop have a fuel argument.
-/
import Verif.Model.Chunk
import Verif.Model.Tree

namespace Verif.Model

/-- `/repo/langdef/parser.go` lines 875-892, `findUndefinedNodes`: the nodes listed in the error, no error if there are
none. `order` is the iteration order of `nti`, `chunk` gives the `Chunk` fields (possibly nil). -/
def findUndefinedNodes (chunk : Nat → Option Chunk) (order : List Nat) : List Nat :=
  order.filter fun i => (chunk i).isNone

/-- `/repo/langdef/parser.go` lines 904-918, the loop of `findUnusedNodes`; result: `unreachedNts`. -/
def reachLoop (deps : Nat → Finset Nat) : Nat → List Nat → Finset Nat → Run (Finset Nat)
  | 0, _, _ => .timeout
  | _ + 1, [], un => .done un
  | fuel + 1, i :: q, un =>
    if i ∈ un then reachLoop deps fuel (q ++ sorted (deps i)) (un.erase i)
    else reachLoop deps fuel q un

/-- `/repo/langdef/parser.go` lines 894-925, `findUnusedNodes`: the nodes listed in the error (lines 923, 1140-1147), no
error if there are none. -/
def findUnusedNodes (deps : Nat → Finset Nat) (n fuel : Nat) : Run (List Nat) :=
  match reachLoop deps fuel [0] (Finset.range n) with
  | .panic => .panic
  | .timeout => .timeout
  | .done un => .done (sorted un)

/-- The loop of lines 1045-1051 over nested nodes. -/
def anyRun (f : Nat → Run Bool) : List Nat → Run Bool
  | [] => .done false
  | j :: js =>
    match f j with
    | .panic => .panic
    | .timeout => .timeout
    | .done true => .done true
    | .done false => anyRun f js

/-- `/repo/langdef/parser.go` lines 1042-1053, `ntIsRecursive`; `next i` lists the nested nodes of rules of the first
state of node `i` in the order of iteration. -/
def ntIsRecursive (next : Nat → List Nat) : Nat → Nat → Finset Nat → Run Bool
  | 0, _, _ => .timeout
  | fuel + 1, i, visited =>
    let visited := insert i visited
    anyRun (fun j => if j ∈ visited then .done true else ntIsRecursive next fuel j visited) (next i)

/-- `/repo/langdef/parser.go` lines 1028-1033, the loop of `findRecursions` over nodes. -/
def recursionLoop (next : Nat → List Nat) (fuel : Nat) : List Nat → Finset Nat → Run (Finset Nat)
  | [], acc => .done acc
  | i :: is, acc =>
    match ntIsRecursive next fuel i ∅ with
    | .panic => .panic
    | .timeout => .timeout
    | .done b => recursionLoop next fuel is (if b then insert i acc else acc)

/-- `/repo/langdef/parser.go` lines 1023-1040, `findRecursions`: the nodes listed in the error, no error if there are
none. -/
def findRecursions (next : Nat → List Nat) (n fuel : Nat) : Run (List Nat) :=
  match recursionLoop next fuel (List.range n) ∅ with
  | .panic => .panic
  | .timeout => .timeout
  | .done acc => .done (sorted acc)

/-- `/repo/langdef/parser.go` lines 1044-1047: nested nodes of the rules of a state, the keys of the map being iterated in
the given order. -/
def nestedNodes (pr : PR) (s : Nat) (order : List Int) : List Nat :=
  order.flatMap fun k => (pr.rules s k).filterMap fun r => if r.node = sameNode then none else some r.node.toNat

/-- The keys of a state entry. -/
def PR.keysOf (pr : PR) (s : Nat) : Finset Int :=
  match pr.states[s]? with
  | none => ∅
  | some e => e.keys

end Verif.Model
