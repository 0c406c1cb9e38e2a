/-
Model of `langdef/parser.go`, `resolveDependencies` (lines 927-1005).

Simplifications: nodes are identified by their indexes (`nts[index].Name` is a key of `nti` for every index, and all
nodes are defined at this point), `body i` is the chunk of node `i`. `queue.Queue` is a list (justified by C01),
`ints.Set` is a finite set (C02, C03). The iteration order of the map `nti` is a parameter of every loop.
Loops that need not stop have a fuel argument.
-/
import Verif.Model.Chunk

namespace Verif.Model

/-- Variables of `resolveDependencies`: `FirstTokens` and `DependsOn` of all items, `affects`, `resolveQueue`. -/
structure Res where
  ft : Nat → Finset Int
  deps : Nat → Finset Nat
  affects : Nat → List Nat
  queue : List Nat

namespace Res

/-- `/repo/langdef/parser.go` lines 936-949, one iteration of the first loop. Every `k` of `DependsOn.ToSlice()` is
different, so the inner loop (942-949) appends the index to `affects[k]` once for every `k`. -/
def startOne (body : Nat → Chunk) (st : Res) (i : Nat) : Res :=
  if st.deps i = ∅ then
    { st with queue := st.queue ++ [i], ft := Function.update st.ft i ((body i).firstTokens st.ft) }
  else { st with affects := fun k => if k ∈ st.deps i then st.affects k ++ [i] else st.affects k }

/-- `/repo/langdef/parser.go` lines 932-950; `order` is the iteration order of `nti`. -/
def start (body : Nat → Chunk) (deps : Nat → Finset Nat) (order : List Nat) : Res :=
  order.foldl (startOne body) ⟨fun _ => ∅, deps, fun _ => [], []⟩

/-- `/repo/langdef/parser.go` lines 959-964, one iteration of the inner loop. -/
def release (body : Nat → Chunk) (k : Nat) (st : Res) (i : Nat) : Res :=
  let d := (st.deps i).erase k
  if d = ∅ then
    { st with
      deps := Function.update st.deps i d
      queue := st.queue ++ [i]
      ft := Function.update st.ft i ((body i).firstTokens st.ft) }
  else { st with deps := Function.update st.deps i d }

/-- `/repo/langdef/parser.go` lines 952-966. -/
def drain (body : Nat → Chunk) : Nat → Res → Run Res
  | 0, _ => .timeout
  | fuel + 1, st =>
    match st.queue with
    | [] => .done st
    | k :: q => drain body fuel ((st.affects k).foldl (release body k) { st with queue := q })

end Res

/-- `/repo/langdef/parser.go` lines 983-990, one pass; result: first tokens and `tokenAdded`. -/
def addPass (body : Nat → Chunk) : List Nat → (Nat → Finset Int) → Bool → (Nat → Finset Int) × Bool
  | [], ft, added => (ft, added)
  | i :: is, ft, added =>
    let first := (body i).firstTokens ft
    if first ≠ ∅ ∧ first \ ft i ≠ ∅ then addPass body is (Function.update ft i (ft i ∪ first)) true
    else addPass body is ft added

/-- `/repo/langdef/parser.go` lines 979-991. -/
def addLoop (body : Nat → Chunk) (indexes : List Nat) : Nat → (Nat → Finset Int) → Run (Nat → Finset Int)
  | 0, _ => .timeout
  | fuel + 1, ft =>
    let r := addPass body indexes ft false
    if r.2 then addLoop body indexes fuel r.1 else .done r.1

/-- `/repo/langdef/parser.go` lines 927-1005, `resolveDependencies`: first tokens of all nodes, or the nodes listed in
the error. `order1` and `order2` are the iteration orders of `nti` in lines 935 and 968. -/
def resolveDependencies (body : Nat → Chunk) (deps : Nat → Finset Nat) (order1 order2 : List Nat) (fuel : Nat) :
    Run (Except (List Nat) (Nat → Finset Int)) :=
  match Res.drain body fuel (Res.start body deps order1) with
  | .panic => .panic
  | .timeout => .timeout
  | .done st =>
    let indexes := order2.filter fun i => st.deps i ≠ ∅
    if indexes = [] then .done (.ok st.ft)
    else
      match addLoop body indexes fuel st.ft with
      | .panic => .panic
      | .timeout => .timeout
      | .done ft =>
        let names := indexes.filter fun i => ft i = ∅
        .done (if names = [] then .ok ft else .error names)

end Verif.Model
