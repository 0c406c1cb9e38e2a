/-
Model of `langdef/parser.go`: `assignTokenGroups` (1055-1101), `assignStateTokenTypes` (1103-1138) and the part of `Parse`
(52-72) after the description has been read.

Simplifications: `regexp.FindString` is a parameter `find` (by token index), `strings.ToUpper` is a parameter `upper`.
-/
import Verif.Model.NodeGraph
import Verif.Model.Parser
import Verif.Model.Resolve

namespace Verif.Model

/-- `1 << i` of type `BitSet`. -/
def bit (i : Nat) : BitVec 64 := 1#64 <<< i

/-- `/repo/langdef/parser.go` lines 1069-1077: number of tokens with regular expressions at the start of the list. (If all
tokens have them then `rcnt` is one less after this loop, but the next loop moves it to the end.) -/
def reCount (ts : List GToken) : Nat := (ts.takeWhile fun t => t.re.isSome).length

/-- `/repo/langdef/parser.go` lines 1080-1082: index of the first literal. -/
def literalStart (ts : List GToken) : Nat :=
  reCount ts + ((ts.drop (reCount ts)).takeWhile fun t => ¬ t.flags.literal).length

/-- `/repo/langdef/parser.go` lines 1088-1095: types under which a literal may be fetched. -/
def literalTypes (upper : List Nat → List Nat) (find : Nat → List Nat → List Nat) (ts : List GToken) (lt : GToken) :
    BitVec 64 :=
  (List.range (reCount ts)).foldl (fun acc j =>
    match ts[j]? with
    | some rt =>
      if ¬ rt.flags.noLiterals ∧ (¬ rt.flags.caseless ∨ lt.name = upper lt.name) ∧ find j lt.name = lt.name then
        acc ||| bit j
      else acc
    | none => acc) 0

/-- `/repo/langdef/parser.go` lines 1055-1101, `assignTokenGroups`: `TTypes` or the literal that cannot be fetched. -/
def assignTokenTypes (upper : List Nat → List Nat) (find : Nat → List Nat → List Nat) (ts : List GToken) :
    Except (List Nat) (List (BitVec 64)) :=
  match (ts.drop (literalStart ts)).find? fun lt => literalTypes upper find ts lt = 0 with
  | some lt => .error lt.name
  | none => .ok ((List.range (literalStart ts)).map bit ++
      (ts.drop (literalStart ts)).map (literalTypes upper find ts))

/-- `/repo/langdef/parser.go` lines 1108-1113: `defaultTypes`. -/
def sideTypes (ts : List GToken) : BitVec 64 :=
  (List.range ts.length).foldl (fun acc i => if (ts[i]?).any (·.flags.side) then acc ||| bit i else acc) 0

/-- `/repo/langdef/parser.go` lines 1126-1131: expected types of a state. -/
def stateTypes (default : BitVec 64) (ttypes : List (BitVec 64)) (keys : Finset Int) : Option (BitVec 64) :=
  (sorted (keys.filter fun k => 0 ≤ k)).foldl (fun acc k => acc.bind fun a => (ttypes[k.toNat]?).map (a ||| ·))
    (some default)

/-- `/repo/langdef/parser.go` lines 1124-1134, the loop over states `j`, ..., `j + count - 1`. -/
def assignRange (default : BitVec 64) (ttypes : List (BitVec 64)) : Nat → Nat → PR → Option PR
  | 0, _, pr => some pr
  | count + 1, j, pr =>
    (pr.states[j]?).bind fun e =>
      (stateTypes default ttypes e.keys).bind fun types =>
        assignRange default ttypes count (j + 1) { pr with states := pr.states.set j { e with types := types } }

/-- `/repo/langdef/parser.go` lines 1115-1135, the loop over nodes. -/
def assignStateTypes (default : BitVec 64) (ttypes : List (BitVec 64)) : List Nat → PR → Option PR
  | [], pr => some pr
  | [f], pr => assignRange default ttypes (pr.states.length - f) f pr
  | f :: f' :: fs, pr => (assignRange default ttypes (f' - f) f pr).bind (assignStateTypes default ttypes (f' :: fs))

mutual

/-- `/repo/langdef/parser.go` line 822: nodes added to `DependsOn` while a definition is being read. -/
def Chunk.nodes : Chunk → Finset Nat
  | .token _ => ∅
  | .eoi => ∅
  | .node i => {i}
  | .variant cs => Chunk.nodesOf cs
  | .group cs _ _ => Chunk.nodesOf cs

/-- Nodes of all listed chunks. -/
def Chunk.nodesOf : List Chunk → Finset Nat
  | [] => ∅
  | c :: cs => c.nodes ∪ Chunk.nodesOf cs

end

/-- Errors of `langdef.Parse` found after the description has been read. -/
inductive CompileErr
  /-- `UnresolvedTokenTypesError` -/
  | tokenTypes (name : List Nat)
  /-- `UndefinedNodeError` -/
  | undefinedNodes (l : List Nat)
  /-- `UnusedNodeError` -/
  | unusedNodes (l : List Nat)
  /-- `UnresolvedError` -/
  | unresolved (l : List Nat)
  /-- `RecursionError` -/
  | recursion (l : List Nat)
deriving DecidableEq

/-- `/repo/langdef/parser.go` lines 52-72, `Parse` after the description has been read: `ts` are tokens, `defs` are node
definitions (nil if undefined); `order1`, `order2`, `order3` are iteration orders of `nti` in `findUndefinedNodes` and
`resolveDependencies`. -/
def compile (upper : List Nat → List Nat) (find : Nat → List Nat → List Nat) (ts : List GToken)
    (defs : List (Option Chunk)) (order1 order2 order3 : List Nat) (fuel : Nat) : Run (Except CompileErr Grammar) :=
  match assignTokenTypes upper find ts with
  | .error name => .done (.error (.tokenTypes name))
  | .ok ttypes =>
    match findUndefinedNodes (fun i => (defs[i]?).getD none) order1 with
    | i :: is => .done (.error (.undefinedNodes (i :: is)))
    | [] =>
      let bodies := defs.filterMap id
      let body := fun i => (bodies[i]?).getD .eoi
      Tree.bindRun (findUnusedNodes (fun i => (body i).nodes) bodies.length fuel) fun unused =>
        match unused with
        | i :: is => .done (.error (.unusedNodes (i :: is)))
        | [] =>
          Tree.bindRun (resolveDependencies body (fun i => (body i).nodes) order2 order3 fuel) fun r =>
            match r with
            | .error l => .done (.error (.unresolved l))
            | .ok ft =>
              orPanic (buildNodes ft bodies {}) fun b =>
                Tree.bindRun (findRecursions (fun i => nestedNodes b.1 ((b.2[i]?).getD 0)
                    (sorted (b.1.keysOf ((b.2[i]?).getD 0)))) bodies.length fuel) fun rec =>
                  match rec with
                  | i :: is => .done (.error (.recursion (i :: is)))
                  | [] =>
                    orPanic (assignStateTypes (sideTypes ts) ttypes b.2 b.1) fun pr =>
                      orPanic (pr.buildGrammar b.2) fun r =>
                        .done (.ok { tokens := ts, firsts := r.2, tables := r.1 })

end Verif.Model
