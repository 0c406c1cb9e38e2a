/-
Model of the end of `tree/tree.go`: syntax trees built by hook instances while a source is parsed.

An element created during a call of a hook is identified by the position of this call in the log, so the number is not
used by any other element; a hook instance is identified by its node element. Heaps are obtained by repeating the calls
of layer 0 from the log one after another.
-/
import Verif.Model.Parser
import Verif.Model.Tree

namespace Verif.Model.Tree

/-- `/repo/tree/tree.go` lines 688-691, `NewTokenElement`; the type name of the element is that of the token
(lines 697-699). -/
def newTokenElement (t : Token) : Elem := ⟨false, t.typeName, some t, none, none, none, none, none⟩

/-- `/repo/tree/tree.go` lines 737-740, `NewNodeElement`. -/
def newNodeElement (typeName : String) (t : Option Token) : Elem := ⟨true, typeName, t, none, none, none, none, none⟩

/-- What a call of layer 0 made at moment `k` does to elements, `/repo/tree/tree.go`: lines 867-871 and 840-842
(`NodeHook`, `NewHookInstance`), 844-846 (`NewNode`), 848-856 (`HandleNode`), 858-861 (`HandleToken`), 863-865
(`EndNode`). `names` are names of nodes. -/
def treeCall (names : Nat → String) (h : Heap) (k : Nat) : Event → Heap
  | .make 0 node tok => h.set k (newNodeElement (names node) tok)
  | .token 0 inst tok => addChild (h.set k (newTokenElement tok)) inst (some k) none
  | .handleNode 0 inst _ (some res) => addChild h inst (some res) none
  | _ => h

/-- No elements yet. -/
def noElements : Heap := fun _ => ⟨false, "", none, none, none, none, none, none⟩

/-- Elements after all calls. -/
def treeHeap (names : Nat → String) (log : List Event) : Heap :=
  log.zipIdx.foldl (fun h p => treeCall names h p.2 p.1) noElements

end Verif.Model.Tree

namespace Verif.Model

variable {σ : Type}

/-- The only hook of layer 0 is `tree.NodeHook` for any node: an instance is made for every node (`/repo/tree/tree.go`
lines 867-871), `HandleNode` returns an error (number 0) if the result is not an element (lines 848-852), `EndNode` returns
the node element (lines 863-865). Hooks of other layers are arbitrary. -/
def withTree (env : PEnv σ) : PEnv σ :=
  { env with
    watchNodes := true
    layers := max 1 env.layers
    hooked := fun l i => l == 0 || env.hooked l i
    onMake := fun log e => match e with
      | .make 0 _ _ => .ok true
      | e => env.onMake log e
    onCall := fun log e => match e with
      | .newNode 0 _ _ _ => .ok none
      | .token 0 _ _ => .ok none
      | .endNode 0 inst => .ok (some inst)
      | .handleNode 0 _ _ none => .error 0
      | .handleNode 0 _ _ (some _) => .ok none
      | e => env.onCall log e }

end Verif.Model
