/-
C33: notifications of node hooks.
-/
import Verif.Proof.Hooks
import Verif.Proof.ParseTree
import Verif.Props.Samples

namespace Verif.Props

open Verif.Model Verif.Spec Verif.Proof

variable {σ : Type}

/-- The token passed to the hook of the root node. -/
def rootToken (pos : SrcPos) : Token := { type := -1, typeName := "", content := [], pos := pos }

theorem parse_closed {env : PEnv σ} {P : Option Token → Int → Rule → Prop} {I : PC σ → Option Token → Prop} {J : PC σ → Prop}
    (hinv : LoopInv env I J)
    (hP : ∀ {fuel : Nat} {pc pc1 : PC σ} {tok : Option Token} {node : NodeRec} {rest : List NodeRec} {r : Rule}, I pc tok →
      pc.stack = node :: rest → nextRule env fuel pc tok node.state = .done (pc1, some r) → P tok node.state r)
    {fuel : Nat} {src : σ} {pos : SrcPos} {pc : PC σ}
    (h0 : ∀ pc0, pushNode env { src := src } rootNode (some (rootToken pos)) = .done (.ok pc0) → J pc0)
    (h : parse env fuel src pos = .done (.ok pc)) :
    ∃ items, Closed env P (some (rootToken pos)) items pc.log pc.lastResult ∧
      leavesOf items = (consumedBy pc.steps).reduceOption ∧ ∀ x ∈ items, Tidy env.g x := by
  obtain ⟨pc1, tok, b, h1, h2, h3⟩ := parse_inv (tree_inv (st0 := some (rootToken pos)) hinv hP) h
    (fun pc0 h => ⟨h0 pc0 h, treeInv_start h⟩)
  obtain ⟨src', ts, dl, read, rfl, -⟩ := finish_spec h3
  cases b with
  | true =>
    have h4 := h2.2
    unfold TreeInv at h4
    rw [h1] at h4
    exact h4
  | false =>
    have h4 := h2.2
    unfold TreeInv at h4
    rw [h1] at h4
    exact h4

theorem trivial_inv (env : PEnv σ) : LoopInv env (fun _ _ => True) (fun _ => True) where
  token := fun _ _ _ => trivial
  step := by intro _ _ _ _ _ _ _ _ b _ _ _ _; cases b <;> trivial

/-- C33: for any grammar, token pipeline and hooks, the notifications of a successful parse are those of a tree: a node is
opened (all its hooks called), its content is told in order (for a nested node: `NewNode`, everything about the nested
node, then `HandleNode` with what `EndNode` of the nested instance of the same layer returned), and then it is ended. The
leaves of the tree are the consumed tokens in order (side tokens included if they are passed). With node hooks the result
of the parse is the result of the root node in the first layer. -/
theorem C33_notifications (env : PEnv σ) (fuel : Nat) (src : σ) (pos : SrcPos) (pc : PC σ)
    (h : parse env fuel src pos = .done (.ok pc)) :
    ∃ items hooks results, NodeRun env 0 (some (rootToken pos)) items [] hooks results pc.log ∧
      leavesOf items = (consumedBy pc.steps).reduceOption ∧
      (env.watchNodes = true → ∀ i hs, hooks = some i :: hs → ∃ rs, results = pc.lastResult :: rs) := by
  obtain ⟨items, ⟨hooks, results, h1, -, h3⟩, h4, -⟩ := parse_closed (P := fun _ _ _ => True) (trivial_inv env)
    (fun _ _ _ => trivial) (fun _ _ => trivial) h
  exact ⟨items, hooks, results, h1, h4, h3⟩

/-- C33: places of side tokens. The notifications of a successful parse are those of a tree where side tokens do not end
a nested node, and do not begin a nested node entered with an ordinary token: they are told to an outer node. -/
theorem C33_side_places (env : PEnv σ) (fuel : Nat) (src : σ) (pos : SrcPos) (pc : PC σ)
    (h : parse env fuel src pos = .done (.ok pc)) :
    ∃ items hooks results, NodeRun env 0 (some (rootToken pos)) items [] hooks results pc.log ∧
      leavesOf items = (consumedBy pc.steps).reduceOption ∧ ∀ x ∈ items, Tidy env.g x := by
  obtain ⟨items, ⟨hooks, results, h1, -, -⟩, h4, h5⟩ := parse_closed (P := fun _ _ _ => True) (trivial_inv env)
    (fun _ _ _ => trivial) (fun _ _ => trivial) h
  exact ⟨items, hooks, results, h1, h4, h5⟩

/-- C33: `EndNode` is called exactly once for every instance made by a hook (and for nothing else). -/
theorem C33_ended_once (env : PEnv σ) (fuel : Nat) (src : σ) (pos : SrcPos) (pc : PC σ)
    (h : parse env fuel src pos = .done (.ok pc)) (l i : Nat) :
    (Made env pc.log l i → ended l i pc.log = 1) ∧ (¬ Made env pc.log l i → ended l i pc.log = 0) := by
  obtain ⟨items, hooks, results, h1, -, -⟩ := C33_notifications env fuel src pos pc h
  obtain ⟨es, h2, h3, h4⟩ := nodeRun_ended h1 l i
  rw [List.nil_append] at h2
  subst h2
  exact ⟨fun h => h3 ⟨Nat.zero_le _, h⟩, fun h => h4 (fun hx => h hx.2)⟩

/-- C33: a layer that has an instance for every node is told about exactly the consumed tokens, in order. -/
theorem C33_layer_tokens (env : PEnv σ) (fuel : Nat) (src : σ) (pos : SrcPos) (pc : PC σ)
    (h : parse env fuel src pos = .done (.ok pc)) (l : Nat) (hl : FullLayer env l) :
    layerTokens l pc.log = (consumedBy pc.steps).reduceOption := by
  obtain ⟨items, hooks, results, h1, h2, -⟩ := C33_notifications env fuel src pos pc h
  rw [nodeRun_tokens hl h1, ← h2]
  rfl

/-- Two layers of hooks: the first one for every node, the second one only for node 1 and only when it starts with "b";
every `EndNode` returns the number of calls before it. -/
def hookedEnv (g : Grammar) : PEnv (List Token) :=
  { streamEnv g with
    passSides := true
    watchNodes := true
    layers := 2
    hooked := fun l i => l = 0 ∨ i = 1
    onMake := fun _ e => match e with
      | .make 1 _ tok => .ok (tok.any fun t => t.content = [98])
      | _ => .ok true
    onCall := fun log e => match e with
      | .endNode _ _ => .ok (some log.length)
      | _ => .ok none }

/-- `root = {foo}; foo = $n, $d`. -/
def sampleHooks : List Chunk := [cSeq [cRep [.node 1]], cSeq [.token 0, .token 1]]

/-- Events of layers on the input `a1 b2`. -/
example : (match sampleCompile sampleHooks with
    | .done (.ok g) => match parse (hookedEnv g) 100 (charTokens "a1 b2") ⟨none, 0⟩ with
      | .done (.ok pc) => decide (pc.log = [
          .make 0 0 (some (rootToken ⟨none, 0⟩)),
          .newNode 0 0 1 (some ⟨0, "", [97], ⟨none, 0⟩⟩),
          .make 0 1 (some ⟨0, "", [97], ⟨none, 0⟩⟩),
          .make 1 1 (some ⟨0, "", [97], ⟨none, 0⟩⟩),
          .token 0 2 ⟨0, "", [97], ⟨none, 0⟩⟩,
          .token 0 2 ⟨1, "", [49], ⟨none, 0⟩⟩,
          .endNode 0 2,
          .handleNode 0 0 1 (some 6),
          .token 0 0 ⟨2, "", [32], ⟨none, 0⟩⟩,
          .newNode 0 0 1 (some ⟨0, "", [98], ⟨none, 0⟩⟩),
          .make 0 1 (some ⟨0, "", [98], ⟨none, 0⟩⟩),
          .make 1 1 (some ⟨0, "", [98], ⟨none, 0⟩⟩),
          .token 0 10 ⟨0, "", [98], ⟨none, 0⟩⟩,
          .token 1 11 ⟨0, "", [98], ⟨none, 0⟩⟩,
          .token 0 10 ⟨1, "", [50], ⟨none, 0⟩⟩,
          .token 1 11 ⟨1, "", [50], ⟨none, 0⟩⟩,
          .endNode 0 10,
          .endNode 1 11,
          .handleNode 0 0 1 (some 16),
          .endNode 0 0] ∧ pc.lastResult = some 19 ∧ layerTokens 0 pc.log = charTokens "a1 b2")
      | _ => false
    | _ => false) = true := by decide +kernel

example (g : Grammar) : FullLayer (hookedEnv g) 0 := ⟨by simp [hookedEnv], fun _ => ⟨by simp [hookedEnv], by simp [hookedEnv]⟩⟩

end Verif.Props
