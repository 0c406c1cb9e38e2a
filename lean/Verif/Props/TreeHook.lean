/-
C34: syntax trees built by `tree.NodeHook`.
-/
import Verif.Proof.TreeHook
import Verif.Props.ParseTree
import Verif.Props.Tree

namespace Verif.Props

open Verif.Model Verif.Spec Verif.Proof

variable {σ : Type}

/-- C34: for any grammar, token pipeline and other hook layers, a successful parse with `tree.NodeHook` for any node in
layer 0 returns the root of a well-formed tree: links of elements show a forest, the root has no parent, `t` is the tree
below the root, no element is met twice, the tree repeats the parse tree element by element (types and initial tokens of
nodes included), and the tokens of its leaves are the consumed tokens in order. -/
theorem C34_tree (env : PEnv σ) (names : Nat → String) (fuel : Nat) (src : σ) (pos : SrcPos) (pc : PC σ)
    (h : parse (withTree env) fuel src pos = .done (.ok pc)) :
    ∃ (F : Trees.Forest) (t : Trees.Tree) (items : List Item) (hooks results : List (Option Nat)),
      NodeRun (withTree env) 0 (some (rootToken pos)) items [] hooks results pc.log ∧
      pc.lastResult = some t.id ∧ Shows (Tree.treeHeap names pc.log) F ∧
      (Tree.treeHeap names pc.log t.id).parent = none ∧ t.Of F ∧ t.elements.Nodup ∧
      Built (lookAt (Tree.treeHeap names pc.log)) names t (.node 0 (some (rootToken pos)) items) ∧
      (t.tokens (Tree.kinds (Tree.treeHeap names pc.log))).map (fun x => (Tree.treeHeap names pc.log x).token) =
        ((consumedBy pc.steps).reduceOption).map some := by
  obtain ⟨items, hooks, results, h1, h2, h3⟩ := C33_notifications (withTree env) fuel src pos pc h
  obtain ⟨-, h4⟩ := nodeRun_grows (withTree_hooks env) names h1
  obtain ⟨F, t, g, -, -, -, k4, k5, -, k7, rs, rfl⟩ := h4 _ grown_start
  refine ⟨F, t, items, hooks, _, h1, ?_, shows_of_rep g.rep, ?_, k4, Tree.nodup_elements g.rep t k4, k7, ?_⟩
  · cases h1 with
    | mk hm _ _ =>
      obtain ⟨hs, -, rfl, -, -⟩ := makes_tree (withTree_hooks env) hm
      obtain ⟨rs', hrs⟩ := h3 rfl _ _ rfl
      simp only [List.cons.injEq] at hrs
      exact hrs.1.symm
  · cases hq : (Tree.treeHeap names pc.log t.id).parent with
    | none => rfl
    | some m => exact absurd ((g.rep.parent m _).1 hq) (k5 m)
  · rw [built_tokens t _ k7, Item.leaves, h2]

/-- The tree built for the input `a1 b2` by the grammar `root = {foo}; foo = $n, $d` with a second layer of hooks. -/
example : (match sampleCompile sampleHooks with
    | .done (.ok g) => match parse (withTree (hookedEnv g)) 100 (charTokens "a1 b2") ⟨none, 0⟩ with
      | .done (.ok pc) =>
        let h := Tree.treeHeap (fun i => if i = 0 then "root" else "foo") pc.log
        decide (pc.lastResult = some 0 ∧ (h 0).typeName = "root" ∧ (h 0).firstChild = some 2 ∧ (h 2).typeName = "foo" ∧
          (h 2).next = some 8 ∧ (h 8).token = some ⟨2, "", [32], ⟨none, 0⟩⟩ ∧ (h 8).next = some 10 ∧ (h 10).next = none ∧
          (h 0).lastChild = some 10 ∧ (h 10).parent = some 0 ∧ (h 2).firstChild = some 4 ∧ (h 4).next = some 5 ∧
          (h 5).token = some ⟨1, "", [49], ⟨none, 0⟩⟩ ∧ (h 2).token = some ⟨0, "", [97], ⟨none, 0⟩⟩)
      | _ => false
    | _ => false) = true := by decide +kernel

end Verif.Props
