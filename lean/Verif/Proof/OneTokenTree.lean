/-
The parser with `tree.NodeHook` follows a run of the node machines.
-/
import Verif.Proof.OneTokenParse
import Verif.Proof.TreeHook
import Verif.Props.Tree

namespace Verif.Proof

open Verif.Model Verif.Spec Verif.Props

variable {σ : Type}

theorem alive_tree {env : PEnv σ} {hooks : List (Option Nat)} (h : Alive (withTree env) hooks) : ∃ i hs, hooks = some i :: hs := by
  obtain ⟨index, tok, log, log', h⟩ := h
  have ht := withTree_hooks env
  obtain ⟨n, hn⟩ : ∃ n, (withTree env).layers = n + 1 := ⟨(withTree env).layers - 1, by have := ht.layers; omega⟩
  rw [hn, List.range_succ_eq_map, makeHooks, if_pos (ht.hooked index), ht.made] at h
  dsimp only at h
  split at h
  · cases h
  · cases h
    exact ⟨_, _, rfl⟩

theorem endHooks_tree {env : PEnv σ} {i : Nat} {hs : List (Option Nat)} {log0 log1 : List Event} {last0 last1 : Option Nat}
    {res : List (Option Nat)} (h : endHooks (withTree env) (some i :: hs).zipIdx log0 last0 = .ok (res, log1, last1)) :
    ∃ rs, res = some i :: rs := by
  rw [List.zipIdx_cons, endHooks, (withTree_hooks env).result] at h
  dsimp only at h
  split at h
  · cases h
  · simp only [Except.ok.injEq, Prod.mk.injEq] at h
    exact ⟨_, h.1.symm⟩

/-- Trees are built without errors. -/
theorem withTree_answer {env : PEnv σ} (hh : HooksPass env) : HooksAnswer (withTree env) := by
  refine ⟨fun log e => ?_, fun log e he => ?_, fun hooks nested log0 last0 res log1 last1 h1 h2 h3 h h4 log n => ?_⟩
  · simp only [withTree]
    split
    · exact ⟨_, rfl⟩
    · exact hh.2 _ _
  · simp only [withTree]
    split
    · exact ⟨_, rfl⟩
    · exact ⟨_, rfl⟩
    · exact ⟨_, rfl⟩
    · exact absurd trivial he
    · exact absurd trivial he
    · exact hh.1 _ _
  · obtain ⟨i, hs, rfl⟩ := alive_tree h2
    obtain ⟨rs, rfl⟩ := endHooks_tree h3
    obtain ⟨l, j⟩ := h
    simp only [withTree]
    split
    · exact ⟨_, rfl⟩
    · exact ⟨_, rfl⟩
    · exact ⟨_, rfl⟩
    · rename_i heq
      simp only [Event.handleNode.injEq] at heq
      obtain ⟨rfl, -, -, h5⟩ := heq
      simp at h5
    · exact ⟨_, rfl⟩
    · exact hh.1 _ _

/-- A tree described by the node machines is told to hooks. -/
theorem machines_told {env : PEnv σ} {m : Table} {heads : Nat → Int → Prop} {node : Nat → Nat} {next after : Nat → Int → Prop}
    {also : Int → Int → Prop} {asks : TokenTypeSet → Prop} {Q : σ → List Token → Prop} (hm : Means env.g.tables m) (hd : DistinctLiterals env.g)
    (hc : RulesClosed env.g m) (ho : Opens env.g m heads) (hp : Predicts env.g m node next after)
    (h1 : OneToken env.g m node next after also) (hh : HooksAnswer env) (hs : Supplies env.pull asks Q)
    {first : Nat} (hfirst : env.g.firsts[rootNode]? = some first) {w : List Sym} (hw : Accepts m first w) {items : List Item}
    (hsp : Spells (fun x t => ∃ k : Nat, x = .tok k ∧ Readable env.g env.upper m also t k)
      (fun t => Passed env.g t ∧ env.g.isSideType t.type = true)
      (fun i u => u ≠ [] ∧ ∃ f : Nat, env.g.firsts[i]? = some f ∧ Accepts m f u) w items)
    {q : σ} {ts : List Token} (hq : Q q ts) (hts : ts.filter (fun t => t.type ≠ eofTokenType) = leavesOf items) (pos : SrcPos) :
    ∃ N, ∀ fuel, N ≤ fuel → ∃ pc, parse env fuel q pos = .done (.ok pc) ∧
      Tells env (some (rootToken pos)) (started (dropSides env.g items)) pc := by
  obtain ⟨ks, hk, -, hway⟩ := way_of_spells ho (R := fun t k => Readable env.g env.upper m also t k)
    (fun x t ⟨k, h2, h3⟩ => ⟨k, h2, h3, h3.ordinary⟩) (fun _ h => h.2) hsp
  rw [← hts] at hk
  exact run_followed hm hd hh hc ho.keys hp h1 hs hfirst hq (hk.mono (P' := Passed env.g) fun _ h => h.1).filtered pos
    (T := started (dropSides env.g items)) (by simpa using (hway first hw).2 rootNode (some (rootToken pos)) [] [] [] _ (.done))

/-- The tree of a closed run. -/
theorem rep_of_closed {env : PEnv σ} (names : Nat → String) {st0 : Option Token} {items : List Item} {log : List Event} {last : Option Nat}
    {P : Option Token → Int → Rule → Prop} (h : Closed (withTree env) P st0 items log last) :
    ∃ (F : Trees.Forest) (t : Trees.Tree), last = some t.id ∧ Tree.Rep (Tree.treeHeap names log) F ∧
      (Tree.treeHeap names log t.id).parent = none ∧ t.Of F ∧
      Built (lookAt (Tree.treeHeap names log)) names t (.node 0 st0 items) := by
  obtain ⟨hooks, results, h1, -, h3⟩ := h
  obtain ⟨-, h4⟩ := nodeRun_grows (withTree_hooks env) names h1
  obtain ⟨F, t, g, -, -, -, k4, k5, -, k7, rs, rfl⟩ := h4 _ grown_start
  refine ⟨F, t, ?_, g.rep, ?_, k4, k7⟩
  · cases h1 with
    | mk hm _ _ =>
      obtain ⟨hs, -, rfl, -, -⟩ := makes_tree (withTree_hooks env) hm
      obtain ⟨rs', hrs⟩ := h3 rfl _ _ rfl
      simp only [List.cons.injEq] at hrs
      exact hrs.1.symm
  · cases hq : (Tree.treeHeap names log t.id).parent with
    | none => rfl
    | some m => exact absurd ((g.rep.parent m _).1 hq) (k5 m)

/-- A finished run with `tree.NodeHook` gives a tree. -/
theorem tree_of_closed {env : PEnv σ} (names : Nat → String) {st0 : Option Token} {items : List Item} {log : List Event} {last : Option Nat}
    {P : Option Token → Int → Rule → Prop} (h : Closed (withTree env) P st0 items log last) :
    ∃ (F : Trees.Forest) (t : Trees.Tree), last = some t.id ∧ Shows (Tree.treeHeap names log) F ∧
      (Tree.treeHeap names log t.id).parent = none ∧ t.Of F ∧ t.elements.Nodup ∧
      Built (lookAt (Tree.treeHeap names log)) names t (.node 0 st0 items) := by
  obtain ⟨F, t, h1, h2, h3, h4, h5⟩ := rep_of_closed names h
  exact ⟨F, t, h1, shows_of_rep h2, h3, h4, Tree.nodup_elements h2 t h4, h5⟩

end Verif.Proof
