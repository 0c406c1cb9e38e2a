/-
Nested nodes of the first states of compiled nodes.
-/
import Verif.Proof.ChunkHeads
import Verif.Proof.NodeGraph

namespace Verif.Model

open Verif.Spec Verif.Spec.Ebnf PR

theorem mem_keysOf {pr : PR} (h : pr.Ok) {s : Nat} {k : Int} : k ∈ pr.keysOf s ↔ pr.rules s k ≠ [] := by
  unfold PR.keysOf PR.rules
  cases hs : pr.states[s]? with
  | none => simp
  | some e => simpa using h.keys s e k hs

theorem mem_nestedNodes {pr : PR} (h : pr.Ok) {s : Nat} {order : List Int}
    (ho : ∀ k, k ∈ order ↔ k ∈ pr.keysOf s) {j : Nat} :
    j ∈ nestedNodes pr s order ↔ ∃ k r, r ∈ pr.rules s k ∧ r.node ≠ sameNode ∧ r.node.toNat = j := by
  unfold nestedNodes
  simp only [List.mem_flatMap, List.mem_filterMap]
  constructor
  · rintro ⟨k, _, r, hr, he⟩
    by_cases hn : r.node = sameNode
    · simp [hn] at he
    · rw [if_neg hn] at he
      exact ⟨k, r, hr, hn, by simpa using he⟩
  · rintro ⟨k, r, hr, hn, he⟩
    refine ⟨k, (ho k).mpr ((mem_keysOf h).mpr (List.ne_nil_of_mem hr)), r, hr, ?_⟩
    rw [if_neg hn, he]

theorem reads_node {r : Rule} (hn : r.node ≠ sameNode) : Rule.reads r = some (.node r.node.toNat) := by
  rw [Rule.reads, if_neg hn]

theorem node_of_reads {r : Rule} {j : Nat} (h : Rule.reads r = some (.node j)) :
    r.node ≠ sameNode ∧ r.node.toNat = j := by
  rw [Rule.reads] at h
  by_cases hn : r.node = sameNode
  · rw [if_pos hn] at h
    by_cases h1 : r.token = anyToken
    · simp [h1] at h
    · rw [if_neg h1] at h
      by_cases h2 : 0 ≤ r.token
      · simp [h2] at h
      · simp [h2] at h
  · rw [if_neg hn] at h
    exact ⟨hn, by simpa using h⟩

/-- Nested nodes of first states start words of the definitions. -/
theorem nested_sound (ft : Nat → Finset Int) {bodies : List Chunk} (hwf : ∀ c ∈ bodies, WF c)
    {pr : PR} {fs : List Nat} (he : buildNodes ft bodies {} = some (pr, fs))
    {i : Nat} {c : Chunk} {s : Nat} (hc : bodies[i]? = some c) (hs : fs[i]? = some s)
    {k : Int} {r : Rule} (hr : r ∈ pr.rules s k) (hn : r.node ≠ sameNode) :
    ∃ w, (.node r.node.toNat :: w) ∈ lang c := by
  obtain ⟨pr', fs', he', hg, hl, hall⟩ := buildNodes_spec ft bodies hwf ok_empty
  rw [he] at he'
  cases he'
  obtain ⟨p, q, hp, hpl, hs', hb, hlt, hgr⟩ := hall i c s hc hs
  have hwc := hwf c (List.mem_of_getElem? hc)
  have hlen := addState_length p
  rw [hgr.other s k (by omega)] at hr
  rcases Chunk.build_heads ft c hwc (addState_ok hp) (by omega) (le_refl _) (by unfold finalState; omega) hb hr with
    hm | hm
  · rw [addState_rules, rules_of_ge (by omega)] at hm
    simp at hm
  · rw [RuleHead, reads_node hn] at hm
    rcases hm with hm | ⟨x, w, hw, hx⟩
    · simp at hm
    · cases hx
      exact ⟨w, hw⟩

/-- Nodes that start words of definitions are nested nodes of first states. -/
theorem nested_complete (ft : Nat → Finset Int) (hft : ∀ i, ∀ k ∈ ft i, 0 ≤ k) {bodies : List Chunk}
    (hwf : ∀ c ∈ bodies, WF c ∧ IsBody c ∧ NoEoi c) (hrf : ∀ c ∈ bodies, ∀ i ∈ refs c, (ft i).Nonempty)
    {pr : PR} {fs : List Nat} (he : buildNodes ft bodies {} = some (pr, fs))
    {i : Nat} {c : Chunk} {s : Nat} (hc : bodies[i]? = some c) (hs : fs[i]? = some s)
    {j : Nat} {w : List Sym} (hw : (.node j :: w) ∈ lang c) :
    ∃ k r, r ∈ pr.rules s k ∧ r.node ≠ sameNode ∧ r.node.toNat = j := by
  obtain ⟨pr', fs', he', hg, hl, hall⟩ := buildNodes_spec ft bodies (fun c hc => (hwf c hc).1) ok_empty
  rw [he] at he'
  cases he'
  obtain ⟨p, q, hp, hpl, hs', hb, hlt, hgr⟩ := hall i c s hc hs
  have hmem := List.mem_of_getElem? hc
  obtain ⟨h1, h2, h3⟩ := hwf c hmem
  obtain ⟨k, r, x, w', _, hr, hx, _, hxw⟩ := (body_follows ft hft c h1 h2 h3 (hrf c hmem) hp hs' hb
    (m := pr.rules) (fun x k _ hx => hgr.other x k (by omega)) hw).2 (by simp)
  cases hxw
  exact ⟨k, r, hr, node_of_reads hx⟩

end Verif.Model
