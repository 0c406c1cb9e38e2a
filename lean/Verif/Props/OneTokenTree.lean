/-
C64: the tree built by `tree.NodeHook` is the described one.
-/
import Verif.Props.OneToken

namespace Verif.Props

open Verif.Model Verif.Spec Verif.Spec.Ebnf Verif.Proof

variable {σ : Type}

/-- C64, partial: let the grammar be compiled and one token be enough to choose a rule in it, and let `tree.NodeHook` be set for any
node. Then for any described input the parser returns (the only result of layer 0) the root of a well-formed tree of elements which
repeats the described tree: the same nodes with the same names, the same ordinary tokens in the same places; side tokens are
somewhere between them. Missing: the same as in `C62_described_tree_is_told_partial`, exact places of side tokens. -/
theorem C64_described_tree_is_built_partial {upper : List Nat → List Nat} {find : Nat → List Nat → List Nat} {ts a b c : List GToken}
    {bodies : List Chunk} {order1 order2 order3 : List Nat} {fuel : Nat} {g : Grammar}
    (h : Compiled upper find ts bodies order1 order2 order3 fuel g) (hloop : ∀ c ∈ bodies, LoopOk true c)
    (hsafe : SafeMachines bodies order2 order3 fuel) (hd : DistinctLiterals g)
    (hlay : Layout ts a b c) (hlen : a.length + b.length ≤ 64) (hup : ∀ l, upper (upper l) = upper l)
    (hcase : ∀ (j : Nat) (rt : GToken) l, ts[j]? = some rt → rt.re.isSome = true → rt.flags.caseless = true → find j l = l →
      find j (upper l) = upper l)
    (hone : OneTokenGrammar upper find g)
    (env : PEnv σ) (henv : env.g = g) (hupper : env.upper = upper) (hh : HooksPass env) {asks : TokenTypeSet → Prop} {Q : σ → List Token → Prop} (hs : Supplies env.pull asks Q)
    {root : Chunk} (hroot : bodies[rootNode]? = some root) {w : List Sym} (hw : w ∈ lang root) {items : List Item}
    (hsp : Spells (fun x t => Stands g upper x t ∧ g.isSideType t.type = false) (fun t => g.isSideType t.type = true)
      (fun i u => u ≠ [] ∧ ∃ c, bodies[i]? = some c ∧ u ∈ lang c) w items)
    (hfetched : ∀ t ∈ leavesOf items, Fetched find ts t)
    {q : σ} {toks : List Token} (hq : Q q toks) (hts : toks.filter (fun t => t.type ≠ eofTokenType) = leavesOf items) (pos : SrcPos)
    (names : Nat → String) :
    ∃ N, ∀ fuel', N ≤ fuel' → ∃ (pc : PC σ) (items' : List Item) (F : Trees.Forest) (t : Trees.Tree),
      parse (withTree env) fuel' q pos = .done (.ok pc) ∧ pc.lastResult = some t.id ∧
      Shows (Tree.treeHeap names pc.log) F ∧ (Tree.treeHeap names pc.log t.id).parent = none ∧ t.Of F ∧ t.elements.Nodup ∧
      Built (lookAt (Tree.treeHeap names pc.log)) names t (.node 0 (some (rootToken pos)) items') ∧
      dropSides g items' = started (dropSides g items) := by
  subst henv hupper
  obtain ⟨node, next, after, hp, h1⟩ := hone
  obtain ⟨hm, hc, ⟨heads, ho⟩, -, -⟩ := compiled_tables h hloop hsafe
  obtain ⟨⟨first, hfirst, hacc⟩, hsp'⟩ := described_readable h hloop hsafe hlay hlen hup hcase hroot hw hsp hfetched
  obtain ⟨N, hN⟩ := machines_told (env := withTree env) hm hd hc ho hp h1 (withTree_answer hh) hs hfirst hacc hsp' hq hts pos
  refine ⟨N, fun fuel' hle => ?_⟩
  obtain ⟨pc, h2, items', h3, h4⟩ := hN fuel' hle
  obtain ⟨F, t, h5⟩ := tree_of_closed names h3
  exact ⟨pc, items', F, t, h2, h5.1, h5.2.1, h5.2.2.1, h5.2.2.2.1, h5.2.2.2.2.1, h5.2.2.2.2.2, h4⟩

/-- The tree of the input `1yx y` of `root = {item}, 'y'; item = $d, ['y'], item | 'x'`. -/
example : ∃ g, sampleCompile sampleOne = .done (.ok g) ∧
    ∃ N, ∀ fuel, N ≤ fuel → ∃ (pc : PC (List Token)) (items' : List Item) (F : Trees.Forest) (t : Trees.Tree),
      parse (withTree (pickyEnv g)) fuel (charTokens "1yx y") ⟨none, 0⟩ = .done (.ok pc) ∧ pc.lastResult = some t.id ∧
      Shows (Tree.treeHeap toString pc.log) F ∧ (Tree.treeHeap toString pc.log t.id).parent = none ∧ t.Of F ∧ t.elements.Nodup ∧
      Built (lookAt (Tree.treeHeap toString pc.log)) toString t (.node 0 (some (rootToken ⟨none, 0⟩)) items') ∧
      dropSides g items' = onePlain := by
  obtain ⟨g, h1, h2, h3, h4, h5, h6, h7, h8, h9⟩ := sampleOne_ready
  refine ⟨g, h1.ok, ?_⟩
  rw [← h9]
  exact C64_described_tree_is_built_partial (a := sampleTokens.take 3) (b := []) (c := sampleTokens.drop 3) h1 h2 h3 h4
    ⟨by decide, by decide, by decide, by decide⟩ (by decide) (fun l => rfl) (fun j rt l _ _ _ h => h) h5 (pickyEnv g) rfl rfl
    ⟨fun log e => ⟨none, rfl⟩, fun log e => ⟨false, rfl⟩⟩ (picky_supplies g) rfl h6 h7 h8 rfl (by decide) _ _

end Verif.Props
