/-
C69: node hooks compute a fold of the parse tree.
-/
import Verif.Proof.Fold
import Verif.Props.OneTokenTree

namespace Verif.Props

open Verif.Model Verif.Spec Verif.Spec.Ebnf Verif.Proof

variable {σ ι ρ : Type}

/-- C69: let hook instances of layer 0 be objects with their own states, one for every node; grammars, token pipelines and other hook
layers are arbitrary. Then the result of a successful parse is the fold of the parse tree: an instance of a node is told about its tokens
and results of nested nodes from left to right, the result is what its `EndNode` returns. Leaves of the tree are the consumed tokens. -/
theorem C69_result_is_fold (c : HookClass ι ρ) (env : PEnv σ) (fuel : Nat) (src : σ) (pos : SrcPos) (pc : PC σ)
    (h : parse (withObjects c env) fuel src pos = .done (.ok pc)) :
    ∃ items k r, leavesOf items = (consumedBy pc.steps).reduceOption ∧ pc.lastResult = some k ∧
      (objectsAfter c pc.log).vals k = some r ∧ c.node 0 (some (rootToken pos)) items = .ok r := by
  obtain ⟨items, hooks, results, h1, h2, h3⟩ := C33_notifications (withObjects c env) fuel src pos pc h
  obtain ⟨-, -, k, r, rs, rfl, h4, h5⟩ := nodeRun_folds h1
  refine ⟨items, k, r, h2, ?_, h4, h5⟩
  cases h1 with
  | mk hm _ _ =>
    obtain ⟨hs, n, rfl, -⟩ := makes_object hm
    obtain ⟨rs', hrs⟩ := h3 rfl _ _ rfl
    simp only [List.cons.injEq] at hrs
    exact hrs.1.symm

mutual
theorem item_dropSides {c : HookClass ι ρ} {g : Grammar} (hc : ∀ s t, g.isSideType t.type = true → c.token s t = .ok s) (s : ι) :
    ∀ i : Item, c.items s (dropSides g [i]) = c.item s i
  | .tok t => by
    rw [dropSides, dropSides, HookClass.item]
    split
    · rename_i h
      rw [HookClass.items, hc s t h]
    · rw [HookClass.items]
      simp only [HookClass.item, HookClass.items]
      cases c.token s t <;> rfl
  | .node i start its => by
    rw [dropSides, dropSides, HookClass.items]
    simp only [HookClass.item, HookClass.items]
    have : ∀ n, c.items n (dropSides g its) = c.items n its := fun n => items_dropSides hc n its
    simp only [this]
    generalize orStop (c.newNode s i start) _ = x
    cases x <;> rfl
theorem items_dropSides {c : HookClass ι ρ} {g : Grammar} (hc : ∀ s t, g.isSideType t.type = true → c.token s t = .ok s) (s : ι) :
    ∀ items : List Item, c.items s (dropSides g items) = c.items s items
  | [] => by rw [dropSides]
  | i :: is => by
    have h1 := item_dropSides hc s i
    have h2 : ∀ s, c.items s (dropSides g is) = c.items s is := fun s => items_dropSides hc s is
    rw [HookClass.items, ← h1]
    match i with
    | .tok t =>
      simp only [dropSides]
      split
      · simp only [HookClass.items, orStop]; exact h2 s
      · simp only [HookClass.items, HookClass.item]
        cases c.token s t with
        | error e => rfl
        | ok s' => exact h2 s'
    | .node j start its =>
      simp only [dropSides, HookClass.items]
      cases c.item s (.node j start (dropSides g its)) with
      | error e => rfl
      | ok s' => exact h2 s'
end

/-- Methods never return errors. -/
structure NeverFails (c : HookClass ι ρ) : Prop where
  make : ∀ i t, ∃ s, c.make i t = .ok s
  newNode : ∀ s i t, ∃ s', c.newNode s i t = .ok s'
  token : ∀ s t, ∃ s', c.token s t = .ok s'
  handleNode : ∀ s i r, ∃ s', c.handleNode s i r = .ok s'
  endNode : ∀ s, ∃ r, c.endNode s = .ok r

theorem withObjects_pass {c : HookClass ι ρ} (hc : NeverFails c) {env : PEnv σ} (hh : HooksPass env) : HooksPass (withObjects c env) := by
  have hm : ∀ {α β : Type} {x : Except Nat α} (f : α → β), (∃ a, x = .ok a) → ∃ b, x.map f = .ok b := by
    rintro α β x f ⟨a, rfl⟩; exact ⟨_, rfl⟩
  have hcall : ∀ o k e, ∃ o', objectCall c o k e = .ok o' := by
    intro o k e
    unfold objectCall
    split
    · exact hm _ (hc.make _ _)
    · split
      · exact hm _ (hc.newNode _ _ _)
      · exact ⟨_, rfl⟩
    · split
      · exact hm _ (hc.token _ _)
      · exact ⟨_, rfl⟩
    · split
      · exact hm _ (hc.endNode _)
      · exact ⟨_, rfl⟩
    · split
      · exact hm _ (hc.handleNode _ _ _)
      · exact ⟨_, rfl⟩
    · exact ⟨_, rfl⟩
  refine ⟨fun log e => ?_, fun log e => ?_⟩
  · simp only [withObjects]
    split
    · exact hm _ (hcall _ _ _)
    · exact hm _ (hcall _ _ _)
    · exact hm _ (hcall _ _ _)
    · exact hm _ (hcall _ _ _)
    · exact hh.1 _ _
  · simp only [withObjects]
    split
    · exact hm _ (hcall _ _ _)
    · exact hh.2 _ _

theorem fold_of_closed {c : HookClass ι ρ} {env : PEnv σ} {st0 : Option Token} {items : List Item} {log : List Event} {last : Option Nat}
    {P : Option Token → Int → Rule → Prop} (h : Closed (withObjects c env) P st0 items log last) :
    ∃ k r, last = some k ∧ (objectsAfter c log).vals k = some r ∧ c.node 0 st0 items = .ok r := by
  obtain ⟨hooks, results, h1, -, h3⟩ := h
  obtain ⟨-, -, k, r, rs, rfl, h4, h5⟩ := nodeRun_folds h1
  refine ⟨k, r, ?_, h4, h5⟩
  cases h1 with
  | mk hm _ _ =>
    obtain ⟨hs, n, rfl, -⟩ := makes_object hm
    obtain ⟨rs', hrs⟩ := h3 rfl _ _ rfl
    simp only [List.cons.injEq] at hrs
    exact hrs.1.symm

/-- C69, partial: let the grammar be compiled and one token be enough to choose a rule in it, let methods of the hook class never fail
and ignore side tokens. Then for any described input the parser returns the fold of the described tree (without side tokens; the
initial token of a nested node is its first token). Missing: the same as in `C62_described_tree_is_told_partial`. -/
theorem C69_described_value_partial {upper : List Nat → List Nat} {find : Nat → List Nat → List Nat} {ts a b c : List GToken}
    {bodies : List Chunk} {order1 order2 order3 : List Nat} {fuel : Nat} {g : Grammar}
    (h : Compiled upper find ts bodies order1 order2 order3 fuel g) (hloop : ∀ c ∈ bodies, LoopOk true c)
    (hsafe : SafeMachines bodies order2 order3 fuel) (hd : DistinctLiterals g)
    (hlay : Layout ts a b c) (hlen : a.length + b.length ≤ 64) (hup : ∀ l, upper (upper l) = upper l)
    (hcase : ∀ (j : Nat) (rt : GToken) l, ts[j]? = some rt → rt.re.isSome = true → rt.flags.caseless = true → find j l = l →
      find j (upper l) = upper l)
    (hone : OneTokenGrammar upper find g)
    (env : PEnv σ) (henv : env.g = g) (hupper : env.upper = upper) (hh : HooksPass env) {asks : TokenTypeSet → Prop} {Q : σ → List Token → Prop} (hs : Supplies env.pull asks Q)
    {root : Chunk} (hroot : bodies[rootNode]? = some root) {w : List Sym} (hw : w ∈ lang root) {items : List Item}
    (hsp : Spells (fun x t => Stands g upper x t ∧ g.isSideType t.type = false) (fun t => g.isSideType t.type = true)
      (fun i u => u ≠ [] ∧ ∃ c, bodies[i]? = some c ∧ u ∈ lang c) w items)
    (hfetched : ∀ t ∈ leavesOf items, Fetched find ts t)
    {q : σ} {toks : List Token} (hq : Q q toks) (hts : toks.filter (fun t => t.type ≠ eofTokenType) = leavesOf items) (pos : SrcPos)
    (cl : HookClass ι ρ) (hcl : NeverFails cl) (hside : ∀ s t, g.isSideType t.type = true → cl.token s t = .ok s) :
    ∃ N, ∀ fuel', N ≤ fuel' → ∃ (pc : PC σ) (k : Nat) (r : ρ),
      parse (withObjects cl env) fuel' q pos = .done (.ok pc) ∧ pc.lastResult = some k ∧ (objectsAfter cl pc.log).vals k = some r ∧
      cl.node 0 (some (rootToken pos)) (started (dropSides g items)) = .ok r := by
  subst henv hupper
  obtain ⟨node, next, after, hp, h1⟩ := hone
  obtain ⟨hm, hc, ⟨heads, ho⟩, -, -⟩ := compiled_tables h hloop hsafe
  obtain ⟨⟨first, hfirst, hacc⟩, hsp'⟩ := described_readable h hloop hsafe hlay hlen hup hcase hroot hw hsp hfetched
  obtain ⟨N, hN⟩ := machines_told (env := withObjects cl env) hm hd hc ho hp h1 (hooks_answer (withObjects_pass hcl hh)) hs hfirst hacc
    hsp' hq hts pos
  refine ⟨N, fun fuel' hle => ?_⟩
  obtain ⟨pc, h2, items', h3, h4⟩ := hN fuel' hle
  obtain ⟨k, r, h5, h6, h7⟩ := fold_of_closed h3
  refine ⟨pc, k, r, h2, h5, h6, ?_⟩
  have h4' : dropSides env.g items' = started (dropSides env.g items) := h4
  rw [HookClass.node] at h7 ⊢
  rw [← h4']
  rw [show (fun n => orStop (cl.items n (dropSides env.g items')) cl.endNode) = fun n => orStop (cl.items n items') cl.endNode from
    funext fun n => by rw [items_dropSides hside]]
  exact h7

/-- Every instance writes down its tokens; values of nested nodes are enclosed in parentheses, side tokens are ignored. -/
def bracketed (g : Grammar) : HookClass (List Nat) (List Nat) where
  make _ _ := .ok []
  newNode s _ _ := .ok s
  token s t := .ok (if g.isSideType t.type = true then s else s ++ t.content)
  handleNode s _ r := .ok (s ++ [40] ++ r ++ [41])
  endNode s := .ok s

/-- The value of the input `1yx y` of `root = {item}, 'y'; item = $d, ['y'], item | 'x'` is `(1y(x))y`. -/
example : ∃ g, sampleCompile sampleOne = .done (.ok g) ∧
    ∃ N, ∀ fuel, N ≤ fuel → ∃ (pc : PC (List Token)) (k : Nat),
      parse (withObjects (bracketed g) (pickyEnv g)) fuel (charTokens "1yx y") ⟨none, 0⟩ = .done (.ok pc) ∧ pc.lastResult = some k ∧
      (objectsAfter (bracketed g) pc.log).vals k = some ("(1y(x))y".toList.map Char.toNat) := by
  obtain ⟨g, h1, h2, h3, h4, h5, h6, h7, h8, h9⟩ := sampleOne_ready
  refine ⟨g, h1.ok, ?_⟩
  obtain ⟨N, hN⟩ := C69_described_value_partial (q := charTokens "1yx y") (toks := charTokens "1yx y") (a := sampleTokens.take 3) (b := []) (c := sampleTokens.drop 3) h1 h2 h3 h4
    ⟨by decide, by decide, by decide, by decide⟩ (by decide) (fun l => rfl) (fun j rt l _ _ _ h => h) h5 (pickyEnv g) rfl rfl
    ⟨fun log e => ⟨none, rfl⟩, fun log e => ⟨false, rfl⟩⟩ (picky_supplies g) rfl h6 h7 h8 rfl (by decide) ⟨none, 0⟩
    (bracketed g) ⟨fun _ _ => ⟨_, rfl⟩, fun _ _ _ => ⟨_, rfl⟩, fun _ _ => ⟨_, rfl⟩, fun _ _ _ => ⟨_, rfl⟩, fun _ => ⟨_, rfl⟩⟩
    (fun s t h => by simp only [bracketed, h, if_true])
  refine ⟨N, fun fuel hle => ?_⟩
  obtain ⟨pc, k, r, k1, k2, k3, k4⟩ := hN fuel hle
  refine ⟨pc, k, k1, k2, ?_⟩
  rw [k3]
  have hval : ∀ g', sampleCompile sampleOne = .done (.ok g') → (bracketed g').node 0 (some (rootToken ⟨none, 0⟩)) onePlain =
      .ok ("(1y(x))y".toList.map Char.toNat) := by
    have hc : (match sampleCompile sampleOne with
      | .done (.ok g) => (bracketed g).node 0 (some (rootToken ⟨none, 0⟩)) onePlain |>.toOption |> (· == some ("(1y(x))y".toList.map Char.toNat))
      | _ => false) = true := by decide +kernel
    intro g' hg
    rw [hg] at hc
    dsimp only at hc
    revert hc
    cases (bracketed g').node 0 (some (rootToken ⟨none, 0⟩)) onePlain <;> simp [Except.toOption]
  rw [h9, hval g h1.ok] at k4
  cases k4
  rfl

end Verif.Props
