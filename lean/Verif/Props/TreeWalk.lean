/-
Tree traversal, token elements, selectors: C19 - C23.
-/
import Verif.Props.Tree
import Verif.Proof.TreeSelect

namespace Verif.Props

open Verif.Model Verif.Model.Tree Verif.Spec Verif.Spec.Trees Verif.Spec.Select

/-! The tree of examples: 0 (10 (1 2) 11 () 3), nodes are 0, 10, 11 -/

/-- Edits that make the tree of examples. -/
def sampleEdits : List Edit :=
  [.appendChild 0 10, .appendChild 0 11, .appendChild 0 3, .appendChild 10 1, .appendChild 10 2]

/-- Children. -/
def sampleF : Forest := sampleEdits.foldl Edit.apply Forest.empty

/-- Elements. -/
def sampleHeap : Heap := sampleEdits.foldl runEdit (blank sampleKinds)

/-- The same tree as data. -/
def sampleTree : Trees.Tree :=
  .node 0 [.node 10 [.node 1 [], .node 2 []], .node 11 [], .node 3 []]

theorem sample_edited : Edited sampleHeap sampleF := by
  refine ⟨blank sampleKinds, sampleEdits, separate_blank _, ?_, rfl⟩
  refine .cons ⟨rfl, ?_⟩ <| .cons ⟨rfl, ?_⟩ <| .cons ⟨rfl, ?_⟩ <| .cons ⟨rfl, ?_⟩ <| .cons ⟨rfl, ?_⟩ <| .nil _
  all_goals
    intro h
    have := within_of_no_kids (by decide) h
    simp at this

theorem sample_of : sampleTree.Of sampleF := by
  simp only [sampleTree, Tree.Of, Trees.allOf, List.map, Tree.id]
  decide

theorem sample_top : ∀ n, sampleTree.id ∉ sampleF n := by
  intro n hn
  have := (sample_edited.rep.parent n 0).2 hn
  have h0 : (sampleHeap 0).parent = none := by decide
  rw [h0] at this
  simp at this

/-! C19 -/

/-- C19: every element heads exactly one finite tree. -/
theorem C19_one_tree (h : Heap) (F : Forest) (e : Edited h F) (x : Nat) : ∃! t : Trees.Tree, t.Of F ∧ t.id = x := by
  obtain ⟨t, ht, hx⟩ := exists_tree e.rep.down x
  exact ⟨t, ⟨ht, hx⟩, fun t' h' => tree_unique t' t h'.1 ht (h'.2.trans hx.symm)⟩

/-- C19: `Walk` with any visitor ends and visits exactly the elements of the depth-first parent-first traversal with
their levels, left to right or right to left, obeying the flags returned by the visitor. -/
theorem C19_walk_is_traversal {σ : Type} (h : Heap) (F : Forest) (e : Edited h F) (t : Trees.Tree) (ht : t.Of F) (rtl : Bool)
    (visitor : σ → Nat × Nat → σ × Nat) (s : σ) :
    ∃ N, ∀ fuel, N ≤ fuel → walk h fuel (some t.id) rtl visitor s =
      .done ((visit (specVisitor visitor) 0 s (oriented rtl t)).1, (visit (specVisitor visitor) 0 s (oriented rtl t)).2.1) :=
  walk_spec e.rep visitor t ht rtl s

/-- C19: a walker without a tree visits nothing. -/
theorem C19_walk_nil {σ : Type} (h : Heap) (rtl : Bool) (visitor : σ → Nat × Nat → σ × Nat) (s : σ) (fuel : Nat) :
    walk h (fuel + 1) none rtl visitor s = .done (s, []) := by
  simp [walk, step, newWalker, walkLoop, flagStop]

/-- C19: when `Step` returns nil all the next calls return nil, whatever the flags. -/
theorem C19_nil_forever (h : Heap) (w : Walker) (f : Nat) (hs : (step h w f).2 = none) (fs : List Nat) (g : Nat) :
    (step h (fs.foldl (fun w f => (step h w f).1) (step h w f).1) g).2 = none := by
  have h0 := step_none_root hs
  generalize (step h w f).1 = w1 at h0
  induction fs generalizing w1 with
  | nil => exact (step_of_none h0 g).1
  | cons f' fs ih => exact ih _ (step_of_none h0 f').2

/-- C19: `Step` with the stop flag returns nil. -/
theorem C19_stop_gives_nil (h : Heap) (w : Walker) (f : Nat) (hf : flagStop f = true) : (step h w f).2 = none := by
  unfold step
  simp [hf]

/-- The tree of examples meets the hypotheses; children of 10 are skipped, siblings of 11 too. -/
example : Edited sampleHeap sampleF ∧ sampleTree.Of sampleF ∧
    (visit (specVisitor (fun (_ : Unit) (x : Nat × Nat) => ((), if x.1 = 10 then 2 else if x.1 = 11 then 4 else 0))) 0 ()
      sampleTree).2.1 = [(0, 0), (10, 1), (11, 1)] ∧
    (visit (specVisitor (fun (_ : Unit) (_ : Nat × Nat) => ((), 0))) 0 () (oriented true sampleTree)).2.1 =
      [(0, 0), (3, 1), (11, 1), (10, 1), (2, 2), (1, 2)] ∧
    walk sampleHeap 20 (some 0) true (fun (_ : Unit) (_ : Nat × Nat) => ((), 0)) () =
      .done ((), [(0, 0), (3, 1), (11, 1), (10, 1), (2, 2), (1, 2)]) :=
  ⟨sample_edited, sample_of, by decide, by decide, by decide⟩

example : (step sampleHeap (newWalker none false) 0).2 = none ∧ flagStop 5 = true := by decide

/-! C20 -/

/-- C20: `FirstTokenElement` and `LastTokenElement` find the first and the last token element of the subtree. -/
theorem C20_first_last_token (h : Heap) (F : Forest) (e : Edited h F) (t : Trees.Tree) (ht : t.Of F) :
    ∃ N, ∀ fuel, N ≤ fuel →
      firstToken h fuel (some t.id) = .done (t.tokens (kinds h)).head? ∧
      lastToken h fuel (some t.id) = .done (t.tokens (kinds h)).getLast? := by
  obtain ⟨N, hN⟩ := firstToken_spec e.rep t ht
  obtain ⟨M, hM⟩ := firstToken_spec (rep_mirror e.rep) t.mirror (mirror_of t ht)
  refine ⟨N + M, fun fuel hf => ⟨hN fuel (by omega), ?_⟩⟩
  rw [firstToken_mirror, ← mirror_id t, hM fuel (by omega)]
  have : kinds (flipHeap h) = kinds h := rfl
  rw [this, tokens_mirror]
  simp

/-- C20: token elements of a tree are its elements that are not nodes, document order. -/
theorem C20_tokens_in_order (h : Heap) (F : Forest) (e : Edited h F) (t : Trees.Tree) (ht : t.Of F) :
    t.tokens (kinds h) = t.elements.filter fun x => !kinds h x := tokens_eq_filter e.rep t ht

example : Edited sampleHeap sampleF ∧ sampleTree.Of sampleF ∧ sampleTree.tokens (kinds sampleHeap) = [1, 2, 3] :=
  ⟨sample_edited, sample_of, by decide⟩

/-! C21 -/

/-- The subtree of `x` as a part of the whole tree: what is before it and after it in document order. -/
structure Place (F : Forest) (T tx : Trees.Tree) (pre post : List Nat) : Prop where
  whole : T.Of F
  top : ∀ n, T.id ∉ F n
  part : tx.Of F
  elements : T.elements = pre ++ tx.elements ++ post

/-- C21: what `NextTokenElement` returns: the first token of the subtree that goes right after, whether there are further
tokens or not. -/
theorem C21_next_token (h : Heap) (F : Forest) (e : Edited h F) (T tx : Trees.Tree) (pre post : List Nat)
    (pl : Place F T tx pre post) :
    (post = [] ∧ ∃ N, ∀ fuel, N ≤ fuel → nextToken h fuel (some tx.id) = .done none) ∨
    ∃ (ty : Trees.Tree) (rest : List Nat), ty.Of F ∧ post = ty.elements ++ rest ∧
      ∃ N, ∀ fuel, N ≤ fuel → nextToken h fuel (some tx.id) = .done (ty.tokens (kinds h)).head? :=
  nextToken_spec e.rep pl.whole pl.top pl.part pl.elements

theorem next_correct {h : Heap} {F : Forest} (r : Rep h F) {T tx : Trees.Tree} {pre post : List Nat}
    (pl : Place F T tx pre post) : ∃ N, ∀ fuel, N ≤ fuel → ∃ res, nextToken h fuel (some tx.id) = .done res ∧
      (res ≠ none → res = (post.filter fun x => !kinds h x).head?) ∧
      ((∀ t : Trees.Tree, t.Of F → t.tokens (kinds h) ≠ []) → res = (post.filter fun x => !kinds h x).head?) := by
  rcases nextToken_spec r pl.whole pl.top pl.part pl.elements with ⟨hp, N, hN⟩ | ⟨ty, rest, hty, hp, N, hN⟩
  · exact ⟨N, fun fuel hf => ⟨none, hN fuel hf, by simp, fun _ => by simp [hp]⟩⟩
  · refine ⟨N, fun fuel hf => ⟨_, hN fuel hf, ?_, ?_⟩⟩
    · intro hr
      rw [hp, List.filter_append, ← tokens_eq_filter r ty hty]
      cases ht : ty.tokens (kinds h) with
      | nil => rw [ht] at hr; simp at hr
      | cons y l => simp
    · intro hall
      rw [hp, List.filter_append, ← tokens_eq_filter r ty hty]
      cases ht : ty.tokens (kinds h) with
      | nil => exact absurd ht (hall ty hty)
      | cons y l => simp

/-- C21 (proved part): an element returned by `NextTokenElement` is the next token element; nil is right when every node has
a token. Missing: nil may be wrong otherwise, see `C21_next_token_missed`. -/
theorem C21_next_token_partial (h : Heap) (F : Forest) (e : Edited h F) (T tx : Trees.Tree) (pre post : List Nat)
    (pl : Place F T tx pre post) : ∃ N, ∀ fuel, N ≤ fuel → ∃ res, nextToken h fuel (some tx.id) = .done res ∧
      (res ≠ none → res = (post.filter fun x => !kinds h x).head?) ∧
      ((∀ t : Trees.Tree, t.Of F → t.tokens (kinds h) ≠ []) → res = (post.filter fun x => !kinds h x).head?) :=
  next_correct e.rep pl

/-- C21 (proved part): the same for `PrevTokenElement` and the right to left order. -/
theorem C21_prev_token_partial (h : Heap) (F : Forest) (e : Edited h F) (T tx : Trees.Tree) (ht : T.Of F)
    (htop : ∀ n, T.id ∉ F n) (hx : tx.Of F) (pre post : List Nat)
    (hs : T.mirror.elements = pre ++ tx.mirror.elements ++ post) :
    ∃ N, ∀ fuel, N ≤ fuel → ∃ res, prevToken h fuel (some tx.id) = .done res ∧
      (res ≠ none → res = (post.filter fun x => !kinds h x).head?) ∧
      ((∀ t : Trees.Tree, t.Of F → t.tokens (kinds h) ≠ []) → res = (post.filter fun x => !kinds h x).head?) := by
  have pl : Place (revF F) T.mirror tx.mirror pre post :=
    ⟨mirror_of T ht, by intro n; simpa [revF, mirror_id] using htop n, mirror_of tx hx, hs⟩
  obtain ⟨N, hN⟩ := next_correct (rep_mirror e.rep) pl
  refine ⟨N, fun fuel hf => ?_⟩
  obtain ⟨res, h1, h2, h3⟩ := hN fuel hf
  rw [mirror_id] at h1
  refine ⟨res, by rw [prevToken_mirror]; exact h1, h2, fun hall => h3 ?_⟩
  intro t' ht' hno
  obtain ⟨t, ht, hid⟩ := exists_tree e.rep.down t'.id
  have : t' = t.mirror := tree_unique t' t.mirror ht' (mirror_of t ht) (by rw [mirror_id, hid])
  rw [this] at hno
  have hk : kinds (flipHeap h) = kinds h := rfl
  rw [hk, tokens_mirror] at hno
  exact hall t ht (by simpa using hno)

/-- C21 is false: a node without tokens hides the tokens behind it. -/
theorem C21_next_token_missed : ∃ (h : Heap) (F : Forest) (T tx : Trees.Tree) (pre post : List Nat), Edited h F ∧
    Place F T tx pre post ∧ (post.filter fun x => !kinds h x).head? = some 3 ∧
    ∀ fuel, 3 ≤ fuel → nextToken h fuel (some tx.id) = .done none := by
  refine ⟨sampleHeap, sampleF, sampleTree, .node 2 [], [0, 10, 1], [11, 3], sample_edited,
    ⟨sample_of, sample_top, ?_, by decide⟩, by decide, ?_⟩
  · simp only [Tree.Of, Trees.allOf, List.map]
    decide
  · intro fuel hf
    obtain ⟨k, rfl⟩ : ∃ k, fuel = k + 3 := ⟨fuel - 3, by omega⟩
    have a1 : (sampleHeap 2).next = none := by decide
    have a2 : (sampleHeap 2).parent = some 10 := by decide
    have a3 : (sampleHeap 10).next = some 11 := by decide
    have a4 : (sampleHeap 11).isNode = true := by decide
    have a5 : (sampleHeap 11).firstChild = none := by decide
    simp [nextToken, nextLoop, Tree.id, a1, a2, a3, firstToken, a4, a5, firstTokenLoop]

/-- The same for `PrevTokenElement`. -/
theorem C21_prev_token_missed : ∃ (h : Heap) (F : Forest) (T tx : Trees.Tree) (pre post : List Nat), Edited h F ∧ T.Of F ∧
    (∀ n, T.id ∉ F n) ∧ tx.Of F ∧ T.mirror.elements = pre ++ tx.mirror.elements ++ post ∧
    (post.filter fun x => !kinds h x).head? = some 2 ∧
    ∀ fuel, 3 ≤ fuel → prevToken h fuel (some tx.id) = .done none := by
  refine ⟨sampleHeap, sampleF, sampleTree, .node 3 [], [0], [11, 10, 2, 1], sample_edited,
    sample_of, sample_top, ?_, by decide, by decide, ?_⟩
  · simp only [Tree.Of, Trees.allOf, List.map]
    decide
  · intro fuel hf
    obtain ⟨k, rfl⟩ : ∃ k, fuel = k + 3 := ⟨fuel - 3, by omega⟩
    have a1 : (sampleHeap 3).prev = some 11 := by decide
    have a4 : (sampleHeap 11).isNode = true := by decide
    have a5 : (sampleHeap 11).lastChild = none := by decide
    simp [prevToken, prevLoop, Tree.id, a1, lastToken, a4, a5, lastTokenLoop]

/-- Places meeting the hypotheses where the next and the previous tokens are found: 1 and 2. -/
example : Place sampleF sampleTree (.node 1 []) [0, 10] [2, 11, 3] ∧
    sampleTree.mirror.elements = [0, 3, 11, 10] ++ (Tree.node 2 []).mirror.elements ++ [1] ∧
    nextToken sampleHeap 5 (some 1) = .done (some 2) ∧ prevToken sampleHeap 5 (some 2) = .done (some 1) := by
  refine ⟨⟨sample_of, sample_top, ?_, by decide⟩, by decide, by decide, by decide⟩
  simp only [Tree.Of, Trees.allOf, List.map]
  decide

/-! C22 -/

/-- C22: `Apply` is the composition of the steps in the order they were added, for every element of the input in turn;
nil elements are ignored; with `Unique` only the first occurrences are left. -/
theorem C22_apply_is_composition (exs : List (Nat → Extractor)) (gs : List (Nat → List Nat)) (unique : Bool)
    (hc : Computes exs gs) (input : List (Option Nat)) :
    ∃ N, ∀ fuel, N ≤ fuel → Selector.apply ⟨exs.map (· fuel), unique⟩ input =
      .done (if unique then firsts ((input.filterMap id).flatMap (steps gs))
        else (input.filterMap id).flatMap (steps gs)) :=
  apply_spec exs unique gs hc input

/-- C22: the first occurrences have no duplicates, nothing is lost or added, the order is the same. -/
theorem C22_firsts_are_unique (l : List Nat) : (firsts l).Nodup ∧ (∀ x, x ∈ firsts l ↔ x ∈ l) ∧ (firsts l).Sublist l := by
  obtain ⟨h1, h2, h3⟩ := firstsFrom_spec l []
  exact ⟨h1, fun x => by rw [firsts, h2 x]; simp, h3⟩

/-- C22: `Search` and `DeepSearch`: the topmost elements that fit or all elements that fit, document order. -/
theorem C22_search_is_selection (h : Heap) (F : Forest) (e : Edited h F) (fit : Nat → Bool) (deep : Bool) (t : Trees.Tree)
    (ht : t.Of F) : ∃ N, ∀ fuel, N ≤ fuel → Selector.apply (newSelector.search h fuel fit deep) [some t.id] =
      .done (if deep then t.elements.filter fit else topmost fit t) := by
  obtain ⟨N, hN⟩ := search_spec e.rep fit deep t ht
  refine ⟨N, fun fuel hf => ?_⟩
  have := hN fuel hf
  simp only [Selector.apply, Selector.search, newSelector, Selector.extract, Selector.turn, selectOne, selectNodes,
    List.nil_append, List.foldl_cons, List.foldl_nil, bindRun]
  cases deep <;> simp_all

/-- C22: builders only add steps at the end. -/
theorem C22_builders_add_steps (s : Selector) (ex : Extractor) (nf : Nat → Bool) (h : Heap) (fuel : Nat) (deep : Bool) :
    (s.extract (some ex)).extractors = s.extractors ++ [ex] ∧ s.extract none = s ∧
    (∃ ex', (s.filter nf).extractors = s.extractors ++ [ex'] ∧ ∀ n, ex' n = .done (if nf n then [n] else [])) ∧
    (∃ ex', (s.search h fuel nf deep).extractors = s.extractors ++ [ex'] ∧
      ∀ n, ex' n = searchLoop h nf (if deep then 0 else 2) fuel (newWalker (some n) false) 0 []) ∧
    (s.setUnique.unique = true ∧ s.setUnique.extractors = s.extractors) := by
  refine ⟨rfl, rfl, ⟨_, rfl, ?_⟩, ⟨_, rfl, fun n => rfl⟩, rfl, rfl⟩
  intro n
  split <;> rfl

/-- C22: C22_filters. -/
theorem C22_filters (fs : List (Nat → Bool)) (n : Nat) :
    isAny fs n = fs.any (· n) ∧ isAll fs n = fs.all (· n) ∧ ∀ f, isNot f n = !f n := by
  refine ⟨?_, ?_, fun f => rfl⟩
  · induction fs with
    | nil => rfl
    | cons f fs ih => cases hf : f n <;> simp [isAny, hf, ih]
  · induction fs with
    | nil => rfl
    | cons f fs ih => cases hf : f n <;> simp [isAll, hf, ih]

/-- C22: `IsA` is membership of the type name. -/
theorem C22_is_a (h : Heap) (names : List String) (n : Nat) : isA h names n = decide ((h n).typeName ∈ names) := by
  have key : ∀ names tn, isA.go tn names = decide (tn ∈ names) := by
    intro names tn
    induction names with
    | nil => rfl
    | cons a names ih =>
      simp only [isA.go, ih]
      by_cases h : tn = a
      · simp [h]
      · simp [h]
  exact key names _

/-- C22: `IsALiteral` is false for nodes and membership of the token text for tokens. -/
theorem C22_is_a_literal (h : Heap) (texts : List (List Nat)) (n : Nat) :
    ((h n).isNode = true → isALiteral h texts n = some false) ∧
    (∀ t, (h n).isNode = false → (h n).token = some t → isALiteral h texts n = some (decide (t.content ∈ texts))) := by
  refine ⟨fun hn => by simp [isALiteral, hn], fun t hn ht => ?_⟩
  simp [isALiteral, hn, ht]
  rw [Bool.eq_iff_iff]
  simp

/-- Two steps meeting the hypothesis: nodes that fit, then their children. -/
example : Computes [fun _ n => .done (if n = 10 then [n] else []), fun fuel n => children sampleHeap fuel (some n)]
      [fun n => if n = 10 then [n] else [], sampleF] ∧
    firsts (([some 10, none, some 3, some 10].filterMap id).flatMap
      (steps [fun n => if n = 10 then [n] else [], sampleF])) = [1, 2] ∧
    topmost (fun n => n ≥ 10) sampleTree = [10, 11] ∧ sampleTree.elements.filter (fun n => n % 2 == 0) = [0, 10, 2] :=
  ⟨⟨fun n => ⟨0, fun _ _ => rfl⟩, fun n => children_spec sample_edited.rep n, trivial⟩, by decide, by decide, by decide⟩

example : (blank sampleKinds 0).isNode = true ∧
    ∃ h : Heap, (h 1).isNode = false ∧ (h 1).token ≠ none :=
  ⟨rfl, fun _ => ⟨false, "", some ⟨0, "", [1], ⟨none, 0⟩⟩, none, none, none, none, none⟩, rfl, by simp⟩

/-! C23 -/

/-- C23: structural extractors give children, siblings to the right, siblings to the left (nearest first). -/
theorem C23_structural_extractors (h : Heap) (F : Forest) (e : Edited h F) (p x : Nat) (a b : List Nat)
    (hx : F p = a ++ x :: b) : ∃ N, ∀ fuel, N ≤ fuel →
      children h fuel (some p) = .done (a ++ x :: b) ∧ nextSiblings h fuel (some x) = .done b ∧
      prevSiblings h fuel (some x) = .done a.reverse := by
  obtain ⟨N1, h1⟩ := children_spec e.rep p
  obtain ⟨N2, h2⟩ := nextSiblings_spec e.rep hx
  obtain ⟨N3, h3⟩ := prevSiblings_spec e.rep hx
  exact ⟨N1 + N2 + N3, fun fuel hf => ⟨by rw [h1 fuel (by omega), hx], h2 fuel (by omega), h3 fuel (by omega)⟩⟩

/-- C23: children of an element that is not a node or has no children. -/
theorem C23_no_children (h : Heap) (F : Forest) (e : Edited h F) (p : Nat) (hp : F p = []) :
    ∃ N, ∀ fuel, N ≤ fuel → children h fuel (some p) = .done [] := by
  obtain ⟨N, hN⟩ := children_spec e.rep p
  exact ⟨N, fun fuel hf => by rw [hN fuel hf, hp]⟩

/-- C23: ancestors are the chain of parents, nearest first, up to the top. -/
theorem C23_ancestors_chain (h : Heap) (F : Forest) (e : Edited h F) (x : Nat) :
    ∃ l, Chain F x l ∧ ∃ N, ∀ fuel, N ≤ fuel → ancestors h fuel (some x) = .done l := by
  obtain ⟨l, hl⟩ := chain_exists e.rep x
  exact ⟨l, hl, ancestors_spec e.rep l x hl⟩

/-- C23: `Nth` takes the elements with given indexes, ignoring wrong indexes. -/
theorem C23_nth_takes (ex : Extractor) (n : Nat) (els : List Nat) (hex : ex n = .done els) (indexes : List Int) :
    nth ex indexes n = .done (indexes.filterMap fun i => if i < 0 then none else els[i.toNat]?) := by
  simp only [nth, bindRun, hex]
  congr 2
  funext i
  by_cases hi : i < 0
  · rw [if_pos hi, if_neg (by omega)]
  · rw [if_neg hi]
    by_cases hl : i < els.length
    · rw [if_pos ⟨by omega, hl⟩]
    · rw [if_neg (by omega)]
      exact (List.getElem?_eq_none (by omega)).symm

/-- C23: `All` concatenates results, `Any` is the first non-empty result. -/
theorem C23_all_any (exs : List Extractor) (gs : List (List Nat)) (n : Nat) (hex : exs.map (· n) = gs.map .done) :
    Tree.allOf exs n = .done gs.flatten ∧ anyOf exs n = .done ((gs.find? (· ≠ [])).getD []) := by
  induction exs generalizing gs with
  | nil =>
    cases gs with
    | nil => exact ⟨rfl, rfl⟩
    | cons g gs => simp at hex
  | cons ex exs ih =>
    cases gs with
    | nil => simp at hex
    | cons g gs =>
      simp at hex
      obtain ⟨h1, h2⟩ := ih gs (by simpa using hex.2)
      refine ⟨?_, ?_⟩
      · simp [Tree.allOf, hex.1, bindRun, h1]
      · simp only [anyOf, hex.1, bindRun, h2]
        cases g with
        | nil => simp
        | cons y g => simp

example : sampleF 0 = [10] ++ 11 :: [3] ∧ sampleF 11 = [] ∧ Chain sampleF 1 [10, 0] ∧
    children sampleHeap 9 (some 0) = .done [10, 11, 3] ∧
    [fun n => children sampleHeap 9 (some n), fun n => ancestors sampleHeap 9 (some n)].map (· 10) =
      [[1, 2], [0]].map Run.done := by
  refine ⟨by decide, by decide, ⟨by decide, by decide, sample_top⟩, by decide, ?_⟩
  simp only [List.map]
  decide

end Verif.Props
