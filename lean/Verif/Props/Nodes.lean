/-
C24, C25, C26: checks of node definitions.

Nodes are numbered; node 0 is the root node, `n` is the number of nodes. `order...` are the orders in which Go happens to
iterate maps: arbitrary permutations.
-/
import Verif.Proof.Resolve
import Verif.Proof.Recursion

namespace Verif.Props

open Verif.Model Verif.Spec Verif.Spec.Ebnf Relation

/-- C24: the dependency resolver always stops. If it succeeds, the first tokens of every node are exactly the tokens that
can start it, and there is at least one; if it fails, the reported nodes are exactly those that cannot start with any
token, and there is at least one. A nested node is always taken as not empty here. -/
theorem C24_first_sets (body : Nat → Chunk) (deps : Nat → Finset Nat) (n : Nat) (order1 order2 : List Nat)
    (hwf : ∀ i < n, WF (body i)) (hdeps : ∀ i < n, deps i = refs (body i))
    (hdef : ∀ i < n, ∀ j ∈ refs (body i), j < n)
    (h1 : order1.Perm (List.range n)) (h2 : order2.Perm (List.range n)) :
    ∃ N, ∀ fuel, N ≤ fuel → ∃ r, resolveDependencies body deps order1 order2 fuel = .done r ∧
      match r with
      | .ok ft => (∀ i < n, ∀ k, k ∈ ft i ↔ Starts body i k) ∧ (∀ i < n, (ft i).Nonempty) ∧ ∀ i, n ≤ i → ft i = ∅
      | .error is => is ≠ [] ∧ is.Nodup ∧ ∀ i, i ∈ is ↔ i < n ∧ ∀ k, ¬ Starts body i k :=
  resolve_spec ⟨hwf, hdeps, hdef⟩ h1 h2

/-- C24: definitions are rejected as unresolvable exactly when some node cannot start with any token. -/
theorem C24_rejected_exactly (body : Nat → Chunk) (deps : Nat → Finset Nat) (n : Nat) (order1 order2 : List Nat)
    (hwf : ∀ i < n, WF (body i)) (hdeps : ∀ i < n, deps i = refs (body i))
    (hdef : ∀ i < n, ∀ j ∈ refs (body i), j < n)
    (h1 : order1.Perm (List.range n)) (h2 : order2.Perm (List.range n)) :
    ∃ N, ∀ fuel, N ≤ fuel →
      ((∃ is, resolveDependencies body deps order1 order2 fuel = .done (.error is)) ↔
        ∃ i < n, ∀ k, ¬ Starts body i k) := by
  obtain ⟨N, hN⟩ := C24_first_sets body deps n order1 order2 hwf hdeps hdef h1 h2
  refine ⟨N, fun fuel hf => ?_⟩
  obtain ⟨r, hr, hs⟩ := hN fuel hf
  rw [hr]
  cases r with
  | ok ft =>
    simp only at hs
    refine ⟨fun ⟨is, h⟩ => (nomatch h), fun ⟨i, hi, hk⟩ => ?_⟩
    obtain ⟨k, hkm⟩ := hs.2.1 i hi
    exact absurd ((hs.1 i hi k).mp hkm) (hk k)
  | error is =>
    simp only at hs
    refine ⟨fun _ => ?_, fun _ => ⟨is, rfl⟩⟩
    obtain ⟨i, hi⟩ := List.exists_mem_of_ne_nil is hs.1
    exact ⟨i, (hs.2.2 i).mp hi⟩

/-- What the first symbol of a word says about the first token. -/
def headStarts (body : Nat → Chunk) : Sym → Int → Prop
  | .tok t, k => k = t
  | .eoi, k => k = eoiTokenType
  | .node i, k => Starts body i k

theorem yields_nil {body : Nat → Chunk} {v : List Int} (h : Yields body [] v) : v = [] := by cases h; rfl

theorem yields_head {body : Nat → Chunk} {n : Nat} (hdef : ∀ i < n, ∀ j ∈ refs (body i), j < n)
    (hne : ∀ i < n, ¬ Yields body [.node i] []) {w : List Sym} {v : List Int} (h : Yields body w v) :
    (∀ i, Sym.node i ∈ w → i < n) → ∀ x w' k v', w = x :: w' → v = k :: v' → headStarts body x k := by
  induction h with
  | nil => intro _ x w' k v' hw; simp at hw
  | tok _ _ => intro _ x w' k v' hw hv; cases hw; cases hv; rfl
  | eoi _ _ => intro _ x w' k v' hw hv; cases hw; cases hv; rfl
  | node hu hy1 hy2 ih1 ih2 =>
    rename_i i u w v v2
    intro hn x w' k v' hw hv
    cases hw
    have hi : i < n := hn i (by simp)
    cases v with
    | nil =>
      refine absurd ?_ (hne i hi)
      simpa using Yields.node hu hy1 Yields.nil
    | cons k' v1 =>
      simp only [List.cons_append, List.cons.injEq] at hv
      obtain ⟨rfl, _⟩ := hv
      cases u with
      | nil => have := yields_nil hy1; simp at this
      | cons y u =>
        have hb : ∀ j, Sym.node j ∈ y :: u → j < n := fun j hj => hdef i hi j (refs_of_lang _ _ j hu hj)
        have := ih1 hb y u k' v1 rfl rfl
        cases y with
        | tok t => cases this; exact Starts.tok hu
        | eoi => cases this; exact Starts.eoi hu
        | node j => exact Starts.node hu this

/-- C24: if no node can be empty, the first token of everything described by a node is in its first token set. -/
theorem C24_covers_described_partial (body : Nat → Chunk) (deps : Nat → Finset Nat) (n : Nat)
    (order1 order2 : List Nat) (hwf : ∀ i < n, WF (body i)) (hdeps : ∀ i < n, deps i = refs (body i))
    (hdef : ∀ i < n, ∀ j ∈ refs (body i), j < n)
    (h1 : order1.Perm (List.range n)) (h2 : order2.Perm (List.range n))
    (hne : ∀ i < n, ¬ Yields body [.node i] []) :
    ∃ N, ∀ fuel, N ≤ fuel → ∀ ft, resolveDependencies body deps order1 order2 fuel = .done (.ok ft) →
      ∀ i < n, ∀ k v, Yields body [.node i] (k :: v) → k ∈ ft i := by
  obtain ⟨N, hN⟩ := C24_first_sets body deps n order1 order2 hwf hdeps hdef h1 h2
  refine ⟨N, fun fuel hf ft hok i hi k v hy => ?_⟩
  obtain ⟨r, hr, hs⟩ := hN fuel hf
  rw [hok] at hr
  cases hr
  exact (hs.1 i hi k).mpr (yields_head hdef hne hy (by simpa using hi) _ _ k v rfl rfl)

/-- `root = 'a' | other; other = root, 'b' | 'c'`, mutually recursive. -/
def sampleDefs : Nat → Chunk
  | 0 => .group [.variant [.token 0, .node 1]] false false
  | _ => .group [.variant [.group [.node 0, .token 1] false false, .token 2]] false false

example : (∀ i < 2, WF (sampleDefs i)) ∧ (∀ i < 2, ∀ j ∈ refs (sampleDefs i), j < 2) ∧
    Starts sampleDefs 1 0 ∧ [1, 0].Perm (List.range 2) := by
  have hl : (.node 0 :: [.tok 1]) ∈ lang (sampleDefs 1) := by
    simp only [sampleDefs, lang, langSeq, langAny, mul_one, Bool.false_eq_true, if_false]
    exact (Language.mem_add ..).mpr (Or.inl (Language.mem_mul.mpr ⟨[.node 0], rfl, [.tok 1], rfl, rfl⟩))
  refine ⟨?_, ?_, Starts.node hl (Starts.tok (w := []) (t := 0) ?_), by decide⟩
  · intro i hi
    match i with
    | 0 => simp [sampleDefs, WF, WFs]
    | 1 => simp [sampleDefs, WF, WFs]
  · intro i hi
    match i with
    | 0 => simp [sampleDefs, refs, refsAll]
    | 1 => simp [sampleDefs, refs, refsAll]
  · simp only [sampleDefs, lang, langSeq, langAny, mul_one, Bool.false_eq_true, if_false]
    exact (Language.mem_add ..).mpr (Or.inl rfl)

/-- The computed sets for the sample: both nodes start with `a` and `c`. -/
example : ∃ ft, resolveDependencies sampleDefs (fun i => refs (sampleDefs i)) [1, 0] [0, 1] 10 = .done (.ok ft) ∧
    ft 0 = {0, 2} ∧ ft 1 = {0, 2} := ⟨_, rfl, by decide, by decide⟩

/-- `root = opt, 'b'; opt = ['a']`. -/
def emptyNodeDefs : Nat → Chunk
  | 0 => .group [.node 1, .token 1] false false
  | _ => .group [.group [.token 0] true false] false false

/-- C24 is false when nested nodes may be empty: the definitions `root = opt, 'b'; opt = ['a']` describe the text `b`, but
`b` is not in the first token set of the root node. -/
theorem C24_empty_nodes_are_ignored :
    (∃ ft, resolveDependencies emptyNodeDefs (fun i => refs (emptyNodeDefs i)) [0, 1] [0, 1] 10 = .done (.ok ft) ∧
      (1 : Int) ∉ ft 0) ∧
    Yields emptyNodeDefs [.node 0] [1] := by
  refine ⟨⟨_, rfl, by decide⟩, ?_⟩
  have h1 : [.node 1, .tok 1] ∈ lang (emptyNodeDefs 0) := by
    simp only [emptyNodeDefs, lang, langSeq, mul_one, Bool.false_eq_true, if_false]
    exact Language.mem_mul.mpr ⟨[.node 1], rfl, [.tok 1], rfl, rfl⟩
  have h2 : [] ∈ lang (emptyNodeDefs 1) := by
    simp only [emptyNodeDefs, lang, langSeq, mul_one, Bool.false_eq_true, if_false, if_true]
    exact (Language.mem_add ..).mpr (Or.inl Language.nil_mem_one)
  have hy : Yields emptyNodeDefs [.node 1, .tok 1] [1] := by
    simpa using Yields.node h2 Yields.nil (Yields.tok (t := 1) Yields.nil)
  simpa using Yields.node h1 hy Yields.nil

/-- C25: the reported undefined nodes are exactly the referenced nodes without a definition. -/
theorem C25_undefined_nodes (chunk : Nat → Option Chunk) (n : Nat) (order : List Nat)
    (ho : order.Perm (List.range n)) (i : Nat) :
    i ∈ findUndefinedNodes chunk order ↔ i < n ∧ chunk i = none := by
  unfold findUndefinedNodes
  rw [List.mem_filter, ho.mem_iff]
  simp

example : [1, 0, 2].Perm (List.range 3) ∧
    findUndefinedNodes (fun i => if i = 1 then none else some .eoi) [1, 0, 2] = [1] := by decide

/-- C25: the search for unused nodes stops, and the reported nodes are exactly those that cannot be reached from the root
node through references, in ascending order. -/
theorem C25_unused_nodes (deps : Nat → Finset Nat) (n : Nat) (hdef : ∀ i < n, ∀ j ∈ deps i, j < n) :
    ∃ N, ∀ fuel, N ≤ fuel → ∃ is, findUnusedNodes deps n fuel = .done is ∧ is.SortedLT ∧
      ∀ i, i ∈ is ↔ i < n ∧ ¬ ReflTransGen (fun a b => b ∈ deps a) 0 i := by
  refine ⟨∑ i ∈ Finset.range n, (deps i).card + 2, fun fuel hf => ?_⟩
  obtain ⟨un, he, hun⟩ := reachLoop_done (deps := deps) (n := n) fuel (q := [0]) (un := Finset.range n)
    (Finset.Subset.refl _) (by simpa using ReflTransGen.refl) (fun i hi hn => absurd (by simpa using hi) hn)
    (fun i hi hn => absurd (by simpa using hi) hn) (by simp) hdef (by simp; omega)
  refine ⟨sorted un, ?_, sorted_sortedLT un, fun i => ?_⟩
  · rw [findUnusedNodes, he]
  · rw [mem_sorted]; exact hun i

example : (∀ i < 3, ∀ j ∈ (fun i => if i = 0 then {1} else if i = 1 then {0, 1} else {1} : Nat → Finset Nat) i, j < 3) ∧
    findUnusedNodes (fun i => if i = 0 then {1} else if i = 1 then {0, 1} else {1}) 3 10 = .done [2] := by
  decide +kernel

/-- C26: whatever the rules are, the recursion check stops and reports exactly the nodes from which nested nodes can be
opened one after another forever by rules of first states. -/
theorem C26_check_is_exact (next : Nat → List Nat) (n : Nat) (hb : ∀ i < n, ∀ j ∈ next i, j < n) (fuel : Nat)
    (hf : n < fuel) :
    ∃ is, findRecursions next n fuel = .done is ∧ is.SortedLT ∧
      ∀ i, i ∈ is ↔ i < n ∧ ∃ f : Nat → Nat, f 0 = i ∧ ∀ t, f (t + 1) ∈ next (f t) := by
  obtain ⟨r, hr, hri⟩ := recursionLoop_done hb hf (List.range n) (by simp) ∅
  refine ⟨sorted r, by rw [findRecursions, hr], sorted_sortedLT r, fun i => ?_⟩
  rw [mem_sorted, hri]
  simp [Endless]

example : (∀ i < 3, ∀ j ∈ (fun i => if i = 0 then [1] else if i = 1 then [2, 1] else [] : Nat → List Nat) i, j < 3) ∧
    findRecursions (fun i => if i = 0 then [1] else if i = 1 then [2, 1] else []) 3 4 = .done [0, 1] := by
  decide +kernel

/-- Node `i` leads to an infinite chain of nodes, each of them starting a word of the definition of the previous one. -/
def LeftRecursive (bodies : List Chunk) (i : Nat) : Prop :=
  ∃ f : Nat → Nat, f 0 = i ∧ ∀ t, ∃ c w, bodies[f t]? = some c ∧ (.node (f (t + 1)) :: w) ∈ lang c

/-- C26: for compiled node definitions (without explicit end of input) the recursion check stops and reports exactly the
left recursive nodes. -/
theorem C26_left_recursion (ft : Nat → Finset Int) (bodies : List Chunk)
    (hft : ∀ i, ∀ k ∈ ft i, 0 ≤ k) (hwf : ∀ c ∈ bodies, WF c ∧ IsBody c ∧ NoEoi c)
    (hrf : ∀ c ∈ bodies, ∀ i ∈ refs c, i < bodies.length ∧ (ft i).Nonempty)
    (pr : PR) (fs : List Nat) (he : buildNodes ft bodies {} = some (pr, fs))
    (order : Nat → List Int) (ho : ∀ i s, fs[i]? = some s → ∀ k, k ∈ order i ↔ k ∈ pr.keysOf s)
    (fuel : Nat) (hf : bodies.length < fuel) :
    ∃ is, findRecursions (fun i => nestedNodes pr (fs.getD i 0) (order i)) bodies.length fuel = .done is ∧
      is.SortedLT ∧ ∀ i, i ∈ is ↔ i < bodies.length ∧ LeftRecursive bodies i := by
  obtain ⟨pr', fs', he', hg, hl, _⟩ := buildNodes_spec ft bodies (fun c hc => (hwf c hc).1) ok_empty
  rw [he] at he'
  cases he'
  have hget : ∀ i < bodies.length, ∃ c s, bodies[i]? = some c ∧ fs[i]? = some s ∧ fs.getD i 0 = s := by
    intro i hi
    refine ⟨bodies[i], fs[i]'(by omega), List.getElem?_eq_getElem hi, List.getElem?_eq_getElem (by omega), ?_⟩
    rw [List.getD_eq_getElem?_getD, List.getElem?_eq_getElem (by omega), Option.getD_some]
  have hmem : ∀ i < bodies.length, ∀ j, j ∈ nestedNodes pr (fs.getD i 0) (order i) ↔
      ∃ c w, bodies[i]? = some c ∧ (.node j :: w) ∈ lang c := by
    intro i hi j
    obtain ⟨c, s, hc, hs, hd⟩ := hget i hi
    rw [hd, mem_nestedNodes hg.ok (ho i s hs)]
    constructor
    · rintro ⟨k, r, hr, hn, rfl⟩
      obtain ⟨w, hw⟩ := nested_sound ft (fun c hc => (hwf c hc).1) he hc hs hr hn
      exact ⟨c, w, hc, hw⟩
    · rintro ⟨c', w, hc', hw⟩
      rw [hc] at hc'
      cases hc'
      exact nested_complete ft hft hwf (fun c hc i hi => (hrf c hc i hi).2) he hc hs hw
  have hb : ∀ i < bodies.length, ∀ j ∈ nestedNodes pr (fs.getD i 0) (order i), j < bodies.length := by
    intro i hi j hj
    obtain ⟨c, w, hc, hw⟩ := (hmem i hi j).mp hj
    exact (hrf c (List.mem_of_getElem? hc) j (refs_of_lang c _ j hw (by simp))).1
  obtain ⟨is, h1, h2, h3⟩ := C26_check_is_exact _ bodies.length hb fuel hf
  refine ⟨is, h1, h2, fun i => ?_⟩
  rw [h3]
  constructor
  · rintro ⟨hi, f, h0, hs⟩
    have hall : ∀ t, f t < bodies.length := by
      intro t
      induction t with
      | zero => omega
      | succ t ih => exact hb _ ih _ (hs t)
    exact ⟨hi, f, h0, fun t => (hmem (f t) (hall t) _).mp (hs t)⟩
  · rintro ⟨hi, f, h0, hs⟩
    refine ⟨hi, f, h0, fun t => ?_⟩
    obtain ⟨c, w, hc, hw⟩ := hs t
    have hlt : f t < bodies.length := by
      by_contra hcon
      rw [List.getElem?_eq_none (by omega)] at hc
      simp at hc
    exact (hmem (f t) hlt _).mpr ⟨c, w, hc, hw⟩

/-- C26, with explicit end of input: reported nodes are left recursive. -/
theorem C26_reported_is_left_recursive_partial (ft : Nat → Finset Int) (bodies : List Chunk)
    (hwf : ∀ c ∈ bodies, WF c) (hrf : ∀ c ∈ bodies, ∀ i ∈ refs c, i < bodies.length)
    (pr : PR) (fs : List Nat) (he : buildNodes ft bodies {} = some (pr, fs))
    (order : Nat → List Int) (ho : ∀ i s, fs[i]? = some s → ∀ k, k ∈ order i ↔ k ∈ pr.keysOf s)
    (fuel : Nat) (hf : bodies.length < fuel) :
    ∃ is, findRecursions (fun i => nestedNodes pr (fs.getD i 0) (order i)) bodies.length fuel = .done is ∧
      ∀ i ∈ is, LeftRecursive bodies i := by
  obtain ⟨pr', fs', he', hg, hl, _⟩ := buildNodes_spec ft bodies hwf ok_empty
  rw [he] at he'
  cases he'
  have hget : ∀ i < bodies.length, ∃ c s, bodies[i]? = some c ∧ fs[i]? = some s ∧ fs.getD i 0 = s := by
    intro i hi
    refine ⟨bodies[i], fs[i]'(by omega), List.getElem?_eq_getElem hi, List.getElem?_eq_getElem (by omega), ?_⟩
    rw [List.getD_eq_getElem?_getD, List.getElem?_eq_getElem (by omega), Option.getD_some]
  have hmem : ∀ i < bodies.length, ∀ j, j ∈ nestedNodes pr (fs.getD i 0) (order i) →
      ∃ c w, bodies[i]? = some c ∧ (.node j :: w) ∈ lang c := by
    intro i hi j
    obtain ⟨c, s, hc, hs, hd⟩ := hget i hi
    rw [hd, mem_nestedNodes hg.ok (ho i s hs)]
    rintro ⟨k, r, hr, hn, rfl⟩
    obtain ⟨w, hw⟩ := nested_sound ft hwf he hc hs hr hn
    exact ⟨c, w, hc, hw⟩
  have hb : ∀ i < bodies.length, ∀ j ∈ nestedNodes pr (fs.getD i 0) (order i), j < bodies.length := by
    intro i hi j hj
    obtain ⟨c, w, hc, hw⟩ := hmem i hi j hj
    exact hrf c (List.mem_of_getElem? hc) j (refs_of_lang c _ j hw (by simp))
  obtain ⟨is, h1, _, h3⟩ := C26_check_is_exact _ bodies.length hb fuel hf
  refine ⟨is, h1, fun i hi => ?_⟩
  obtain ⟨hin, f, h0, hs⟩ := (h3 i).mp hi
  have hall : ∀ t, f t < bodies.length := by
    intro t
    induction t with
    | zero => omega
    | succ t ih => exact hb _ ih _ (hs t)
  exact ⟨f, h0, fun t => hmem (f t) (hall t) _ (hs t)⟩

/-- `root = foo, 'a' | 'b'; foo = root, 'a' | 'b'`, left recursive. -/
def leftDefs : List Chunk :=
  [.group [.variant [.group [.node 1, .token 0] false false, .token 1]] false false,
   .group [.variant [.group [.node 0, .token 0] false false, .token 1]] false false]

example : (buildNodes (fun _ => {1}) leftDefs {}).map (fun r =>
    (r.2, findRecursions (fun i => nestedNodes r.1 (r.2.getD i 0) [1]) 2 3)) = some ([0, 2], .done [0, 1]) := by
  decide +kernel

/-- `root = foo | $; foo = root | $`. -/
def hiddenDefs : List Chunk :=
  [.group [.variant [.node 1, .eoi]] false false, .group [.variant [.node 0, .eoi]] false false]

/-- C26 is false with explicit end of input: the rule for `$` replaces the rules that open nested nodes at the end of
input, so the left recursion of `root = foo | $; foo = root | $` is not reported. -/
theorem C26_recursion_hidden_by_eoi :
    (buildNodes (fun _ => {eoiTokenType}) hiddenDefs {}).map (fun r =>
      (r.1.keysOf 0, r.1.keysOf 1, findRecursions (fun i => nestedNodes r.1 (r.2.getD i 0) [eoiTokenType]) 2 3)) =
      some ({eoiTokenType}, {eoiTokenType}, .done []) ∧
    LeftRecursive hiddenDefs 0 := by
  refine ⟨by decide +kernel, fun t => t % 2, rfl, fun t => ?_⟩
  rcases Nat.mod_two_eq_zero_or_one t with h | h
  · have h' : (t + 1) % 2 = 1 := by omega
    simp only [h, h']
    refine ⟨_, [], rfl, ?_⟩
    simp only [lang, langSeq, langAny, mul_one, Bool.false_eq_true, if_false]
    exact (Language.mem_add ..).mpr (Or.inl rfl)
  · have h' : (t + 1) % 2 = 0 := by omega
    simp only [h, h']
    refine ⟨_, [], rfl, ?_⟩
    simp only [lang, langSeq, langAny, mul_one, Bool.false_eq_true, if_false]
    exact (Language.mem_add ..).mpr (Or.inl rfl)

end Verif.Props
