/-
Trees built by hook instances.
-/
import Verif.Model.TreeHook
import Verif.Spec.Built
import Verif.Proof.Hooks
import Verif.Proof.TreeWalk
import Verif.Proof.TreeEdit

namespace Verif.Proof

open Verif.Model Verif.Spec Verif.Spec.Trees
open Verif.Model.Tree (Heap Elem Rep put treeCall treeHeap noElements newTokenElement newNodeElement addChild)

variable {σ : Type}

/-- What can be seen in an element except links. -/
def lookAt (h : Heap) (x : Nat) : Bool × String × Option Token := ((h x).isNode, (h x).typeName, (h x).token)

theorem treeHeap_snoc (names : Nat → String) (log : List Event) (e : Event) :
    treeHeap names (log ++ [e]) = treeCall names (treeHeap names log) log.length e := by
  simp [treeHeap, List.zipIdx_append]

/-- Calls that do nothing to trees. -/
def Idle (e : Event) : Prop := ∀ names h k, treeCall names h k e = h

theorem treeHeap_idle (names : Nat → String) (log es : List Event) (h : ∀ e ∈ es, Idle e) :
    treeHeap names (log ++ es) = treeHeap names log := by
  induction es using List.reverseRecOn with
  | nil => simp
  | append_singleton es e ih =>
    rw [← List.append_assoc, treeHeap_snoc, h e (by simp), ih (fun e he => h e (by simp [he]))]

/-- The forest held by the heap; elements from `n` on are not created yet. -/
structure TreeGrown (h : Heap) (F : Forest) (n : Nat) : Prop where
  rep : Rep h F
  clean : ∀ k, n ≤ k → h k = noElements k
  kids : ∀ k, n ≤ k → F k = []
  out : ∀ k, n ≤ k → ∀ m, k ∉ F m

theorem TreeGrown.mono {h : Heap} {F : Forest} {n n' : Nat} (g : TreeGrown h F n) (hn : n ≤ n') : TreeGrown h F n' :=
  ⟨g.rep, fun k hk => g.clean k (by omega), fun k hk => g.kids k (by omega), fun k hk => g.out k (by omega)⟩

theorem grown_start : TreeGrown noElements Forest.empty 0 where
  rep := by
    refine ⟨?_, ?_, ?_, ?_, ?_, ?_, ?_, ?_, ?_⟩
    · intro n x; simp [noElements, Forest.empty]
    · intro n a x b e; simp [Forest.empty] at e
    · intro n; simp [Forest.empty]
    · intro n hn; simp [noElements] at hn
    · intro n hn; simp [noElements] at hn
    · intro n _; simp [Forest.empty]
    · intro x _; exact ⟨rfl, rfl⟩
    · exact ⟨fun a => ⟨a, fun y hy => by simp [Forest.empty] at hy⟩⟩
    · exact ⟨fun a => ⟨a, fun y hy => by simp [Forest.empty] at hy⟩⟩
  clean := fun _ _ => rfl
  kids := fun _ _ => rfl
  out := fun _ _ m => by simp [Forest.empty]

/-- A new element without links. -/
theorem TreeGrown.new {h : Heap} {F : Forest} {n : Nat} (g : TreeGrown h F n) {e : Elem}
    (he : e.parent = none ∧ e.prev = none ∧ e.next = none ∧ e.firstChild = none ∧ e.lastChild = none) :
    TreeGrown (h.set n e) F (n + 1) where
  rep := by
    have hh : ∀ x, x ≠ n → (h.set n e) x = h x := fun x hx => by simp [Heap.set, hx]
    have hn : (h.set n e) n = e := by simp [Heap.set]
    have hc := g.clean n (le_refl _)
    obtain ⟨h1, h2, h3, h4, h5⟩ := he
    have hp : ∀ x, ((h.set n e) x).parent = (h x).parent := fun x => by
      by_cases hx : x = n
      · subst hx; rw [hn, hc, h1]; rfl
      · rw [hh x hx]
    have hpv : ∀ x, ((h.set n e) x).prev = (h x).prev := fun x => by
      by_cases hx : x = n
      · subst hx; rw [hn, hc, h2]; rfl
      · rw [hh x hx]
    have hnx : ∀ x, ((h.set n e) x).next = (h x).next := fun x => by
      by_cases hx : x = n
      · subst hx; rw [hn, hc, h3]; rfl
      · rw [hh x hx]
    refine ⟨?_, ?_, g.rep.nodup, ?_, ?_, ?_, ?_, g.rep.down, g.rep.up⟩
    · intro m x; rw [hp]; exact g.rep.parent m x
    · intro m
      have := g.rep.link m
      simp only [hpv, hnx]
      exact this
    · intro m hm
      by_cases hx : m = n
      · subst hx; rw [hn, h4, g.kids m (le_refl _)]; rfl
      · rw [hh m hx] at hm ⊢; exact g.rep.first m hm
    · intro m hm
      by_cases hx : m = n
      · subst hx; rw [hn, h5, g.kids m (le_refl _)]; rfl
      · rw [hh m hx] at hm ⊢; exact g.rep.last m hm
    · intro m hm
      by_cases hx : m = n
      · subst hx; exact g.kids m (le_refl _)
      · rw [hh m hx] at hm; exact g.rep.token m hm
    · intro x hx; rw [hpv, hnx]; rw [hp] at hx; exact g.rep.alone x hx
  clean := fun k hk => by
    rw [show (h.set n e) k = h k by simp [Heap.set, show k ≠ n by omega]]
    exact g.clean k (by omega)
  kids := fun k hk => g.kids k (by omega)
  out := fun k hk => g.out k (by omega)

theorem look_new {h : Heap} {n : Nat} {e : Elem} {x : Nat} (hx : x ≠ n) : lookAt (h.set n e) x = lookAt h x := by
  simp [lookAt, Heap.set, hx]

theorem look_links {h : Heap} {i : Nat} {e : Elem} (he : e.isNode = (h i).isNode ∧ e.typeName = (h i).typeName ∧
    e.token = (h i).token) (x : Nat) : lookAt (h.set i e) x = lookAt h x := by
  simp only [lookAt, Heap.set]
  split
  · next hx => subst hx; simp [he]
  · rfl

theorem look_addChild (h : Heap) (n c x : Nat) : lookAt (addChild h n (some c) none) x = lookAt h x := by
  simp only [addChild]
  split
  · rw [Heap.setLast, look_links (by simp), Heap.setFirst, look_links (by simp), Heap.setParent, look_links (by simp)]
  · rw [Heap.setLast, look_links (by simp), Heap.setNext, look_links (by simp), Heap.setPrev, look_links (by simp),
      Heap.setParent, look_links (by simp)]

/-- A separate element becomes the last child. -/
theorem TreeGrown.add {h : Heap} {F : Forest} {n i c : Nat} (g : TreeGrown h F n) (hi : i < n) (hc : c < n) (hn : (h i).isNode = true)
    (htop : ∀ m, c ∉ F m) (hw : ¬ Within F c i) : TreeGrown (addChild h i (some c) none) (put F i (F i ++ [c])) n where
  rep := by
    have hp : (h c).parent = none := by
      cases hq : (h c).parent with
      | none => rfl
      | some m => exact absurd ((g.rep.parent m c).1 hq) (htop m)
    have := (Tree.addChild_rep g.rep hp hn (a := F i) (b := []) (by simp) hw).1
    exact this
  clean := fun k hk => by
    have hlook := look_addChild h i c k
    have hck := g.clean k hk
    have hp : (h c).parent = none := by
      cases hq : (h c).parent with
      | none => rfl
      | some m => exact absurd ((g.rep.parent m c).1 hq) (htop m)
    have hf := Tree.addChild_fields g.rep hp hn (a := F i) (b := []) (by simp) k
    simp only [List.head?_nil] at hf
    obtain ⟨h1, h2, h3, h4, h5, h6⟩ := hf
    rw [if_neg (by omega)] at h1 h2 h3
    replace h2 : (addChild h i (some c) none k).prev = (h k).prev := by rw [h2]; rfl
    rw [if_neg (fun hl => g.out k hk i (List.mem_of_getLast? hl))] at h3
    rw [if_neg (by omega)] at h4 h5
    rw [hck] at h1 h2 h3 h4 h5 h6
    simp only [lookAt, hck, Prod.mk.injEq] at hlook
    obtain ⟨-, h7, h8⟩ := hlook
    generalize addChild h i (some c) none k = el at *
    cases el
    simp_all
  kids := fun k hk => by rw [put, if_neg (by omega)]; exact g.kids k hk
  out := fun k hk m => by
    rw [put]
    split
    · intro hm
      rcases List.mem_append.mp hm with hm | hm
      · exact g.out k hk i hm
      · simp at hm; omega
    · exact g.out k hk m

mutual
theorem of_congr {F F' : Forest} : ∀ (t : Spec.Trees.Tree), (∀ x ∈ t.elements, F' x = F x) → t.Of F → t.Of F'
  | .node id kids, he, h => by
    simp only [Tree.Of] at h ⊢
    simp only [Tree.elements, List.mem_cons, forall_eq_or_imp] at he
    exact ⟨by rw [he.1, h.1], allOf_congr kids he.2 h.2⟩
theorem allOf_congr {F F' : Forest} : ∀ (ts : List Spec.Trees.Tree), (∀ x ∈ elementsOf ts, F' x = F x) → allOf F ts → allOf F' ts
  | [], _, _ => trivial
  | t :: ts, he, h => by
    simp only [allOf] at h ⊢
    simp only [elementsOf, List.mem_append] at he
    exact ⟨of_congr t (fun x hx => he x (.inl hx)) h.1, allOf_congr ts (fun x hx => he x (.inr hx)) h.2⟩
end

mutual
theorem built_congr {look look' : Nat → Bool × String × Option Token} {names : Nat → String} :
    ∀ (t : Spec.Trees.Tree) (i : Item), (∀ x ∈ t.elements, look' x = look x) → Built look names t i → Built look' names t i
  | .node id kids, .tok t, he, h => by
    simp only [Built] at h ⊢
    simp only [Tree.elements, List.mem_cons, forall_eq_or_imp] at he
    exact ⟨by rw [he.1, h.1], h.2⟩
  | .node id kids, .node index start items, he, h => by
    simp only [Built] at h ⊢
    simp only [Tree.elements, List.mem_cons, forall_eq_or_imp] at he
    exact ⟨by rw [he.1, h.1], builtAll_congr kids items he.2 h.2⟩
theorem builtAll_congr {look look' : Nat → Bool × String × Option Token} {names : Nat → String} :
    ∀ (ts : List Spec.Trees.Tree) (is : List Item), (∀ x ∈ elementsOf ts, look' x = look x) → builtAll look names ts is →
      builtAll look' names ts is
  | [], [], _, _ => trivial
  | t :: ts, i :: is, he, h => by
    simp only [builtAll] at h ⊢
    simp only [elementsOf, List.mem_append] at he
    exact ⟨built_congr t i (fun x hx => he x (.inl hx)) h.1, builtAll_congr ts is (fun x hx => he x (.inr hx)) h.2⟩
  | [], _ :: _, _, h => h.elim
  | _ :: _, [], _, h => h.elim
end

theorem allOf_append {F : Forest} (a b : List Spec.Trees.Tree) : allOf F (a ++ b) ↔ allOf F a ∧ allOf F b := by
  induction a with
  | nil => simp [allOf]
  | cons t a ih => simp [allOf, ih, and_assoc]

theorem elementsOf_snoc (a b : List Spec.Trees.Tree) : elementsOf (a ++ b) = elementsOf a ++ elementsOf b := by
  induction a with
  | nil => simp [elementsOf]
  | cons t a ih => simp [elementsOf, ih]

theorem builtAll_snoc {look : Nat → Bool × String × Option Token} {names : Nat → String} {t : Spec.Trees.Tree} {i : Item} :
    ∀ (ts : List Spec.Trees.Tree) (is : List Item), builtAll look names ts is → Built look names t i →
      builtAll look names (ts ++ [t]) (is ++ [i])
  | [], [], _, h => ⟨h, trivial⟩
  | _ :: ts, _ :: is, h, h' => ⟨h.1, builtAll_snoc ts is h.2 h'⟩
  | [], _ :: _, h, _ => h.elim
  | _ :: _, [], h, _ => h.elim

mutual
theorem built_tokens {h : Heap} {names : Nat → String} : ∀ (t : Spec.Trees.Tree) (i : Item), Built (lookAt h) names t i →
    (t.tokens (Tree.kinds h)).map (fun x => (h x).token) = i.leaves.map some
  | .node id kids, .tok t, hb => by
    simp only [Built, lookAt, Prod.mk.injEq] at hb
    simp [Tree.tokens, Tree.kinds, hb.1.1, hb.1.2.2, Item.leaves]
  | .node id kids, .node index start items, hb => by
    simp only [Built, lookAt, Prod.mk.injEq] at hb
    simp only [Tree.tokens, Tree.kinds, hb.1.1, if_true, Item.leaves]
    exact builtAll_tokens kids items hb.2
theorem builtAll_tokens {h : Heap} {names : Nat → String} : ∀ (ts : List Spec.Trees.Tree) (is : List Item),
    builtAll (lookAt h) names ts is → (tokensOf (Tree.kinds h) ts).map (fun x => (h x).token) = (leavesOf is).map some
  | [], [], _ => by simp [tokensOf, leavesOf]
  | t :: ts, i :: is, hb => by
    simp only [builtAll] at hb
    simp [tokensOf, leavesOf, built_tokens t i hb.1, builtAll_tokens ts is hb.2]
  | [], _ :: _, h => h.elim
  | _ :: _, [], h => h.elim
end

/-- Hooks of layer 0 build trees. -/
structure TreeHooks (env : PEnv σ) : Prop where
  layers : 0 < env.layers
  hooked : ∀ index, env.hooked 0 index = true
  made : ∀ log index start, env.onMake log (.make 0 index start) = .ok true
  result : ∀ log inst, env.onCall log (.endNode 0 inst) = .ok (some inst)

theorem withTree_hooks (env : PEnv σ) : TreeHooks (withTree env) :=
  ⟨by simp only [withTree]; omega, fun _ => rfl, fun _ _ _ => rfl, fun _ _ => rfl⟩

theorem idle_told {f : Nat → Nat → Event} (hf : ∀ l i, 0 < l → Idle (f l i)) (hooks : List (Option Nat)) (l : Nat) (hl : 0 < l) :
    ∀ e ∈ told f l hooks, Idle e := by
  induction hooks generalizing l with
  | nil => intro e he; cases he
  | cons hk hs ih =>
    cases hk with
    | none => exact ih (l + 1) (by omega)
    | some i =>
      intro e he
      rcases List.mem_cons.mp he with rfl | he
      · exact hf l i hl
      · exact ih (l + 1) (by omega) e he

theorem makes_idle {env : PEnv σ} {index : Nat} {start : Option Token} {ls : List Nat} {a b : List Event}
    {hs : List (Option Nat)} (h : Makes env index start ls a hs b) (hl : ∀ l ∈ ls, 0 < l) :
    ∃ es, b = a ++ es ∧ ∀ e ∈ es, Idle e := by
  have hidle : ∀ l, 0 < l → Idle (.make l index start) := fun l hl names h k => by
    obtain ⟨m, rfl⟩ : ∃ m, l = m + 1 := ⟨l - 1, by omega⟩
    rfl
  induction h with
  | nil => exact ⟨[], by simp, by simp⟩
  | unhooked _ _ ih => exact ih (fun l h => hl l (by simp [h]))
  | absent _ _ _ ih =>
    obtain ⟨es, h1, h2⟩ := ih (fun l h => hl l (by simp [h]))
    refine ⟨_ :: es, by rw [h1]; simp; rfl, ?_⟩
    intro e he
    rcases List.mem_cons.mp he with rfl | he
    · exact hidle _ (hl _ (by simp))
    · exact h2 e he
  | made _ _ _ ih =>
    obtain ⟨es, h1, h2⟩ := ih (fun l h => hl l (by simp [h]))
    refine ⟨_ :: es, by rw [h1]; simp; rfl, ?_⟩
    intro e he
    rcases List.mem_cons.mp he with rfl | he
    · exact hidle _ (hl _ (by simp))
    · exact h2 e he

/-- The first instance of a node belongs to layer 0. -/
theorem makes_tree {env : PEnv σ} (ht : TreeHooks env) {index : Nat} {start : Option Token} {log log1 : List Event}
    {hooks : List (Option Nat)} (h : Makes env index start (List.range env.layers) log hooks log1) :
    ∃ hs es, hooks = some log.length :: hs ∧ log1 = log ++ (.make 0 index start :: es) ∧ ∀ e ∈ es, Idle e := by
  obtain ⟨n, hn⟩ : ∃ n, env.layers = n + 1 := ⟨env.layers - 1, by have := ht.layers; omega⟩
  rw [hn, List.range_succ_eq_map] at h
  cases h with
  | unhooked h1 _ => rw [ht.hooked] at h1; simp at h1
  | absent _ h1 _ => rw [ht.made] at h1; simp at h1
  | made _ _ h1 =>
    obtain ⟨es, h2, h3⟩ := makes_idle h1 (by simp)
    exact ⟨_, es, rfl, by rw [h2]; simp, h3⟩

theorem ends_tree {env : PEnv σ} (ht : TreeHooks env) {i : Nat} {hs rs : List (Option Nat)} {log log' : List Event}
    (h : Ends env 0 (some i :: hs) log rs log') :
    (∃ rs', rs = some i :: rs') ∧ ∃ es, log' = log ++ es ∧ ∀ e ∈ es, Idle e := by
  constructor
  · cases h with
    | some h1 h2 => rw [ht.result] at h1; cases h1; exact ⟨_, rfl⟩
  · obtain ⟨es, h1, h2, -⟩ := ends_spec h
    refine ⟨es, h1, fun e he => ?_⟩
    obtain ⟨l, j, rfl⟩ := h2 e he
    intro _ _ _; rfl

/-- What a finished node leaves: a separate tree of new elements. -/
def NodeGrows (names : Nat → String) (index : Nat) (start : Option Token) (items : List Item) (log : List Event)
    (results : List (Option Nat)) (log' : List Event) : Prop :=
  log.length ≤ log'.length ∧ ∀ F, TreeGrown (treeHeap names log) F log.length → ∃ (F' : Forest) (t : Spec.Trees.Tree),
    TreeGrown (treeHeap names log') F' log'.length ∧ (∀ k < log.length, F' k = F k) ∧
    (∀ k < log.length, lookAt (treeHeap names log') k = lookAt (treeHeap names log) k) ∧
    (∀ m k, m ∈ F' k → m ∈ F k ∨ m ∈ t.elements) ∧ t.Of F' ∧ (∀ m, t.id ∉ F' m) ∧ (∀ x ∈ t.elements, log.length ≤ x ∧ x < log'.length) ∧
    Built (lookAt (treeHeap names log')) names t (.node index start items) ∧ ∃ rs, results = some t.id :: rs

/-- What the content of a node leaves. -/
def ItemsGrow (names : Nat → String) (hooks : List (Option Nat)) (items : List Item) (log log' : List Event) : Prop :=
  log.length ≤ log'.length ∧ ∀ F i hs, hooks = some i :: hs → TreeGrown (treeHeap names log) F log.length → i < log.length →
    (treeHeap names log i).isNode = true → F i = [] → ∃ (F' : Forest) (ts : List Spec.Trees.Tree),
    TreeGrown (treeHeap names log') F' log'.length ∧ (∀ k < log.length, k ≠ i → F' k = F k) ∧
    (∀ k < log.length, lookAt (treeHeap names log') k = lookAt (treeHeap names log) k) ∧
    F' i = ts.map Tree.id ∧ (∀ m k, m ∈ F' k → m ∈ F k ∨ m ∈ elementsOf ts) ∧ allOf F' ts ∧
    (∀ x ∈ elementsOf ts, log.length ≤ x ∧ x < log'.length) ∧
    builtAll (lookAt (treeHeap names log')) names ts items

theorem grows_mk {env : PEnv σ} (ht : TreeHooks env) (names : Nat → String) {index : Nat} {start : Option Token}
    {items : List Item} {log log1 log2 log3 : List Event} {hooks results : List (Option Nat)}
    (h1 : Makes env index start (List.range env.layers) log hooks log1) (h3 : Ends env 0 hooks log2 results log3)
    (ih : ItemsGrow names hooks items log1 log2) : NodeGrows names index start items log results log3 := by
  obtain ⟨hs, es, rfl, rfl, hid⟩ := makes_tree ht h1
  obtain ⟨hrs, es', rfl, hid'⟩ := ends_tree ht h3
  obtain ⟨hl, ih⟩ := ih
  have hlen : (log ++ Event.make 0 index start :: es).length = log.length + 1 + es.length := by simp; omega
  rw [hlen] at hl ih
  refine ⟨by simp; omega, fun F g => ?_⟩
  have hh1 : treeHeap names (log ++ Event.make 0 index start :: es) =
      (treeHeap names log).set log.length (newNodeElement (names index) start) := by
    rw [show log ++ Event.make 0 index start :: es = (log ++ [Event.make 0 index start]) ++ es by simp,
      treeHeap_idle _ _ _ hid, treeHeap_snoc]
    rfl
  rw [hh1] at ih
  have g1 : TreeGrown ((treeHeap names log).set log.length (newNodeElement (names index) start)) F (log.length + 1) :=
    g.new (e := newNodeElement (names index) start) ⟨rfl, rfl, rfl, rfl, rfl⟩
  obtain ⟨F', ts, g2, k1, k2, k3, k4, k5, k6, k7⟩ := ih F log.length hs rfl (g1.mono (by omega)) (by omega)
    (by simp [Heap.set, newNodeElement]) (g.kids _ (le_refl _))
  have hh2 := treeHeap_idle names log2 es' hid'
  rw [hh2]
  have hnode : lookAt (treeHeap names log2) log.length = (true, names index, start) := by
    rw [k2 _ (by omega)]; simp [lookAt, Heap.set, newNodeElement]
  refine ⟨F', .node log.length ts, g2.mono (by simp), fun k hk => k1 k (by omega) (by omega), ?_,
    fun m k hm => (k4 m k hm).imp_right fun h => by simp [Tree.elements, h], ⟨k3, k5⟩, ?_, ?_, ?_, ?_⟩
  · intro k hk; rw [k2 k (by omega), look_new (by omega)]
  · intro m hm
    simp only [Tree.id] at hm
    rcases k4 _ m hm with h | h
    · exact g.out _ (le_refl _) m h
    · have := k6 _ h; omega
  · intro x hx
    simp only [Tree.elements, List.mem_cons] at hx
    rcases hx with rfl | hx
    · simp; omega
    · have := k6 x hx; simp; omega
  · exact ⟨hnode, k7⟩
  · exact hrs

theorem put_other {F : Forest} {n : Nat} {l : List Nat} {m : Nat} (h : m ≠ n) : put F n l m = F m := by simp [put, h]

theorem grow_nil (names : Nat → String) {hooks : List (Option Nat)} {log : List Event} : ItemsGrow names hooks [] log log :=
  ⟨le_refl _, fun F i _ _ g _ _ hF => ⟨F, [], g, fun _ _ _ => rfl, fun _ _ => rfl, by simp [hF], fun _ _ h => .inl h, trivial,
    by simp [elementsOf], trivial⟩⟩

theorem grow_tok {env : PEnv σ} (names : Nat → String) {hooks : List (Option Nat)} {items : List Item}
    {log log1 log2 : List Event} {t : Token} (h : Calls env log1 (told (fun l i => .token l i t) 0 hooks) log2)
    (ih : ItemsGrow names hooks items log log1) : ItemsGrow names hooks (items ++ [.tok t]) log log2 := by
  have hlog := calls_log h
  obtain ⟨hl, ih⟩ := ih
  refine ⟨by rw [hlog]; simp; omega, ?_⟩
  rintro F i hs rfl g hi hn hF
  obtain ⟨F', ts, g2, k1, k2, k3, k4, k5, k6, k7⟩ := ih F i hs rfl g hi hn hF
  rw [told] at hlog
  have hidle : ∀ e ∈ told (fun l i => Event.token l i t) (0 + 1) hs, Idle e := idle_told (fun l i hl names h k => by
    obtain ⟨m, rfl⟩ : ∃ m, l = m + 1 := ⟨l - 1, by omega⟩
    rfl) hs 1 (by omega)
  generalize told (fun l i => Event.token l i t) (0 + 1) hs = es at *
  have hh : treeHeap names log2 = addChild ((treeHeap names log1).set log1.length (newTokenElement t)) i (some log1.length) none := by
    rw [hlog, show log1 ++ Event.token 0 i t :: es = (log1 ++ [Event.token 0 i t]) ++ es by simp,
      treeHeap_idle _ _ _ hidle, treeHeap_snoc]
    rfl
  have hlen : log1.length + 1 ≤ log2.length := by rw [hlog]; simp
  have g3 : TreeGrown ((treeHeap names log1).set log1.length (newTokenElement t)) F' (log1.length + 1) :=
    g2.new (e := newTokenElement t) ⟨rfl, rfl, rfl, rfl, rfl⟩
  have hnode : lookAt (treeHeap names log1) i = lookAt (treeHeap names log) i := k2 i hi
  have hnode' : (treeHeap names log1 i).isNode = true := by
    have := congrArg Prod.fst hnode
    simpa [lookAt, hn] using this
  have g4 := g3.add (i := i) (c := log1.length) (by omega) (by omega) (by
    have : lookAt ((treeHeap names log1).set log1.length (newTokenElement t)) i = lookAt (treeHeap names log1) i :=
      look_new (by omega)
    have := congrArg Prod.fst this
    simpa [lookAt, hnode'] using this) (g2.out _ (le_refl _)) (by
      intro hw
      rcases Relation.ReflTransGen.cases_head hw with h | ⟨c, hc, _⟩
      · omega
      · rw [g2.kids _ (le_refl _)] at hc; simp at hc)
  rw [← hh] at g4
  have hlook : ∀ x, x ≠ log1.length → lookAt (treeHeap names log2) x = lookAt (treeHeap names log1) x := fun x hx => by
    rw [hh, look_addChild, look_new hx]
  refine ⟨_, ts ++ [.node log1.length []], g4.mono hlen, ?_, ?_, ?_, ?_, ?_, ?_, ?_⟩
  · intro k hk hki; rw [put_other hki]; exact k1 k hk hki
  · intro k hk; rw [hlook k (by omega)]; exact k2 k hk
  · simp [put, k3, Tree.id]
  · intro m k hk
    rw [elementsOf_snoc, List.mem_append]
    by_cases hki : k = i
    · subst hki
      rw [put, if_pos rfl] at hk
      rcases List.mem_append.mp hk with hk | hk
      · exact (k4 m k hk).imp_right .inl
      · simp at hk; simp [elementsOf, Tree.elements, hk]
    · rw [put_other hki] at hk; exact (k4 m k hk).imp_right .inl
  · rw [allOf_append]
    refine ⟨allOf_congr ts (fun x hx => put_other (by have := k6 x hx; omega)) k5, ⟨?_, trivial⟩, trivial⟩
    rw [put_other (by omega)]
    simpa using g2.kids _ (le_refl _)
  · intro x hx
    rw [elementsOf_snoc, List.mem_append] at hx
    rcases hx with hx | hx
    · have := k6 x hx; omega
    · simp [elementsOf, Tree.elements] at hx; omega
  · refine builtAll_snoc ts items (builtAll_congr ts items (fun x hx => hlook x (by have := k6 x hx; omega)) k7) ⟨?_, rfl⟩
    rw [hh, look_addChild]
    simp [lookAt, Heap.set, newTokenElement]

theorem grow_node {env : PEnv σ} (names : Nat → String) {hooks : List (Option Nat)} {items its : List Item}
    {log log1 log2 log3 log4 : List Event} {index : Nat} {start : Option Token} {rs : List (Option Nat)}
    (h : Calls env log1 (told (fun l i => .newNode l i index start) 0 hooks) log2)
    (h' : Calls env log3 (told (fun l i => .handleNode l i index ((rs[l]?).getD none)) 0 hooks) log4)
    (ih : ItemsGrow names hooks items log log1) (ihn : NodeGrows names index start its log2 rs log3) :
    ItemsGrow names hooks (items ++ [.node index start its]) log log4 := by
  have hlog := calls_log h
  have hlog' := calls_log h'
  obtain ⟨hl, ih⟩ := ih
  obtain ⟨hl', ihn⟩ := ihn
  have hl2 : log1.length ≤ log2.length := by rw [hlog]; simp
  refine ⟨by rw [hlog']; simp; omega, ?_⟩
  rintro F i hs rfl g hi hn hF
  obtain ⟨F', ts, g2, k1, k2, k3, k4, k5, k6, k7⟩ := ih F i hs rfl g hi hn hF
  have hh2 : treeHeap names log2 = treeHeap names log1 := by
    rw [hlog]
    refine treeHeap_idle _ _ _ (fun e he => ?_)
    obtain ⟨l, j, rfl⟩ := mem_told _ _ he
    intro _ _ _; rfl
  obtain ⟨F2, t, g3, m1, m2, m3, m4, m5, m6, m7, rs', hrs⟩ := ihn F' (by rw [hh2]; exact g2.mono hl2)
  rw [hh2] at m2
  rw [told] at hlog'
  have hidle : ∀ e ∈ told (fun l i => Event.handleNode l i index ((rs[l]?).getD none)) (0 + 1) hs, Idle e :=
    idle_told (fun l i hl names h k => by
      obtain ⟨m, rfl⟩ : ∃ m, l = m + 1 := ⟨l - 1, by omega⟩
      rfl) hs 1 (by omega)
  generalize told (fun l i => Event.handleNode l i index ((rs[l]?).getD none)) (0 + 1) hs = es at *
  have hh : treeHeap names log4 = addChild (treeHeap names log3) i (some t.id) none := by
    rw [hlog', hrs, show ∀ e, log3 ++ e :: es = (log3 ++ [e]) ++ es by simp, treeHeap_idle _ _ _ hidle, treeHeap_snoc]
    rfl
  have hlen : log3.length ≤ log4.length := by rw [hlog']; simp
  have hid := m6 t.id (by cases t; simp [Tree.id, Tree.elements])
  have hnode : lookAt (treeHeap names log3) i = lookAt (treeHeap names log) i := by
    rw [m2 i (by omega), k2 i hi]
  have hnode' : (treeHeap names log3 i).isNode = true := by
    have := congrArg Prod.fst hnode
    simpa [lookAt, hn] using this
  have g4 := g3.add (i := i) (c := t.id) (by omega) (by omega) hnode' m5 (by
    intro hw
    have := m6 i ((Tree.mem_elements t m4 i).mpr hw)
    omega)
  rw [← hh] at g4
  have hlook : ∀ x, lookAt (treeHeap names log4) x = lookAt (treeHeap names log3) x := fun x => by
    rw [hh, look_addChild]
  refine ⟨_, ts ++ [t], g4.mono hlen, ?_, ?_, ?_, ?_, ?_, ?_, ?_⟩
  · intro k hk hki; rw [put_other hki, m1 k (by omega)]; exact k1 k hk hki
  · intro k hk; rw [hlook k, m2 k (by omega)]; exact k2 k hk
  · simp [put, m1 i (by omega), k3]
  · intro m k hk
    have both : m ∈ F2 k → m ∈ F k ∨ m ∈ elementsOf ts ∨ m ∈ elementsOf [t] := fun h => by
      rcases m3 m k h with h | h
      · exact (k4 m k h).imp_right .inl
      · exact .inr (.inr (by simp [elementsOf, h]))
    rw [elementsOf_snoc, List.mem_append]
    by_cases hki : k = i
    · subst hki
      rw [put, if_pos rfl] at hk
      rcases List.mem_append.mp hk with hk | hk
      · exact both hk
      · rw [List.mem_singleton] at hk
        subst hk
        exact .inr (.inr (by cases t; simp [elementsOf, Tree.elements, Tree.id]))
    · rw [put_other hki] at hk; exact both hk
  · rw [allOf_append]
    refine ⟨allOf_congr ts (fun x hx => ?_) k5, of_congr t (fun x hx => ?_) m4, trivial⟩
    · have := k6 x hx; rw [put_other (by omega)]; exact m1 x (by omega)
    · have := m6 x hx; exact put_other (by omega)
  · intro x hx
    rw [elementsOf_snoc, List.mem_append] at hx
    rcases hx with hx | hx
    · have := k6 x hx; omega
    · simp only [elementsOf, List.append_nil] at hx
      have := m6 x hx; omega
  · refine builtAll_snoc ts items (builtAll_congr ts items (fun x hx => ?_) k7) (built_congr t _ (fun x _ => hlook x) m7)
    have := k6 x hx; rw [hlook, m2 x (by omega)]

/-- A finished node leaves a tree. -/
theorem nodeRun_grows {env : PEnv σ} (ht : TreeHooks env) (names : Nat → String) {index : Nat} {start : Option Token}
    {items : List Item} {log log' : List Event} {hooks results : List (Option Nat)}
    (h : NodeRun env index start items log hooks results log') : NodeGrows names index start items log results log' := by
  refine NodeRun.rec (motive_1 := fun index start items a _ rs b _ => NodeGrows names index start items a rs b)
    (motive_2 := fun hooks items a b _ => ItemsGrow names hooks items a b) ?_ ?_ ?_ ?_ h
  · intro _ _ _ _ _ _ _ _ _ hm _ he ih
    exact grows_mk ht names hm he ih
  · intros; exact grow_nil names
  · intro _ _ _ _ _ _ _ hc ih
    exact grow_tok names hc ih
  · intro _ _ _ _ _ _ _ _ _ _ _ _ _ hc _ hc' ih ih'
    exact grow_node names hc hc' ih ih'

end Verif.Proof
