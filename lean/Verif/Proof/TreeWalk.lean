import Verif.Proof.TreeEdit

namespace Verif.Model.Tree

open Verif.Spec Verif.Spec.Trees

/-! Trees of a forest -/

theorem allOf_iff {F : Forest} {ts : List Tree} : Trees.allOf F ts ↔ ∀ t ∈ ts, t.Of F := by
  induction ts with
  | nil => simp [Trees.allOf]
  | cons t ts ih => simp [Trees.allOf, ih]

theorem exists_trees {F : Forest} (l : List Nat) (h : ∀ x ∈ l, ∃ t : Tree, t.Of F ∧ t.id = x) :
    ∃ ts : List Tree, Trees.allOf F ts ∧ ts.map Tree.id = l := by
  induction l with
  | nil => exact ⟨[], by simp [Trees.allOf]⟩
  | cons x l ih =>
    obtain ⟨t, ht, hx⟩ := h x (by simp)
    obtain ⟨ts, hts, e⟩ := ih fun y hy => h y (by simp [hy])
    exact ⟨t :: ts, by simp [Trees.allOf, ht, hts], by simp [hx, e]⟩

theorem exists_tree {F : Forest} (w : WellFounded (fun c p => c ∈ F p)) (x : Nat) :
    ∃ t : Tree, t.Of F ∧ t.id = x := by
  induction x using w.induction with
  | _ x ih =>
    obtain ⟨ts, hts, e⟩ := exists_trees (F x) ih
    exact ⟨.node x ts, by simp [Tree.Of, hts, e], rfl⟩

mutual
theorem tree_unique {F : Forest} : ∀ (t t' : Tree), t.Of F → t'.Of F → t.id = t'.id → t = t'
  | .node id kids, .node id' kids', h, h', e => by
    simp only [Tree.id] at e
    subst e
    simp only [Tree.Of] at h h'
    rw [trees_unique kids kids' h.2 h'.2 (h.1.symm.trans h'.1)]
theorem trees_unique {F : Forest} : ∀ (ts ts' : List Tree), Trees.allOf F ts → Trees.allOf F ts' →
    ts.map Tree.id = ts'.map Tree.id → ts = ts'
  | [], [], _, _, _ => rfl
  | [], _ :: _, _, _, e => by simp at e
  | _ :: _, [], _, _, e => by simp at e
  | t :: ts, t' :: ts', h, h', e => by
    simp only [Trees.allOf] at h h'
    simp at e
    rw [tree_unique t t' h.1 h'.1 e.1, trees_unique ts ts' h.2 h'.2 (by simpa using e.2)]
end

mutual
theorem mem_elements {F : Forest} : ∀ (t : Tree), t.Of F → ∀ y, y ∈ t.elements ↔ Within F t.id y
  | .node id kids, h, y => by
    simp only [Tree.Of] at h
    simp only [Tree.elements, List.mem_cons, Tree.id]
    rw [mem_elementsOf kids h.2 y]
    constructor
    · rintro (rfl | ⟨t, ht, hw⟩)
      · exact .refl
      · exact Relation.ReflTransGen.head (by rw [h.1]; exact List.mem_map_of_mem ht) hw
    · intro hw
      rcases Relation.ReflTransGen.cases_head hw with e | ⟨c, hc, hw⟩
      · exact Or.inl e.symm
      · rw [h.1, List.mem_map] at hc
        obtain ⟨t, ht, e⟩ := hc
        exact Or.inr ⟨t, ht, e ▸ hw⟩
theorem mem_elementsOf {F : Forest} : ∀ (ts : List Tree), Trees.allOf F ts → ∀ y, y ∈ elementsOf ts ↔
    ∃ t ∈ ts, Within F t.id y
  | [], _, y => by simp [elementsOf]
  | t :: ts, h, y => by
    simp only [Trees.allOf] at h
    simp only [elementsOf, List.mem_append, mem_elements t h.1 y, mem_elementsOf ts h.2 y]
    simp
end

theorem within_linear {F : Forest} (hu : ∀ {x m n}, x ∈ F m → x ∈ F n → m = n) {a b y : Nat} (ha : Within F a y)
    (hb : Within F b y) : Within F a b ∨ Within F b a := by
  induction ha with
  | refl => exact Or.inr hb
  | @tail c d _ hd ih =>
    rcases Relation.ReflTransGen.cases_tail hb with e | ⟨c', hb', hc'⟩
    · subst e
      exact Or.inl (Relation.ReflTransGen.tail ‹_› hd)
    · have := hu hd hc'
      subst this
      exact ih hb'

theorem Rep.no_cycle {h : Heap} {F : Forest} (r : Rep h F) {p c : Nat} (hc : c ∈ F p) : ¬ Within F c p := fun hw => by
  have hcyc : Relation.TransGen (fun p c => c ∈ F p) p p := Relation.TransGen.head' hc hw
  exact (WellFounded.transGen r.up).asymmetric _ _ hcyc hcyc

theorem Rep.sibling_not_within {h : Heap} {F : Forest} (r : Rep h F) {p a b : Nat} (ha : a ∈ F p) (hb : b ∈ F p)
    (hw : Within F a b) : a = b := by
  rcases Relation.ReflTransGen.cases_tail hw with e | ⟨c, hw', hc⟩
  · exact e.symm
  · have := r.unique_parent hb hc
    subst this
    exact absurd hw' (r.no_cycle ha)

mutual
theorem nodup_elements {h : Heap} {F : Forest} (r : Rep h F) : ∀ (t : Tree), t.Of F → t.elements.Nodup
  | .node id kids, ht => by
    have ht' := ht
    simp only [Tree.Of] at ht
    simp only [Tree.elements, List.nodup_cons]
    refine ⟨fun hm => ?_, nodup_elementsOf r id kids ht.2 (by rw [ht.1]; simp) (by rw [← ht.1]; exact r.nodup id)⟩
    rw [mem_elementsOf kids ht.2] at hm
    obtain ⟨t, hm, hw⟩ := hm
    exact r.no_cycle (by rw [ht.1]; exact List.mem_map_of_mem hm) hw
theorem nodup_elementsOf {h : Heap} {F : Forest} (r : Rep h F) (p : Nat) : ∀ (ts : List Tree), Trees.allOf F ts →
    (∀ x ∈ ts.map Tree.id, x ∈ F p) → (ts.map Tree.id).Nodup → (elementsOf ts).Nodup
  | [], _, _, _ => by simp [elementsOf]
  | t :: ts, ha, hin, hd => by
    simp only [Trees.allOf] at ha
    simp only [List.map_cons, List.nodup_cons] at hd
    simp only [elementsOf]
    rw [List.nodup_append]
    refine ⟨nodup_elements r t ha.1, nodup_elementsOf r p ts ha.2 (fun x hx => hin x (by
      simp only [List.map_cons]; exact List.mem_cons_of_mem _ hx)) hd.2, ?_⟩
    rintro y hy z hz rfl
    rw [mem_elements t ha.1] at hy
    rw [mem_elementsOf ts ha.2] at hz
    obtain ⟨t', hm, hz⟩ := hz
    have h1 := hin t.id (by simp)
    have h2 : t'.id ∈ F p := hin t'.id (by
      simp only [List.map_cons]; exact List.mem_cons_of_mem _ (List.mem_map_of_mem hm))
    have e : t.id = t'.id := by
      rcases within_linear (fun a b => r.unique_parent a b) hy hz with hw | hw
      · exact r.sibling_not_within h1 h2 hw
      · exact (r.sibling_not_within h2 h1 hw).symm
    exact hd.1 (e ▸ List.mem_map_of_mem hm)
end

/-! The mirror -/

/-- Left and right swapped. -/
def flipHeap (h : Heap) : Heap := fun n =>
  { h n with prev := (h n).next, next := (h n).prev, firstChild := (h n).lastChild, lastChild := (h n).firstChild }

/-- Lists of children reversed. -/
def revF (F : Forest) : Forest := fun n => (F n).reverse

theorem rep_mirror {h : Heap} {F : Forest} (r : Rep h F) : Rep (flipHeap h) (revF F) where
  parent := by intro n x; simpa [flipHeap, revF] using r.parent n x
  link := by
    intro n a x b e
    have e' : F n = b.reverse ++ x :: a.reverse := by
      have := congrArg List.reverse e
      simpa [revF] using this
    obtain ⟨h1, h2⟩ := r.link n _ _ _ e'
    constructor
    · simpa [flipHeap] using h2
    · simpa [flipHeap] using h1
  nodup := by intro n; exact (List.reverse_perm _).nodup_iff.2 (r.nodup n)
  first := by intro n hn; simpa [flipHeap, revF] using r.last n hn
  last := by intro n hn; simpa [flipHeap, revF] using r.first n hn
  token := by intro n hn; simp [revF, r.token n hn]
  alone := by intro x hx; exact ⟨(r.alone x hx).2, (r.alone x hx).1⟩
  down := by simpa [revF] using r.down
  up := by simpa [revF] using r.up

theorem mirrorAll_map (ts : List Tree) : (mirrorAll ts).map Tree.id = (ts.map Tree.id).reverse := by
  induction ts with
  | nil => rfl
  | cons t ts ih =>
    cases t
    simp [mirrorAll, ih, Tree.mirror, Tree.id]

mutual
theorem mirror_of {F : Forest} : ∀ (t : Tree), t.Of F → t.mirror.Of (revF F)
  | .node id kids, h => by
    simp only [Tree.Of] at h
    simp only [Tree.mirror, Tree.Of, mirrorAll_map, ← h.1]
    exact ⟨rfl, mirrorAll_of kids h.2⟩
theorem mirrorAll_of {F : Forest} : ∀ (ts : List Tree), Trees.allOf F ts → Trees.allOf (revF F) (mirrorAll ts)
  | [], _ => by simp [mirrorAll, Trees.allOf]
  | t :: ts, h => by
    simp only [Trees.allOf] at h
    simp only [mirrorAll]
    have h1 := allOf_iff.1 (mirrorAll_of ts h.2)
    rw [allOf_iff]
    intro t' ht'
    rcases List.mem_append.1 ht' with ht' | ht'
    · exact h1 t' ht'
    · simp at ht'
      subst ht'
      exact mirror_of t h.1
end

theorem mirror_id (t : Tree) : t.mirror.id = t.id := by cases t; rfl

theorem tokensOf_append (k : Nat → Bool) (a b : List Tree) : tokensOf k (a ++ b) = tokensOf k a ++ tokensOf k b := by
  induction a with
  | nil => simp [tokensOf]
  | cons t a ih => simp [tokensOf, ih]

mutual
theorem tokens_mirror (k : Nat → Bool) : ∀ t : Tree, t.mirror.tokens k = (t.tokens k).reverse
  | .node id kids => by
    simp only [Tree.mirror, Tree.tokens]
    split
    · exact tokensOf_mirror k kids
    · simp
theorem tokensOf_mirror (k : Nat → Bool) : ∀ ts : List Tree, tokensOf k (mirrorAll ts) = (tokensOf k ts).reverse
  | [] => by simp [mirrorAll, tokensOf]
  | t :: ts => by
    simp only [mirrorAll, tokensOf, tokensOf_append, tokensOf_mirror k ts, tokens_mirror k t]
    simp
end

/-- The walker that goes the other way. -/
def Walker.flip (w : Walker) : Walker := { w with rtl := !w.rtl }

theorem sibling_mirror (h : Heap) (rtl : Bool) (cur f : Nat) :
    sibling (flipHeap h) (!rtl) cur f = sibling h rtl cur f := by
  cases rtl <;> simp [sibling, flipHeap]

theorem exitLoop_mirror (h : Heap) (w : Walker) (root : Nat) : ∀ (st : List Nat) (cur f : Nat),
    exitLoop (flipHeap h) w.flip root st cur f =
      ((exitLoop h w root st cur f).1.flip, (exitLoop h w root st cur f).2)
  | [], cur, f => by
    have e : sibling (flipHeap h) w.flip.rtl cur f = sibling h w.rtl cur f := sibling_mirror h w.rtl cur f
    simp only [exitLoop]
    rw [e]
    by_cases hc : cur = root
    · simp only [if_pos hc]; rfl
    · simp only [if_neg hc]
      cases sibling h w.rtl cur f <;> rfl
  | g :: st, cur, f => by
    have e : sibling (flipHeap h) w.flip.rtl cur f = sibling h w.rtl cur f := sibling_mirror h w.rtl cur f
    have ep : (flipHeap h cur).parent = (h cur).parent := rfl
    simp only [exitLoop]
    rw [e, ep]
    by_cases hc : cur = root
    · simp only [if_pos hc]; rfl
    · simp only [if_neg hc]
      cases sibling h w.rtl cur f with
      | some n => rfl
      | none =>
        cases (h cur).parent with
        | none => rfl
        | some n =>
          by_cases hl : (g :: st).length < 2
          · simp only [if_pos hl]; rfl
          · simp only [if_neg hl]
            exact exitLoop_mirror h w root st n g

theorem step_mirror (h : Heap) (w : Walker) (f : Nat) :
    step (flipHeap h) w.flip f = ((step h w f).1.flip, (step h w f).2) := by
  unfold step
  have key : ∀ w : Walker, (match w.flip.root with
      | none => (w.flip, (none : Stat))
      | some root => match w.flip.current with
        | none => ({ w.flip with current := some root }, some (root, 0))
        | some cur =>
          match (if (flipHeap h cur).isNode && !flagSkipChildren f then
            (if w.flip.rtl then (flipHeap h cur).lastChild else (flipHeap h cur).firstChild) else none) with
          | some n => ({ w.flip with current := some n, flagStack := pushFlags w.flip.flagStack f },
              some (n, (pushFlags w.flip.flagStack f).length))
          | none => exitLoop (flipHeap h) w.flip root w.flip.flagStack cur f) =
      let x : Walker × Stat := (match w.root with
      | none => (w, (none : Stat))
      | some root => match w.current with
        | none => ({ w with current := some root }, some (root, 0))
        | some cur =>
          match (if (h cur).isNode && !flagSkipChildren f then
            (if w.rtl then (h cur).lastChild else (h cur).firstChild) else none) with
          | some n => ({ w with current := some n, flagStack := pushFlags w.flagStack f },
              some (n, (pushFlags w.flagStack f).length))
          | none => exitLoop h w root w.flagStack cur f)
      (x.1.flip, x.2) := by
    rintro ⟨root, cur, st, rtl⟩
    cases root with
    | none => rfl
    | some root =>
      cases cur with
      | none => rfl
      | some cur =>
        have e : (if (flipHeap h cur).isNode && !flagSkipChildren f then
            (if (Walker.flip ⟨some root, some cur, st, rtl⟩).rtl then (flipHeap h cur).lastChild
              else (flipHeap h cur).firstChild) else none) =
            (if (h cur).isNode && !flagSkipChildren f then
            (if rtl then (h cur).lastChild else (h cur).firstChild) else none) := by
          cases rtl <;> simp [flipHeap, Walker.flip]
        have e1 : (Walker.flip ⟨some root, some cur, st, rtl⟩).root = some root := rfl
        have e2 : (Walker.flip ⟨some root, some cur, st, rtl⟩).current = some cur := rfl
        simp only [e, e1, e2]
        cases (if (h cur).isNode && !flagSkipChildren f then
            (if rtl then (h cur).lastChild else (h cur).firstChild) else none) with
        | some n => rfl
        | none => exact exitLoop_mirror h ⟨some root, some cur, st, rtl⟩ root _ _ _
  by_cases hs : flagStop f = true
  · simp only [hs, if_true]
    exact key { w with root := none, flagStack := [] }
  · simp only [hs]
    exact key w

theorem walkLoop_mirror {σ : Type} (h : Heap) (v : σ → Nat × Nat → σ × Nat) : ∀ (fuel : Nat) (w : Walker) (st : Stat) (s : σ),
    walkLoop (flipHeap h) v fuel (w.flip, st) s = walkLoop h v fuel (w, st) s
  | 0, _, _, _ => by simp [walkLoop]
  | fuel + 1, w, none, s => by simp [walkLoop]
  | fuel + 1, w, some st, s => by
    simp only [walkLoop]
    rw [step_mirror, walkLoop_mirror h v fuel]

theorem walk_rtl {σ : Type} (h : Heap) (fuel : Nat) (root : Option Nat) (v : σ → Nat × Nat → σ × Nat) (s : σ) :
    walk h fuel root true v s = walk (flipHeap h) fuel root false v s := by
  unfold walk
  have e : newWalker root false = (newWalker root true).flip := rfl
  rw [e, step_mirror, walkLoop_mirror]

mutual
theorem firstToken_mirror (h : Heap) : ∀ (fuel : Nat) (n : Option Nat), lastToken h fuel n = firstToken (flipHeap h) fuel n
  | 0, _ => by simp [firstToken, lastToken]
  | _ + 1, none => by simp [firstToken, lastToken]
  | fuel + 1, some n => by
    simp only [firstToken, lastToken]
    rw [firstTokenLoop_mirror h fuel]
    rfl
theorem firstTokenLoop_mirror (h : Heap) : ∀ (fuel : Nat) (n : Option Nat),
    lastTokenLoop h fuel n = firstTokenLoop (flipHeap h) fuel n
  | 0, _ => by simp [firstTokenLoop, lastTokenLoop]
  | _ + 1, none => by simp [firstTokenLoop, lastTokenLoop]
  | fuel + 1, some n => by
    simp only [firstTokenLoop, lastTokenLoop]
    rw [firstToken_mirror h fuel, firstTokenLoop_mirror h fuel]
    rfl
end

theorem nextLoop_mirror (h : Heap) : ∀ (fuel : Nat) (n : Nat), prevLoop h fuel n = nextLoop (flipHeap h) fuel n
  | 0, _ => by simp [prevLoop, nextLoop]
  | fuel + 1, n => by
    simp only [prevLoop, nextLoop]
    have e1 : (flipHeap h n).next = (h n).prev := rfl
    have e2 : (flipHeap h n).parent = (h n).parent := rfl
    rw [e1, e2]
    cases (h n).prev with
    | some _ => rfl
    | none =>
      cases (h n).parent with
      | none => rfl
      | some p => exact nextLoop_mirror h fuel p

theorem prevToken_mirror (h : Heap) (fuel : Nat) (n : Option Nat) : prevToken h fuel n = nextToken (flipHeap h) fuel n := by
  cases n with
  | none => rfl
  | some n =>
    simp only [prevToken, nextToken]
    rw [nextLoop_mirror]
    cases nextLoop (flipHeap h) fuel n with
    | panic => rfl
    | timeout => rfl
    | done x =>
      cases x with
      | none => rfl
      | some y => exact firstToken_mirror h fuel (some y)

end Verif.Model.Tree
