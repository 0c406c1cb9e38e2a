import Verif.Proof.TreeVisit

namespace Verif.Model.Tree

open Verif.Spec Verif.Spec.Trees

mutual
theorem firstToken_spec {h : Heap} {F : Forest} (r : Rep h F) : ∀ (t : Tree), t.Of F →
    ∃ N, ∀ fuel, N ≤ fuel → firstToken h fuel (some t.id) = .done (t.tokens (kinds h)).head?
  | .node id kids, ht => by
    simp only [Tree.Of] at ht
    by_cases hn : (h id).isNode = true
    · obtain ⟨N, hN⟩ := firstTokenLoop_spec r id kids ht.2 [] (by simpa using ht.1)
      refine ⟨N + 1, fun fuel hf => ?_⟩
      obtain ⟨k, rfl⟩ : ∃ k, fuel = k + 1 := ⟨fuel - 1, by omega⟩
      have hk : kinds h id = true := hn
      simp only [firstToken, Tree.id, hn, if_true, Tree.tokens, hk]
      rw [r.first id hn, ht.1, hN k (by omega)]
    · refine ⟨1, fun fuel hf => ?_⟩
      obtain ⟨k, rfl⟩ : ∃ k, fuel = k + 1 := ⟨fuel - 1, by omega⟩
      have hk : ¬ kinds h id = true := hn
      simp [firstToken, Tree.id, Tree.tokens, hn, hk]
theorem firstTokenLoop_spec {h : Heap} {F : Forest} (r : Rep h F) (p : Nat) : ∀ (ts : List Tree), Trees.allOf F ts →
    ∀ pre, F p = pre ++ ts.map Tree.id →
    ∃ N, ∀ fuel, N ≤ fuel → firstTokenLoop h fuel (ts.map Tree.id).head? = .done (tokensOf (kinds h) ts).head?
  | [], _, _, _ => ⟨1, fun fuel hf => by
      obtain ⟨k, rfl⟩ : ∃ k, fuel = k + 1 := ⟨fuel - 1, by omega⟩
      simp [firstTokenLoop, tokensOf]⟩
  | t :: ts, ha, pre, hF => by
    simp only [Trees.allOf] at ha
    obtain ⟨N1, h1⟩ := firstToken_spec r t ha.1
    obtain ⟨N2, h2⟩ := firstTokenLoop_spec r p ts ha.2 (pre ++ [t.id]) (by simpa using hF)
    have hnx := (r.link p pre t.id (ts.map Tree.id) (by simpa using hF)).2
    simp only at hnx
    refine ⟨N1 + N2 + 1, fun fuel hf => ?_⟩
    obtain ⟨k, rfl⟩ : ∃ k, fuel = k + 1 := ⟨fuel - 1, by omega⟩
    simp only [List.map_cons, List.head?_cons, firstTokenLoop, tokensOf]
    by_cases hn : (h t.id).isNode = true
    · rw [if_pos hn, h1 k (by omega)]
      cases hh : (t.tokens (kinds h)).head? with
      | some y => simp [hh]
      | none =>
        have : t.tokens (kinds h) = [] := by simpa using hh
        simp only
        rw [hnx, h2 k (by omega), this]
        simp
    · rw [if_neg hn]
      cases t with
      | node id kids =>
        have hk : ¬ kinds h id = true := hn
        simp only [Tree.tokens, if_neg hk, Tree.id]
        simp
end

mutual
theorem tokens_eq_filter {h : Heap} {F : Forest} (r : Rep h F) : ∀ (t : Tree), t.Of F →
    t.tokens (kinds h) = t.elements.filter fun x => !kinds h x
  | .node id kids, ht => by
    simp only [Tree.Of] at ht
    simp only [Tree.tokens, Tree.elements]
    by_cases hn : kinds h id = true
    · rw [if_pos hn, List.filter_cons_of_neg (by simp [hn])]
      exact tokensOf_eq_filter r kids ht.2
    · rw [if_neg hn]
      have hk : kids = [] := by
        have := r.token id (by simpa [kinds] using hn)
        rw [ht.1] at this
        simpa using this
      subst hk
      simp [elementsOf, hn]
theorem tokensOf_eq_filter {h : Heap} {F : Forest} (r : Rep h F) : ∀ (ts : List Tree), Trees.allOf F ts →
    tokensOf (kinds h) ts = (elementsOf ts).filter fun x => !kinds h x
  | [], _ => by simp [tokensOf, elementsOf]
  | t :: ts, ha => by
    simp only [Trees.allOf] at ha
    simp only [tokensOf, elementsOf, List.filter_append, tokens_eq_filter r t ha.1, tokensOf_eq_filter r ts ha.2]
end

/-- The elements after the subtree of `x`, document order. -/
inductive PostOf (F : Forest) : Nat → List Nat → Prop
  | top (x : Nat) : (∀ n, x ∉ F n) → PostOf F x []
  | step {x p : Nat} {pre : List Nat} {ts : List Tree} {l : List Nat} : Trees.allOf F ts →
      F p = pre ++ x :: ts.map Tree.id → PostOf F p l → PostOf F x (elementsOf ts ++ l)

theorem elementsOf_append (a b : List Tree) : elementsOf (a ++ b) = elementsOf a ++ elementsOf b := by
  induction a with
  | nil => simp [elementsOf]
  | cons t a ih => simp [elementsOf, ih]

theorem elements_cons (t : Spec.Trees.Tree) : t.elements = t.id :: elementsOf t.kids := by
  cases t; simp [Spec.Trees.Tree.elements, Spec.Trees.Tree.id, Spec.Trees.Tree.kids]

theorem post_exists {h : Heap} {F : Forest} (r : Rep h F) (x : Nat) : ∃ l, PostOf F x l := by
  induction x using r.up.induction with
  | _ x ih =>
    by_cases ht : ∃ p, x ∈ F p
    · obtain ⟨p, hp⟩ := ht
      obtain ⟨l, hl⟩ := ih p hp
      obtain ⟨a, b, e⟩ := List.append_of_mem hp
      obtain ⟨ts, hts, hm⟩ := exists_trees b (fun y _ => exists_tree r.down y)
      exact ⟨_, .step hts (by rw [e, hm]) hl⟩
    · push Not at ht
      exact ⟨[], .top x ht⟩

theorem post_split {h : Heap} {F : Forest} (r : Rep h F) {x : Nat} {l : List Nat} (hp : PostOf F x l) (T : Tree)
    (hT : T.Of F) (htop : ∀ n, T.id ∉ F n) : ∀ tx : Tree, tx.Of F → tx.id = x → Within F T.id x →
    ∃ pre, T.elements = pre ++ tx.elements ++ l := by
  induction hp with
  | top x hx =>
    intro tx htx e hw
    rcases Relation.ReflTransGen.cases_tail hw with e' | ⟨c, _, hc⟩
    · have : tx = T := tree_unique tx T htx hT (by rw [e, e'])
      exact ⟨[], by simp [this]⟩
    · exact absurd hc (hx c)
  | @step x p pre ts l hts hF _ ih =>
    intro tx htx e hw
    have hxp : x ∈ F p := by rw [hF]; simp
    have hwp : Within F T.id p := by
      rcases Relation.ReflTransGen.cases_tail hw with e' | ⟨c, hw', hc⟩
      · exact absurd hxp (by rw [e']; exact htop p)
      · rw [r.unique_parent hxp hc]; exact hw'
    obtain ⟨tp, htp, ep⟩ := exists_tree r.down p
    obtain ⟨pre', e1⟩ := ih tp htp ep hwp
    obtain ⟨ta, hta, ea⟩ := exists_trees pre (fun y _ => exists_tree r.down y)
    have hkids : tp.kids = ta ++ tx :: ts := by
      cases tp with
      | node id kids =>
        simp only [Tree.Of] at htp
        simp only [Tree.id] at ep
        subst ep
        refine trees_unique kids _ htp.2 ?_ ?_
        · rw [allOf_iff] at hta hts ⊢
          intro t ht
          rcases List.mem_append.1 ht with ht | ht
          · exact hta t ht
          · rcases List.mem_cons.1 ht with rfl | ht
            · exact htx
            · exact hts t ht
        · rw [← htp.1, hF]
          simp [ea, e]
    rw [elements_cons tp, hkids, elementsOf_append] at e1
    simp only [elementsOf] at e1
    exact ⟨pre' ++ tp.id :: elementsOf ta, by rw [e1]; simp⟩

theorem split_unique {x : Nat} : ∀ {a a' b b' : List Nat}, (a ++ x :: b).Nodup → a ++ x :: b = a' ++ x :: b' →
    a = a' ∧ b = b'
  | [], [], b, b', _, e => by simpa using e
  | [], y :: a', b, b', hd, e => by
    simp at e
    obtain ⟨rfl, rfl⟩ := e
    simp at hd
  | y :: a, [], b, b', hd, e => by
    simp at e
    obtain ⟨rfl, e⟩ := e
    simp at hd
  | y :: a, z :: a', b, b', hd, e => by
    simp at e hd
    obtain ⟨rfl, e⟩ := e
    obtain ⟨rfl, rfl⟩ := split_unique (a := a) (a' := a') (by simpa using hd.2) e
    exact ⟨rfl, rfl⟩

theorem post_unique {h : Heap} {F : Forest} (r : Rep h F) {T tx : Tree} (hT : T.Of F) (htop : ∀ n, T.id ∉ F n)
    (htx : tx.Of F) {pre post : List Nat} (e : T.elements = pre ++ tx.elements ++ post) : PostOf F tx.id post := by
  obtain ⟨l, hl⟩ := post_exists r tx.id
  have hw : Within F T.id tx.id := by
    rw [← mem_elements T hT, e, elements_cons tx]
    simp
  obtain ⟨pre', e'⟩ := post_split r hl T hT htop tx htx rfl hw
  have hd := nodup_elements r T hT
  have e1 : T.elements = pre ++ tx.id :: (elementsOf tx.kids ++ post) := by
    rw [e, elements_cons tx]; simp
  have e2 : T.elements = pre' ++ tx.id :: (elementsOf tx.kids ++ l) := by
    rw [e', elements_cons tx]; simp
  obtain ⟨_, h2⟩ := split_unique (x := tx.id) (by rw [← e1]; exact hd) (e1.symm.trans e2)
  have : post = l := by simpa using h2
  rw [this]
  exact hl

theorem nextLoop_spec {h : Heap} {F : Forest} (r : Rep h F) {x : Nat} {post : List Nat} (hp : PostOf F x post) :
    ∃ N, ∀ fuel, N ≤ fuel → nextLoop h fuel x = .done post.head? := by
  induction hp with
  | top x hx =>
    refine ⟨1, fun fuel hf => ?_⟩
    obtain ⟨k, rfl⟩ : ∃ k, fuel = k + 1 := ⟨fuel - 1, by omega⟩
    have hpar : (h x).parent = none := by
      cases e : (h x).parent with
      | none => rfl
      | some p => exact absurd ((r.parent p x).1 e) (hx p)
    simp [nextLoop, hpar, (r.alone x hpar).2]
  | @step x p pre ts l hts hF _ ih =>
    obtain ⟨N, hN⟩ := ih
    refine ⟨N + 1, fun fuel hf => ?_⟩
    obtain ⟨k, rfl⟩ : ∃ k, fuel = k + 1 := ⟨fuel - 1, by omega⟩
    have hnx := (r.link p pre x _ hF).2
    simp only at hnx
    have hpar : (h x).parent = some p := (r.parent p x).2 (by rw [hF]; simp)
    simp only [nextLoop, hnx, hpar]
    cases ts with
    | nil => simp only [List.map_nil, List.head?_nil, elementsOf, List.nil_append]; exact hN k (by omega)
    | cons t ts => simp [elementsOf, elements_cons]

/-- The element after the subtree starts a subtree. -/
theorem post_head {h : Heap} {F : Forest} (r : Rep h F) {x y : Nat} {l post : List Nat} (hp : PostOf F x post)
    (e : post = y :: l) : ∃ ty : Tree, ty.Of F ∧ ty.id = y ∧ ∃ l', post = ty.elements ++ l' := by
  induction hp with
  | top x hx => simp at e
  | @step x p pre ts l0 hts hF _ ih =>
    cases ts with
    | nil => exact ih (by simpa [elementsOf] using e)
    | cons t ts =>
      simp only [Trees.allOf] at hts
      refine ⟨t, hts.1, ?_, elementsOf ts ++ l0, by simp [elementsOf]⟩
      simp [elementsOf, elements_cons] at e
      exact e.1

theorem nextToken_spec {h : Heap} {F : Forest} (r : Rep h F) {T tx : Tree} (hT : T.Of F) (htop : ∀ n, T.id ∉ F n)
    (htx : tx.Of F) {pre post : List Nat} (e : T.elements = pre ++ tx.elements ++ post) :
    (post = [] ∧ ∃ N, ∀ fuel, N ≤ fuel → nextToken h fuel (some tx.id) = .done none) ∨
    ∃ (ty : Tree) (rest : List Nat), ty.Of F ∧ post = ty.elements ++ rest ∧
      ∃ N, ∀ fuel, N ≤ fuel → nextToken h fuel (some tx.id) = .done (ty.tokens (kinds h)).head? := by
  have hp := post_unique r hT htop htx e
  obtain ⟨N, hN⟩ := nextLoop_spec r hp
  cases hpost : post with
  | nil =>
    left
    refine ⟨rfl, N, fun fuel hf => ?_⟩
    simp [nextToken, hN fuel hf, hpost]
  | cons y l =>
    right
    obtain ⟨ty, hty, hid, l', e'⟩ := post_head r hp hpost
    obtain ⟨N', hN'⟩ := firstToken_spec r ty hty
    refine ⟨ty, l', hty, by rw [← hpost]; exact e', N + N', fun fuel hf => ?_⟩
    simp only [nextToken, hN fuel (by omega), hpost, List.head?_cons]
    rw [← hid]
    exact hN' fuel (by omega)

/-! Following links -/

theorem follow_list {link : Nat → Option Nat} : ∀ (l : List Nat), (∀ a x b, l = a ++ x :: b → link x = b.head?) →
    ∃ N, ∀ fuel, N ≤ fuel → follow link fuel l.head? = .done l
  | [], _ => ⟨1, fun fuel hf => by
      obtain ⟨k, rfl⟩ : ∃ k, fuel = k + 1 := ⟨fuel - 1, by omega⟩
      rfl⟩
  | x :: l, hl => by
    obtain ⟨N, hN⟩ := follow_list l (fun a y b e => hl (x :: a) y b (by simp [e]))
    refine ⟨N + 1, fun fuel hf => ?_⟩
    obtain ⟨k, rfl⟩ : ∃ k, fuel = k + 1 := ⟨fuel - 1, by omega⟩
    simp only [List.head?_cons, follow]
    rw [hl [] x l rfl, hN k (by omega)]

theorem children_spec {h : Heap} {F : Forest} (r : Rep h F) (n : Nat) :
    ∃ N, ∀ fuel, N ≤ fuel → children h fuel (some n) = .done (F n) := by
  by_cases hn : (h n).isNode = true
  · obtain ⟨N, hN⟩ := follow_list (F n) (fun a x b e => (r.link n a x b e).2)
    refine ⟨N, fun fuel hf => ?_⟩
    simp only [children, hn, if_true, r.first n hn]
    exact hN fuel hf
  · refine ⟨0, fun fuel _ => ?_⟩
    simp only [children]
    rw [if_neg hn, r.token n (by simpa using hn)]

theorem nextSiblings_spec {h : Heap} {F : Forest} (r : Rep h F) {p x : Nat} {a b : List Nat} (e : F p = a ++ x :: b) :
    ∃ N, ∀ fuel, N ≤ fuel → nextSiblings h fuel (some x) = .done b := by
  obtain ⟨N, hN⟩ := follow_list b (link := fun x => (h x).next)
    (fun a' y b' e' => (r.link p (a ++ x :: a') y b' (by simp [e, e'])).2)
  refine ⟨N, fun fuel hf => ?_⟩
  simp only [nextSiblings]
  have := (r.link p a x b e).2
  simp only at this
  rw [this]
  exact hN fuel hf

theorem prevSiblings_flip (h : Heap) (fuel : Nat) (x : Option Nat) :
    prevSiblings h fuel x = nextSiblings (flipHeap h) fuel x := by
  cases x <;> rfl

theorem prevSiblings_spec {h : Heap} {F : Forest} (r : Rep h F) {p x : Nat} {a b : List Nat} (e : F p = a ++ x :: b) :
    ∃ N, ∀ fuel, N ≤ fuel → prevSiblings h fuel (some x) = .done a.reverse := by
  obtain ⟨N, hN⟩ := nextSiblings_spec (rep_mirror r) (p := p) (x := x) (a := b.reverse) (b := a.reverse)
    (by simp [revF, e])
  exact ⟨N, fun fuel hf => by rw [prevSiblings_flip]; exact hN fuel hf⟩

/-- Chain of ancestors, the nearest first. -/
def Chain (F : Forest) : Nat → List Nat → Prop
  | x, [] => ∀ n, x ∉ F n
  | x, p :: l => x ∈ F p ∧ Chain F p l

theorem chain_exists {h : Heap} {F : Forest} (r : Rep h F) (x : Nat) : ∃ l, Chain F x l := by
  induction x using r.up.induction with
  | _ x ih =>
    by_cases ht : ∃ p, x ∈ F p
    · obtain ⟨p, hp⟩ := ht
      obtain ⟨l, hl⟩ := ih p hp
      exact ⟨p :: l, hp, hl⟩
    · push Not at ht
      exact ⟨[], ht⟩

theorem ancestors_spec {h : Heap} {F : Forest} (r : Rep h F) : ∀ (l : List Nat) (x : Nat), Chain F x l →
    ∃ N, ∀ fuel, N ≤ fuel → follow (fun x => (h x).parent) fuel (h x).parent = .done l
  | [], x, hx => by
    have hpar : (h x).parent = none := by
      cases e : (h x).parent with
      | none => rfl
      | some p => exact absurd ((r.parent p x).1 e) (hx p)
    refine ⟨1, fun fuel hf => ?_⟩
    obtain ⟨k, rfl⟩ : ∃ k, fuel = k + 1 := ⟨fuel - 1, by omega⟩
    rw [hpar]; rfl
  | p :: l, x, hx => by
    obtain ⟨N, hN⟩ := ancestors_spec r l p hx.2
    refine ⟨N + 1, fun fuel hf => ?_⟩
    obtain ⟨k, rfl⟩ : ∃ k, fuel = k + 1 := ⟨fuel - 1, by omega⟩
    rw [(r.parent p x).2 hx.1]
    simp only [follow]
    rw [hN k (by omega)]

end Verif.Model.Tree
