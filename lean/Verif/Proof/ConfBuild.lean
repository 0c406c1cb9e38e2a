/-
Trees of configurations: there is a tree for every document.
-/
import Verif.Proof.ConfSession

namespace Verif.Proof.ConfTree

open Verif Verif.Model Verif.Model.Tree Verif.Model.ConfEdit Verif.Spec Verif.Spec.Conf Verif.Proof
open Verif.Spec.Trees (Forest Within)

/-- A part of a section is added. -/
def Mem.addPart (m : Mem) (n : Nat) : Part → Mem
  | .token t => m.addToken n t.type t.text
  | .node ty l => let m' := Mem.addAll (m.new (newNodeElement ty none)) m.size l; { m' with heap := addChild m'.heap n (some m.size) none }

/-- An item is added. -/
def Mem.addItem (m : Mem) (n : Nat) : Item → Mem
  | .token t => m.addToken n t.type t.text
  | .node ty l => let m' := l.foldl (fun m' p => Mem.addPart m' m.size p) (m.new (newNodeElement ty none)); { m' with heap := addChild m'.heap n (some m.size) none }

/-- The tree of a document, element 0 is its root. -/
def Mem.build (d : Doc) : Mem := d.foldl (fun m it => Mem.addItem m 0 it) (Mem.new ⟨fun _ => newNodeElement "" none, 0⟩ (newNodeElement "confGrammar" none))

/-- New elements are added to a node. -/
structure Grown (m : Mem) (F : Forest) (n : Nat) (m' : Mem) (F' : Forest) (xs : List Nat) : Prop where
  ok : Ok m' F'
  le : m.size ≤ m'.size
  kids : F' n = F n ++ xs
  others : ∀ k < m.size, k ≠ n → F' k = F k
  lab : ∀ k < m.size, labels m'.heap k = labels m.heap k
  new : ∀ x ∈ xs, m.size ≤ x
  old : ∀ p k, k ∈ F' p → k < m.size → k ∈ F p

theorem Grown.trans {m m1 m2 : Mem} {F F1 F2 : Forest} {n : Nat} {xs ys : List Nat} (a : Grown m F n m1 F1 xs) (b : Grown m1 F1 n m2 F2 ys) :
    Grown m F n m2 F2 (xs ++ ys) where
  ok := b.ok
  le := Nat.le_trans a.le b.le
  kids := by rw [b.kids, a.kids, List.append_assoc]
  others k hk hn := (b.others k (Nat.lt_of_lt_of_le hk a.le) hn).trans (a.others k hk hn)
  lab k hk := (b.lab k (Nat.lt_of_lt_of_le hk a.le)).trans (a.lab k hk)
  new x hx := by
    rcases List.mem_append.1 hx with h | h
    · exact a.new x h
    · exact Nat.le_trans a.le (b.new x h)
  old p k h hk := a.old p k (b.old p k h (Nat.lt_of_lt_of_le hk a.le)) hk

theorem Grown.refl {m : Mem} {F : Forest} (o : Ok m F) (n : Nat) : Grown m F n m F [] where
  ok := o
  le := Nat.le_refl _
  kids := by simp
  others _ _ _ := rfl
  lab _ _ := rfl
  new _ h := by simp at h
  old _ _ h _ := h

theorem Grown.token {m : Mem} {F : Forest} (o : Ok m F) {n : Nat} (hn : (m.heap n).isNode = true) (hl : n < m.size) (typ : String) (text : Bytes) :
    Grown m F n (m.addToken n typ text) (put F n (F n ++ [m.size])) [m.size] ∧ labels (m.addToken n typ text).heap m.size = ⟨false, typ, text⟩ := by
  refine ⟨⟨addToken_ok o hn hl typ text, by simp [Mem.addToken], put_self .., fun k _ h => put_ne _ _ h, fun k hk => ?_, by simp, fun p k hk hlt => ?_⟩, ?_⟩
  · rw [addToken_labels]
    simp [upd]; omega
  · by_cases hp : p = n
    · subst hp
      rw [put_self] at hk
      rcases List.mem_append.1 hk with h | h
      · exact h
      · simp at h; omega
    · rwa [put_ne _ _ hp] at hk
  · rw [addToken_labels]
    simp [upd]

theorem Grown.all : ∀ (ts : List Tok) {m : Mem} {F : Forest} {n : Nat}, Ok m F → (m.heap n).isNode = true → n < m.size →
    ∃ F', Grown m F n (Mem.addAll m n ts) F' (fresh m.size ts) ∧ (fresh m.size ts).map (labels (Mem.addAll m n ts).heap) = ts.map fun t => ⟨false, t⟩ := by
  intro ts m F n o hn hl
  obtain ⟨h1, h2, h3, h4⟩ := addAll_spec ts o hn hl
  refine ⟨_, ⟨h1, by omega, put_self .., fun k _ h => put_ne _ _ h, h3, fun x hx => (mem_fresh.1 hx).1, fun p k hk hlt => ?_⟩, h4⟩
  by_cases hp : p = n
  · subst hp
    rw [put_self] at hk
    rcases List.mem_append.1 hk with h | h
    · exact h
    · have := (mem_fresh.1 h).1; omega
  · rwa [put_ne _ _ hp] at hk

/-- A new node is filled and added to its parent. -/
theorem Grown.node {m m2 : Mem} {F F2 : Forest} (o : Ok m F) {n : Nat} (hn : (m.heap n).isNode = true) (hl : n < m.size) {ty : String} {ys : List Nat}
    (g : Grown (m.new (newNodeElement ty none)) F m.size m2 F2 ys) :
    ∃ F', Grown m F n { m2 with heap := addChild m2.heap n (some m.size) none } F' [m.size] ∧ labels (addChild m2.heap n (some m.size) none) = labels m2.heap ∧
      labels m2.heap m.size = ⟨true, ty, []⟩ ∧ F' m.size = ys ∧ ∀ k, k ≠ n → F' k = F2 k := by
  have hls : ∀ k < m.size, labels m2.heap k = labels m.heap k := fun k hk => by
    rw [g.lab k (by simp; omega), newNode_labels]
    simp [upd]; omega
  have hl0 : labels m2.heap m.size = ⟨true, ty, []⟩ := by
    rw [g.lab m.size (by simp), newNode_labels]
    simp [upd]
  have hfree : ∀ p, m.size ∉ F2 p := fun p h => o.free m.size p (Nat.le_refl _) (g.old p _ h (by simp))
  have hsz : m.size < m2.size := by have := g.le; simp at this; omega
  have hw : ¬ Within F2 m.size n := by
    have key : ∀ k, Within F2 m.size k → m.size ≤ k := by
      intro k hk
      induction hk with
      | refl => exact Nat.le_refl _
      | tail hab hbc ih =>
        by_contra hlt
        have := g.old _ _ hbc (by simp; omega)
        have := o.lt_kids this
        omega
    intro h
    have := key n h
    omega
  have hn2 : (m2.heap n).isNode = true := by
    have := congrArg Label.isNode (hls n hl)
    exact this.trans hn
  have hkn : F2 n = F n := g.others n (by simp; omega) (by omega)
  have ok' := addChild_ok g.ok (a := F2 n) (b := []) ⟨hsz, hfree, fun h => by
    have := congrArg Label.isNode hl0
    have h' : (labels m2.heap m.size).isNode = false := h
    rw [h'] at this
    simp at this⟩ hn2 (by omega) (by simp) hw
  have hlab := same_labels (same_addChild m2.heap n (some m.size) none)
  refine ⟨put F2 n (F2 n ++ [m.size]), ⟨ok', ?_, ?_, ?_, ?_, by simp, ?_⟩, hlab, hl0, ?_, fun k hk => put_ne _ _ hk⟩
  · show m.size ≤ m2.size
    omega
  · rw [put_self, hkn]
  · intro k hk hkn'
    rw [put_ne _ _ hkn']
    exact g.others k (by simp; omega) (by omega)
  · intro k hk
    show labels (addChild m2.heap n (some m.size) none) k = _
    rw [hlab, hls k hk]
  · intro p k hk hlt
    by_cases hp : p = n
    · subst hp
      rw [put_self, hkn] at hk
      rcases List.mem_append.1 hk with h | h
      · exact h
      · simp at h; omega
    · rw [put_ne _ _ hp] at hk
      exact g.old p k hk (by simp; omega)
  · rw [put_ne _ _ (by omega), g.kids, o.kids _ (Nat.le_refl _), List.nil_append]

/-- The element is a part of the tree. -/
def IsPart (m : Mem) (F : Forest) (x : Nat) (p : Part) : Prop := partAt (labels m.heap) F x = p ∧ ∀ y ∈ F x, (labels m.heap y).isNode = false

theorem Grown.part {m m' : Mem} {F F' : Forest} {n : Nat} {xs : List Nat} (o : Ok m F) (g : Grown m F n m' F' xs) {x : Nat} {p : Part} (hx : x < m.size) (hne : x ≠ n)
    (h : IsPart m F x p) : IsPart m' F' x p := by
  have hF := g.others x hx hne
  refine ⟨(part_congr (g.lab x hx) hF fun y hy => g.lab y (o.lt hy)).trans h.1, fun y hy => ?_⟩
  rw [hF] at hy
  rw [g.lab y (o.lt hy)]
  exact h.2 y hy

theorem addPart_spec {m : Mem} {F : Forest} (o : Ok m F) {n : Nat} (hn : (m.heap n).isNode = true) (hl : n < m.size) (p : Part) :
    ∃ F', Grown m F n (Mem.addPart m n p) F' [m.size] ∧ IsPart (Mem.addPart m n p) F' m.size p := by
  cases p with
  | token t =>
    obtain ⟨g, h⟩ := Grown.token o hn hl t.type t.text
    refine ⟨_, g, ?_, ?_⟩
    · show partAt (labels (m.addToken n t.type t.text).heap) _ _ = _
      simp [partAt, h]
    · intro y hy
      rw [put_ne _ _ (by omega), o.kids _ (Nat.le_refl _)] at hy
      simp at hy
  | node ty l =>
    have o1 := new_ok o (unlinked_node ty)
    obtain ⟨F1, g1, h1⟩ := Grown.all l o1 (n := m.size) (by simp [new_heap, newNodeElement]) (by simp)
    obtain ⟨F2, g2, e1, e2, e3, -⟩ := Grown.node o hn hl g1
    have hk : (F2 m.size).map (labels (Mem.addAll (m.new (newNodeElement ty none)) m.size l).heap) = l.map fun t => ⟨false, t⟩ := by rw [e3, h1]
    have hk' : (F2 m.size).map (fun y => (labels (Mem.addAll (m.new (newNodeElement ty none)) m.size l).heap y).tok) = l := by
      have := congrArg (List.map Label.tok) hk
      rw [List.map_map, List.map_map] at this
      simpa [Function.comp_def] using this
    refine ⟨F2, g2, ?_, ?_⟩
    · show partAt (labels (addChild (Mem.addAll (m.new (newNodeElement ty none)) m.size l).heap n (some m.size) none)) _ _ = _
      rw [e1]
      simp only [partAt, e2, if_true, hk']
    · intro y hy
      show (labels (addChild (Mem.addAll (m.new (newNodeElement ty none)) m.size l).heap n (some m.size) none) y).isNode = false
      rw [e1]
      have : labels (Mem.addAll (m.new (newNodeElement ty none)) m.size l).heap y ∈ l.map fun t => (⟨false, t⟩ : Label) := by
        rw [← hk]
        exact List.mem_map_of_mem hy
      obtain ⟨t, -, ht⟩ := List.mem_map.1 this
      rw [← ht]

theorem addParts_spec : ∀ (ps : List Part) {m : Mem} {F : Forest} {n : Nat}, Ok m F → (m.heap n).isNode = true → n < m.size →
    ∃ F' xs, Grown m F n (ps.foldl (fun m' p => Mem.addPart m' n p) m) F' xs ∧ List.Forall₂ (IsPart (ps.foldl (fun m' p => Mem.addPart m' n p) m) F') xs ps
  | [], m, F, n, o, _, _ => ⟨F, [], .refl o n, .nil⟩
  | p :: ps, m, F, n, o, hn, hl => by
    obtain ⟨F1, g1, h1⟩ := addPart_spec o hn hl p
    have hn1 : ((Mem.addPart m n p).heap n).isNode = true := (congrArg Label.isNode (g1.lab n hl)).trans hn
    obtain ⟨F2, xs, g2, h2⟩ := addParts_spec ps g1.ok hn1 (Nat.lt_of_lt_of_le hl g1.le)
    have hlt : m.size < (Mem.addPart m n p).size := g1.ok.lt (p := n) (by rw [g1.kids]; simp)
    refine ⟨F2, [m.size] ++ xs, g1.trans g2, .cons (g2.part g1.ok hlt (by omega) h1) h2⟩

/-- The element is an item of the tree. -/
def IsItem (m : Mem) (F : Forest) (x : Nat) (it : Item) : Prop := itemAt (labels m.heap) F x = it ∧ ∀ y ∈ F x, ∀ z ∈ F y, (labels m.heap z).isNode = false

theorem Grown.item {m m' : Mem} {F F' : Forest} {n : Nat} {xs : List Nat} (o : Ok m F) (ht : ∀ p, n ∉ F p) (g : Grown m F n m' F' xs) {x : Nat} {it : Item}
    (hx : x < m.size) (hne : x ≠ n) (h : IsItem m F x it) : IsItem m' F' x it := by
  have hF := g.others x hx hne
  have hy : ∀ y ∈ F x, IsPart m' F' y (partAt (labels m.heap) F y) := fun y hy =>
    g.part o (o.lt hy) (by rintro rfl; exact ht _ hy) ⟨rfl, h.2 y hy⟩
  refine ⟨(item_congr (g.lab x hx) hF fun y h => (hy y h).1).trans h.1, fun y h => ?_⟩
  rw [hF] at h
  exact (hy y h).2

theorem forall₂_map_eq {α β : Type} {R : α → β → Prop} {f : α → β} (hf : ∀ a b, R a b → f a = b) : ∀ {l : List α} {l' : List β}, List.Forall₂ R l l' → l.map f = l'
  | _, _, .nil => rfl
  | _, _, .cons h t => by rw [List.map_cons, hf _ _ h, forall₂_map_eq hf t]

theorem forall₂_left {α β : Type} {R : α → β → Prop} {P : α → Prop} (hf : ∀ a b, R a b → P a) : ∀ {l : List α} {l' : List β}, List.Forall₂ R l l' → ∀ a ∈ l, P a
  | _, _, .nil, a, ha => by simp at ha
  | _, _, .cons h t, a, ha => by
    rcases List.mem_cons.1 ha with rfl | ha
    · exact hf _ _ h
    · exact forall₂_left hf t a ha

theorem addItem_spec {m : Mem} {F : Forest} (o : Ok m F) {n : Nat} (hn : (m.heap n).isNode = true) (hl : n < m.size) (it : Item) :
    ∃ F', Grown m F n (Mem.addItem m n it) F' [m.size] ∧ IsItem (Mem.addItem m n it) F' m.size it := by
  cases it with
  | token t =>
    obtain ⟨g, h⟩ := Grown.token o hn hl t.type t.text
    refine ⟨_, g, ?_, ?_⟩
    · show itemAt (labels (m.addToken n t.type t.text).heap) _ _ = _
      simp [itemAt, h]
    · intro y hy
      rw [put_ne _ _ (by omega), o.kids _ (Nat.le_refl _)] at hy
      simp at hy
  | node ty l =>
    have o1 := new_ok o (unlinked_node ty)
    obtain ⟨F1, xs, g1, h1⟩ := addParts_spec l o1 (n := m.size) (by simp [new_heap, newNodeElement]) (by simp)
    obtain ⟨F2, g2, e1, e2, e3, e4⟩ := Grown.node o hn hl g1
    have hne : ∀ y ∈ xs, y ≠ n := fun y hy => by have := g1.new y hy; simp at this; omega
    have hk : (F2 m.size).map (partAt (labels (l.foldl (fun m' p => Mem.addPart m' m.size p) (m.new (newNodeElement ty none))).heap) F2) = l := by
      rw [e3]
      have := forall₂_map_eq (fun a b (h : IsPart _ F1 a b) => h.1) h1
      rw [← this]
      rw [this]
      refine Eq.trans (List.map_congr_left fun y hy => ?_) this
      exact part_congr rfl (e4 y (hne y hy)) fun _ _ => rfl
    refine ⟨F2, g2, ?_, ?_⟩
    · show itemAt (labels (addChild (l.foldl (fun m' p => Mem.addPart m' m.size p) (m.new (newNodeElement ty none))).heap n (some m.size) none)) _ _ = _
      rw [e1]
      simp only [itemAt, e2, if_true, hk]
    · intro y hy z hz
      show (labels (addChild (l.foldl (fun m' p => Mem.addPart m' m.size p) (m.new (newNodeElement ty none))).heap n (some m.size) none) z).isNode = false
      rw [e1]
      rw [e3] at hy
      rw [e4 y (hne y hy)] at hz
      exact forall₂_left (P := fun y => ∀ z ∈ F1 y, (labels _ z).isNode = false) (fun a b (h : IsPart _ F1 a b) => h.2) h1 y hy z hz

theorem addItems_spec : ∀ (d : Doc) {m : Mem} {F : Forest} {n : Nat}, Ok m F → (m.heap n).isNode = true → n < m.size → (∀ p, n ∉ F p) →
    ∃ F' xs, Grown m F n (d.foldl (fun m' p => Mem.addItem m' n p) m) F' xs ∧ List.Forall₂ (IsItem (d.foldl (fun m' p => Mem.addItem m' n p) m) F') xs d
  | [], m, F, n, o, _, _, _ => ⟨F, [], .refl o n, .nil⟩
  | p :: ps, m, F, n, o, hn, hl, ht => by
    obtain ⟨F1, g1, h1⟩ := addItem_spec o hn hl p
    have hn1 : ((Mem.addItem m n p).heap n).isNode = true := (congrArg Label.isNode (g1.lab n hl)).trans hn
    have ht1 : ∀ p, n ∉ F1 p := fun p h => ht p (g1.old p n h hl)
    obtain ⟨F2, xs, g2, h2⟩ := addItems_spec ps g1.ok hn1 (Nat.lt_of_lt_of_le hl g1.le) ht1
    have hlt : m.size < (Mem.addItem m n p).size := g1.ok.lt (p := n) (by rw [g1.kids]; simp)
    exact ⟨F2, [m.size] ++ xs, g1.trans g2, .cons (g2.item g1.ok ht1 hlt (by omega) h1) h2⟩

/-- There is a tree for every document. -/
theorem build_parsed (d : Doc) : ∃ F, Parsed (Mem.build d) F 0 ∧ docAt (labels (Mem.build d).heap) F 0 = d := by
  have r0 : Rep (fun _ => newNodeElement "" none) fun _ => [] := by
    refine ⟨by simp [newNodeElement], fun _ a x b e => by simp at e, by simp, by simp [newNodeElement], by simp [newNodeElement], by simp, by simp [newNodeElement],
      ⟨fun a => ⟨a, fun b hb => by simp at hb⟩⟩, ⟨fun a => ⟨a, fun b hb => by simp at hb⟩⟩⟩
  have o0 : Ok ⟨fun _ => newNodeElement "" none, 0⟩ fun _ => [] := ⟨r0, fun _ _ => rfl, fun _ _ _ => by simp, fun _ _ h => by simp at h⟩
  have o1 := new_ok o0 (unlinked_node "confGrammar")
  obtain ⟨F, xs, g, h⟩ := addItems_spec d o1 (n := 0) (by simp [new_heap, newNodeElement]) (by simp) (by simp)
  have hk : F 0 = xs := by rw [g.kids]; rfl
  refine ⟨F, ⟨g.ok, ⟨?_, ?_⟩, ?_, ?_⟩, ?_⟩
  · have := congrArg Label.isNode (g.lab 0 (by simp))
    exact this.trans (by simp [labels, new_heap, newNodeElement])
  · intro σ hσ
    rw [hk] at hσ
    exact forall₂_left (P := fun y => ∀ z ∈ F y, ∀ w ∈ F z, (labels (Mem.build d).heap w).isNode = false) (fun a b (h : IsItem _ F a b) => h.2) h σ hσ
  · exact Nat.lt_of_lt_of_le (by simp) g.le
  · intro p hp
    have := g.old p 0 hp (by simp)
    simp at this
  · simp only [docAt, hk]
    exact forall₂_map_eq (fun a b (h : IsItem _ F a b) => h.1) h

end Verif.Proof.ConfTree
