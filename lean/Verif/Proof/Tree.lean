import Verif.Model.Tree
import Verif.Spec.Trees

namespace Verif.Model.Tree

open Verif.Spec Verif.Spec.Trees

/-- Elements of the list are linked with each other in this order. -/
def Link (pr nx : Nat → Option Nat) (l : List Nat) : Prop :=
  ∀ a x b, l = a ++ x :: b → pr x = a.getLast? ∧ nx x = b.head?

theorem link_congr {pr nx pr' nx' : Nat → Option Nat} {l : List Nat} (h : Link pr nx l)
    (hp : ∀ x ∈ l, pr' x = pr x) (hn : ∀ x ∈ l, nx' x = nx x) : Link pr' nx' l := by
  intro a x b e
  have hx : x ∈ l := by rw [e]; simp
  rw [hp x hx, hn x hx]
  exact h a x b e

theorem getLast?_ne_of_not_mem {a : List Nat} {x : Nat} (h : x ∉ a) : a.getLast? ≠ some x :=
  fun e => h (List.mem_of_getLast? e)

theorem head?_ne_of_not_mem {a : List Nat} {x : Nat} (h : x ∉ a) : a.head? ≠ some x :=
  fun e => h (List.mem_of_mem_head? e)

theorem getLast?_tail (a d : List Nat) (x y : Nat) : (a ++ x :: y :: d).getLast? = (y :: d).getLast? := by
  rw [List.getLast?_append, List.getLast?_cons_cons, List.getLast?_eq_some_getLast (by simp)]
  rfl

theorem link_remove {pr nx pr' nx' : Nat → Option Nat} {a b : List Nat} {c : Nat} (h : Link pr nx (a ++ c :: b))
    (hd : (a ++ c :: b).Nodup)
    (hp : ∀ x, x ∈ a ++ b → pr' x = if b.head? = some x then a.getLast? else pr x)
    (hn : ∀ x, x ∈ a ++ b → nx' x = if a.getLast? = some x then b.head? else nx x) : Link pr' nx' (a ++ b) := by
  intro a' x b' e
  have hx : x ∈ a ++ b := by rw [e]; simp
  rw [hp x hx, hn x hx]
  have hdis : ∀ y, y ∈ a → y ∈ b → False := by
    intro y h1 h2
    rw [List.nodup_append] at hd
    exact hd.2.2 y h1 y (by simp [h2]) rfl
  have hnd : (a ++ b).Nodup := by
    exact List.Nodup.sublist (by simp) hd
  rcases List.append_eq_append_iff.1 e with ⟨d, h1, h2⟩ | ⟨d, h1, h2⟩
  · -- a' = a ++ d, b = d ++ x :: b'
    subst h1 h2
    have hxa : x ∉ a := fun hxa => hdis x hxa (by simp)
    obtain ⟨g1, g2⟩ := h (a ++ c :: d) x b' (by simp)
    rw [if_neg (getLast?_ne_of_not_mem hxa), g2]
    refine ⟨?_, rfl⟩
    cases d with
    | nil => simp
    | cons y d =>
      have hyx : y ≠ x := by
        rintro rfl
        simp [List.nodup_append] at hnd
      rw [if_neg (by simp [hyx]), g1]
      simp
  · -- a = a' ++ d, x :: b' = d ++ b
    cases d with
    | nil =>
      simp at h1 h2
      subst h1
      rw [← h2] at h hd hdis ⊢
      have hxa : x ∉ a := fun hxa => hdis x hxa (by simp)
      obtain ⟨g1, g2⟩ := h (a ++ [c]) x b' (by simp)
      rw [if_pos (by simp), if_neg (getLast?_ne_of_not_mem hxa), g2]
      exact ⟨rfl, rfl⟩
    | cons y d =>
      simp at h2
      obtain ⟨rfl, rfl⟩ := h2
      subst h1
      have hxb : x ∉ b := fun hxb => hdis x (by simp) hxb
      obtain ⟨g1, g2⟩ := h a' x (d ++ c :: b) (by simp)
      rw [if_neg (head?_ne_of_not_mem hxb), g1]
      refine ⟨rfl, ?_⟩
      cases d with
      | nil => simp
      | cons y d =>
        have : (a' ++ x :: y :: d).getLast? ≠ some x := by
          intro e'
          have hm : x ∈ y :: d := by
            rw [getLast?_tail] at e'
            exact List.mem_of_getLast? e'
          simp [List.nodup_append] at hnd
          simp at hm
          rcases hm with rfl | hm <;> simp_all
        rw [if_neg this, g2]
        simp

theorem link_insert {pr nx pr' nx' : Nat → Option Nat} {a b : List Nat} {c : Nat} (h : Link pr nx (a ++ b))
    (hd : (a ++ c :: b).Nodup)
    (hcp : pr' c = a.getLast?) (hcn : nx' c = b.head?)
    (hp : ∀ x, x ∈ a ++ b → pr' x = if b.head? = some x then some c else pr x)
    (hn : ∀ x, x ∈ a ++ b → nx' x = if a.getLast? = some x then some c else nx x) : Link pr' nx' (a ++ c :: b) := by
  intro a' x b' e
  have hdis : ∀ y, y ∈ a → y ∈ b → False := by
    intro y h1 h2
    rw [List.nodup_append] at hd
    exact hd.2.2 y h1 y (by simp [h2]) rfl
  have hnd : (a ++ b).Nodup := by
    exact List.Nodup.sublist (by simp) hd
  rcases List.append_eq_append_iff.1 e with ⟨d, h1, h2⟩ | ⟨d, h1, h2⟩
  · -- a' = a ++ d, c :: b = d ++ x :: b'
    cases d with
    | nil =>
      simp at h1 h2
      obtain ⟨rfl, rfl⟩ := h2
      subst h1
      exact ⟨hcp, hcn⟩
    | cons y d =>
      simp at h2
      obtain ⟨rfl, rfl⟩ := h2
      subst h1
      have hxa : x ∉ a := fun hxa => hdis x hxa (by simp)
      obtain ⟨g1, g2⟩ := h (a ++ d) x b' (by simp)
      rw [hp x (by simp), hn x (by simp), if_neg (getLast?_ne_of_not_mem hxa), g2]
      refine ⟨?_, rfl⟩
      cases d with
      | nil => simp
      | cons y d =>
        have hyx : y ≠ x := by
          rintro rfl
          simp [List.nodup_append] at hnd
        rw [if_neg (by simp [hyx]), g1]
        simp
  · -- a = a' ++ d, x :: b' = d ++ c :: b
    cases d with
    | nil =>
      simp at h1 h2
      obtain ⟨rfl, rfl⟩ := h2
      subst h1
      exact ⟨hcp, hcn⟩
    | cons y d =>
      simp at h2
      obtain ⟨rfl, rfl⟩ := h2
      subst h1
      have hxb : x ∉ b := fun hxb => hdis x (by simp) hxb
      obtain ⟨g1, g2⟩ := h a' x (d ++ b) (by simp)
      rw [hp x (by simp), hn x (by simp), if_neg (head?_ne_of_not_mem hxb), g1]
      refine ⟨rfl, ?_⟩
      cases d with
      | nil => simp
      | cons y d =>
        have : (a' ++ x :: y :: d).getLast? ≠ some x := by
          intro e'
          have hm : x ∈ y :: d := by
            rw [getLast?_tail] at e'
            exact List.mem_of_getLast? e'
          simp [List.nodup_append] at hnd
          simp at hm
          rcases hm with rfl | hm <;> simp_all
        rw [if_neg this, g2]
        simp

/-- Kinds of elements. -/
def kinds (h : Heap) : Nat → Bool := fun n => (h n).isNode

/-- The heap holds exactly the forest. -/
structure Rep (h : Heap) (F : Forest) : Prop where
  parent : ∀ n x, (h x).parent = some n ↔ x ∈ F n
  link : ∀ n, Link (fun x => (h x).prev) (fun x => (h x).next) (F n)
  nodup : ∀ n, (F n).Nodup
  first : ∀ n, (h n).isNode = true → (h n).firstChild = (F n).head?
  last : ∀ n, (h n).isNode = true → (h n).lastChild = (F n).getLast?
  token : ∀ n, (h n).isNode = false → F n = []
  alone : ∀ x, (h x).parent = none → (h x).prev = none ∧ (h x).next = none
  down : WellFounded (fun c p => c ∈ F p)
  up : WellFounded (fun p c => c ∈ F p)

theorem Rep.unique_parent {h : Heap} {F : Forest} (r : Rep h F) {x m n : Nat} (hm : x ∈ F m) (hn : x ∈ F n) : m = n := by
  have h1 := (r.parent m x).2 hm
  have h2 := (r.parent n x).2 hn
  rw [h1] at h2
  exact Option.some.inj h2

theorem Rep.isNode {h : Heap} {F : Forest} (r : Rep h F) {x n : Nat} (hx : x ∈ F n) : (h n).isNode = true := by
  cases hn : (h n).isNode with
  | true => rfl
  | false => rw [r.token n hn] at hx; simp at hx

/-! Acyclicity of edited forests -/

theorem wf_sub {F F' : Forest} (h : ∀ n, ∀ x ∈ F' n, x ∈ F n) :
    (WellFounded (fun c p => c ∈ F p) → WellFounded (fun c p => c ∈ F' p)) ∧
    (WellFounded (fun p c => c ∈ F p) → WellFounded (fun p c => c ∈ F' p)) :=
  ⟨fun w => Subrelation.wf (fun {a b} hab => h b a hab) w, fun w => Subrelation.wf (fun {a b} hab => h a b hab) w⟩

/-- A new child `el` is put under `t` which is not in the subtree of `el`. -/
theorem wf_down_add {F F' : Forest} {t el : Nat} (w : WellFounded (fun c p => c ∈ F p))
    (h : ∀ n x, x ∈ F' n → x ∈ F n ∨ (n = t ∧ x = el)) (hc : ¬ Within F el t) :
    WellFounded (fun c p => c ∈ F' p) := by
  have h1 : ∀ x, ¬ Within F x t → Acc (fun c p => c ∈ F' p) x := by
    intro x
    induction x using w.induction with
    | _ x ih =>
      intro hx
      constructor
      intro y hy
      rcases h x y hy with hy | ⟨rfl, rfl⟩
      · exact ih y hy fun hyt => hx (Relation.ReflTransGen.head hy hyt)
      · exact absurd Relation.ReflTransGen.refl hx
  constructor
  intro x
  induction x using w.induction with
  | _ x ih =>
    constructor
    intro y hy
    rcases h x y hy with hy | ⟨_, rfl⟩
    · exact ih y hy
    · exact h1 _ hc

theorem wf_up_add {F F' : Forest} {t el : Nat} (w : WellFounded (fun p c => c ∈ F p))
    (h : ∀ n x, x ∈ F' n → x ∈ F n ∨ (n = t ∧ x = el)) (hc : ¬ Within F el t) :
    WellFounded (fun p c => c ∈ F' p) := by
  have h1 : ∀ x, ¬ Within F el x → Acc (fun p c => c ∈ F' p) x := by
    intro x
    induction x using w.induction with
    | _ x ih =>
      intro hx
      constructor
      intro y hy
      rcases h y x hy with hy | ⟨rfl, rfl⟩
      · exact ih y hy fun hyt => hx (Relation.ReflTransGen.tail hyt hy)
      · exact absurd Relation.ReflTransGen.refl hx
  constructor
  intro x
  induction x using w.induction with
  | _ x ih =>
    constructor
    intro y hy
    rcases h y x hy with hy | ⟨rfl, rfl⟩
    · exact ih y hy
    · exact h1 _ hc

/-! Fields of changed heaps -/

section fields
variable (h : Heap) (i j : Nat) (p : Option Nat)

@[simp] theorem setParent_parent : (h.setParent i p j).parent = if j = i then p else (h j).parent := by
  unfold Heap.setParent Heap.set; split <;> rfl
@[simp] theorem setParent_prev : (h.setParent i p j).prev = (h j).prev := by
  unfold Heap.setParent Heap.set; split <;> simp_all
@[simp] theorem setParent_next : (h.setParent i p j).next = (h j).next := by
  unfold Heap.setParent Heap.set; split <;> simp_all
@[simp] theorem setParent_first : (h.setParent i p j).firstChild = (h j).firstChild := by
  unfold Heap.setParent Heap.set; split <;> simp_all
@[simp] theorem setParent_last : (h.setParent i p j).lastChild = (h j).lastChild := by
  unfold Heap.setParent Heap.set; split <;> simp_all
@[simp] theorem setParent_isNode : (h.setParent i p j).isNode = (h j).isNode := by
  unfold Heap.setParent Heap.set; split <;> simp_all
@[simp] theorem setPrev_parent : (h.setPrev i p j).parent = (h j).parent := by
  unfold Heap.setPrev Heap.set; split <;> simp_all
@[simp] theorem setPrev_prev : (h.setPrev i p j).prev = if j = i then p else (h j).prev := by
  unfold Heap.setPrev Heap.set; split <;> rfl
@[simp] theorem setPrev_next : (h.setPrev i p j).next = (h j).next := by
  unfold Heap.setPrev Heap.set; split <;> simp_all
@[simp] theorem setPrev_first : (h.setPrev i p j).firstChild = (h j).firstChild := by
  unfold Heap.setPrev Heap.set; split <;> simp_all
@[simp] theorem setPrev_last : (h.setPrev i p j).lastChild = (h j).lastChild := by
  unfold Heap.setPrev Heap.set; split <;> simp_all
@[simp] theorem setPrev_isNode : (h.setPrev i p j).isNode = (h j).isNode := by
  unfold Heap.setPrev Heap.set; split <;> simp_all
@[simp] theorem setNext_parent : (h.setNext i p j).parent = (h j).parent := by
  unfold Heap.setNext Heap.set; split <;> simp_all
@[simp] theorem setNext_prev : (h.setNext i p j).prev = (h j).prev := by
  unfold Heap.setNext Heap.set; split <;> simp_all
@[simp] theorem setNext_next : (h.setNext i p j).next = if j = i then p else (h j).next := by
  unfold Heap.setNext Heap.set; split <;> rfl
@[simp] theorem setNext_first : (h.setNext i p j).firstChild = (h j).firstChild := by
  unfold Heap.setNext Heap.set; split <;> simp_all
@[simp] theorem setNext_last : (h.setNext i p j).lastChild = (h j).lastChild := by
  unfold Heap.setNext Heap.set; split <;> simp_all
@[simp] theorem setNext_isNode : (h.setNext i p j).isNode = (h j).isNode := by
  unfold Heap.setNext Heap.set; split <;> simp_all
@[simp] theorem setFirst_parent : (h.setFirst i p j).parent = (h j).parent := by
  unfold Heap.setFirst Heap.set; split <;> simp_all
@[simp] theorem setFirst_prev : (h.setFirst i p j).prev = (h j).prev := by
  unfold Heap.setFirst Heap.set; split <;> simp_all
@[simp] theorem setFirst_next : (h.setFirst i p j).next = (h j).next := by
  unfold Heap.setFirst Heap.set; split <;> simp_all
@[simp] theorem setFirst_first : (h.setFirst i p j).firstChild = if j = i then p else (h j).firstChild := by
  unfold Heap.setFirst Heap.set; split <;> rfl
@[simp] theorem setFirst_last : (h.setFirst i p j).lastChild = (h j).lastChild := by
  unfold Heap.setFirst Heap.set; split <;> simp_all
@[simp] theorem setFirst_isNode : (h.setFirst i p j).isNode = (h j).isNode := by
  unfold Heap.setFirst Heap.set; split <;> simp_all
@[simp] theorem setLast_parent : (h.setLast i p j).parent = (h j).parent := by
  unfold Heap.setLast Heap.set; split <;> simp_all
@[simp] theorem setLast_prev : (h.setLast i p j).prev = (h j).prev := by
  unfold Heap.setLast Heap.set; split <;> simp_all
@[simp] theorem setLast_next : (h.setLast i p j).next = (h j).next := by
  unfold Heap.setLast Heap.set; split <;> simp_all
@[simp] theorem setLast_first : (h.setLast i p j).firstChild = (h j).firstChild := by
  unfold Heap.setLast Heap.set; split <;> simp_all
@[simp] theorem setLast_last : (h.setLast i p j).lastChild = if j = i then p else (h j).lastChild := by
  unfold Heap.setLast Heap.set; split <;> rfl
@[simp] theorem setLast_isNode : (h.setLast i p j).isNode = (h j).isNode := by
  unfold Heap.setLast Heap.set; split <;> simp_all
end fields

end Verif.Model.Tree
