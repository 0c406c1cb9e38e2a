/-
Edits of trees of configuration files: links and loops.
-/
import Verif.Proof.ConfTree

namespace Verif.Proof.ConfTree

open Verif Verif.Model Verif.Model.Tree Verif.Model.ConfEdit Verif.Spec Verif.Spec.Conf Verif.Proof
open Verif.Spec.Trees (Forest Within)

theorem Ok.nodup {m : Mem} {F : Forest} (o : Ok m F) {p x : Nat} {a b : List Nat} (e : F p = a ++ x :: b) : x ∉ a ∧ x ∉ b := by
  have := o.rep.nodup p
  rw [e, List.nodup_append] at this
  exact ⟨fun h => this.2.2 x h x (by simp) rfl, (List.nodup_cons.1 this.2.1).1⟩

theorem Ok.split {m : Mem} {F : Forest} (o : Ok m F) {p x : Nat} {a b : List Nat} (e : F p = a ++ x :: b) :
    (m.heap x).prev = a.getLast? ∧ (m.heap x).next = b.head? := o.rep.link p a x b e

theorem Ok.mem {F : Forest} {p x : Nat} {a b : List Nat} (e : F p = a ++ x :: b) : x ∈ F p := by simp [e]

theorem detach_put {m : Mem} {F : Forest} (o : Ok m F) {p x : Nat} {a b : List Nat} (e : F p = a ++ x :: b) :
    Trees.detach F x = put F p (a ++ b) := by
  funext n
  simp only [Trees.detach, put]
  split
  · next h =>
    subst h
    have := o.rep.nodup n
    rw [e] at this ⊢
    exact filter_ne_append this
  · next h =>
    exact filter_ne_self fun hx => h (o.rep.unique_parent hx (Ok.mem e))

theorem detach_ok {m : Mem} {F : Forest} (o : Ok m F) {p x : Nat} {a b : List Nat} (e : F p = a ++ x :: b) :
    Ok { m with heap := detach m.heap (some x) } (put F p (a ++ b)) := by
  have key : ∀ n y, y ∈ put F p (a ++ b) n → y ∈ F n := by
    intro n y hy
    by_cases hn : n = p
    · subst hn
      rw [put_self] at hy
      rw [e]
      simp at hy ⊢
      tauto
    · rwa [put_ne _ _ hn] at hy
  refine o.same ?_ (same_detach ..) (fun n y hy => ⟨o.lt (key n y hy), o.lt_kids (key n y hy)⟩) fun n y hy => o.words y n (key n y hy)
  rw [← detach_put o e]
  exact (detach_rep o.rep x).1

theorem mem_put {F : Forest} {p el : Nat} {a b : List Nat} (e : F p = a ++ b) {n y : Nat} (hy : y ∈ put F p (a ++ el :: b) n) :
    y ∈ F n ∨ y = el ∧ n = p := by
  by_cases hn : n = p
  · subst hn
    rw [put_self] at hy
    rw [e]
    simp at hy ⊢
    tauto
  · rw [put_ne _ _ hn] at hy
    exact .inl hy

/-- An element not in the tree may be inserted. -/
structure Loose (m : Mem) (F : Forest) (el : Nat) : Prop where
  lt : el < m.size
  free : ∀ p, el ∉ F p
  word : (m.heap el).isNode = false → (m.heap el).token.isSome

theorem Ok.insert {m : Mem} {F : Forest} (o : Ok m F) {p el : Nat} (hl : Loose m F el) (hp : p < m.size) {a b : List Nat} (e : F p = a ++ b) {h' : Heap}
    (r : Rep h' (put F p (a ++ el :: b))) (s : Same m.heap h') : Ok { m with heap := h' } (put F p (a ++ el :: b)) := by
  refine o.same r s (fun n y hy => ?_) fun n y hy => ?_
  · rcases mem_put e hy with hy | ⟨rfl, rfl⟩
    · exact ⟨o.lt hy, o.lt_kids hy⟩
    · exact ⟨hl.lt, hp⟩
  · rcases mem_put e hy with hy | ⟨rfl, rfl⟩
    · exact o.words y n hy
    · exact hl.word

theorem appendSibling_ok {m : Mem} {F : Forest} (o : Ok m F) {p x el : Nat} (hl : Loose m F el) {a b : List Nat} (e : F p = a ++ x :: b)
    (hw : ¬ Within F el x) : Ok { m with heap := appendSibling m.heap (some x) (some el) } (put F p (a ++ x :: el :: b)) := by
  have hx := Ok.mem e
  have ef : Trees.appendSibling F x el = put F p (a ++ x :: el :: b) := by
    funext n
    simp only [Trees.appendSibling, detach_of_top hl.free, put]
    split
    · next h => subst h; rw [e]; exact after_eq (o.nodup e).1
    · next h => exact after_of_not_mem fun hx' => h (o.rep.unique_parent hx' hx)
  have r := (appendSibling_rep o.rep hx hw).1
  rw [ef] at r
  have := o.insert hl (o.lt_kids hx) (a := a ++ [x]) (b := b) (by simp [e]) (by simpa using r)
    (same_appendSibling o.rep hx (by rintro rfl; exact hl.free _ hx))
  simpa using this

theorem prependSibling_ok {m : Mem} {F : Forest} (o : Ok m F) {p x el : Nat} (hl : Loose m F el) {a b : List Nat} (e : F p = a ++ x :: b)
    (hw : ¬ Within F el x) : Ok { m with heap := prependSibling m.heap (some x) (some el) } (put F p (a ++ el :: x :: b)) := by
  have hx := Ok.mem e
  have ef : Trees.prependSibling F x el = put F p (a ++ el :: x :: b) := by
    funext n
    simp only [Trees.prependSibling, detach_of_top hl.free, put]
    split
    · next h => subst h; rw [e]; exact before_eq (o.nodup e).1
    · next h => exact before_of_not_mem fun hx' => h (o.rep.unique_parent hx' hx)
  have r := (prependSibling_rep o.rep hx hw).1
  rw [ef] at r
  exact o.insert hl (o.lt_kids hx) (a := a) (b := x :: b) (by simp [e]) r
    (same_prependSibling o.rep hx (by rintro rfl; exact hl.free _ hx))

theorem addChild_ok {m : Mem} {F : Forest} (o : Ok m F) {p el : Nat} (hl : Loose m F el) (hn : (m.heap p).isNode = true) (hp : p < m.size)
    {a b : List Nat} (e : F p = a ++ b) (hw : ¬ Within F el p) : Ok { m with heap := addChild m.heap p (some el) b.head? } (put F p (a ++ el :: b)) :=
  attach_ok o hn hp hl.lt hl.free hw hl.word e

theorem replace_ok {m : Mem} {F : Forest} (o : Ok m F) {p x el : Nat} (hl : Loose m F el) {a b : List Nat} (e : F p = a ++ x :: b)
    (hw : ¬ Within F el x) : ∃ h', replace m.heap (some x) (some el) = some h' ∧ Same m.heap h' ∧ Ok { m with heap := h' } (put F p (a ++ el :: b)) := by
  have hx := Ok.mem e
  have hne : x ≠ el := by rintro rfl; exact hl.free _ hx
  have hnx : (m.heap x).next ≠ some el := by
    rw [(o.split e).2]
    intro h
    have : el ∈ F p := by rw [e]; have := List.mem_of_mem_head? h; simp [this]
    exact hl.free _ this
  obtain ⟨h', h1, r, -⟩ := replace_rep o.rep hx (.inr hw) hnx
  refine ⟨h', h1, same_replace h1, ?_⟩
  have ef : Trees.replace F x el = put F p (a ++ el :: b) := by
    funext n
    simp only [Trees.replace, hne, if_false, detach_of_top hl.free, put]
    split
    · next h =>
      subst h
      obtain ⟨h1, h2⟩ := o.nodup e
      rw [e]
      have hm : ∀ l : List Nat, x ∉ l → l.map (fun y => if y = x then el else y) = l := by
        intro l hl
        conv_rhs => rw [← List.map_id l]
        exact List.map_congr_left fun y hy => by simp; rintro rfl; exact absurd hy hl
      simp only [List.map_append, List.map_cons, hm a h1, hm b h2, if_true]
    · next h =>
      conv_rhs => rw [← List.map_id (F n)]
      refine List.map_congr_left fun y hy => ?_
      simp
      rintro rfl
      exact absurd (o.rep.unique_parent hy hx) h
  rw [ef] at r
  refine o.same r (same_replace h1) (fun n y hy => ?_) fun n y hy => ?_
  all_goals
    have : y ∈ F n ∨ y = el ∧ n = p := by
      by_cases hn : n = p
      · subst hn
        rw [put_self] at hy
        rw [e]
        simp at hy ⊢
        tauto
      · rw [put_ne _ _ hn] at hy
        exact .inl hy
  · rcases this with hy | ⟨rfl, rfl⟩
    · exact ⟨o.lt hy, o.lt_kids hy⟩
    · exact ⟨hl.lt, o.lt_kids hx⟩
  · rcases this with hy | ⟨rfl, rfl⟩
    · exact o.words y n hy
    · exact hl.word

theorem not_within_top {F : Forest} {el x : Nat} (ht : ∀ p, x ∉ F p) (hne : x ≠ el) : ¬ Within F el x := by
  intro hw
  rcases Relation.ReflTransGen.cases_tail hw with e | ⟨p, -, hx⟩
  · exact hne e
  · exact ht p hx

theorem not_within_up {m : Mem} {F : Forest} (o : Ok m F) {el x p : Nat} (hx : x ∈ F p) (hne : x ≠ el) (hp : ¬ Within F el p) : ¬ Within F el x := by
  intro hw
  rcases Relation.ReflTransGen.cases_tail hw with e | ⟨q, hq, hx'⟩
  · exact hne e
  · rw [o.rep.unique_parent hx hx'] at hp
    exact hp hq

/-! Loops -/

theorem firstNode_spec {m : Mem} {F : Forest} (o : Ok m F) (p : Nat) : ∀ (b a : List Nat), F p = a ++ b →
    Ev (fun fuel => firstNode m.heap fuel b.head?) (b.find? fun x => (m.heap x).isNode)
  | [], a, e => ⟨1, fun fuel hf => by
      obtain ⟨k, rfl⟩ : ∃ k, fuel = k + 1 := ⟨fuel - 1, by omega⟩
      rfl⟩
  | x :: b, a, e => by
    obtain ⟨N, hN⟩ := firstNode_spec o p b (a ++ [x]) (by simp [e])
    refine ⟨N + 1, fun fuel hf => ?_⟩
    obtain ⟨k, rfl⟩ : ∃ k, fuel = k + 1 := ⟨fuel - 1, by omega⟩
    have := hN k (by omega)
    simp only [List.head?_cons, firstNode, List.find?_cons, (o.split e).2, this]
    cases (m.heap x).isNode <;> rfl

theorem findOp_spec {m : Mem} {F : Forest} (o : Ok m F) (p : Nat) {op : Nat} {w : List Nat} (hop : (m.heap op).typeName = opToken) : ∀ (u a : List Nat),
    F p = a ++ (u ++ op :: w) → (∀ x ∈ u, (m.heap x).typeName ≠ opToken) → Ev (fun fuel => findOp m.heap fuel (u ++ op :: w).head?) op
  | [], a, e, _ => ⟨1, fun fuel hf => by
      obtain ⟨k, rfl⟩ : ∃ k, fuel = k + 1 := ⟨fuel - 1, by omega⟩
      simp [findOp, hop]⟩
  | x :: u, a, e, hu => by
    obtain ⟨N, hN⟩ := findOp_spec (w := w) o p hop u (a ++ [x]) (by simp [e]) fun y hy => hu y (by simp [hy])
    refine ⟨N + 1, fun fuel hf => ?_⟩
    obtain ⟨k, rfl⟩ : ∃ k, fuel = k + 1 := ⟨fuel - 1, by omega⟩
    have := hN k (by omega)
    have hs := (o.split (b := u ++ op :: w) (by rw [e]; rfl)).2
    simp only [List.cons_append, List.head?_cons, findOp, hu x (by simp), hs, ne_eq, not_false_eq_true, if_true, this]

/-- Any node but a separator. -/
def solid (h : Heap) (x : Nat) : Bool := (h x).isNode && decide ((h x).typeName ≠ sepNt)

theorem lastPart_spec {m : Mem} {F : Forest} (o : Ok m F) (p : Nat) : ∀ (n : Nat) (a b : List Nat), a.length = n → F p = a ++ b →
    Ev (fun fuel => lastPart m.heap fuel a.getLast?) (a.reverse.find? (solid m.heap))
  | 0, a, b, hn, e => ⟨1, fun fuel hf => by
      obtain ⟨k, rfl⟩ : ∃ k, fuel = k + 1 := ⟨fuel - 1, by omega⟩
      rw [List.length_eq_zero_iff.1 hn]
      rfl⟩
  | n + 1, a, b, hn, e => by
    obtain ⟨a', x, rfl⟩ : ∃ a' x, a = a' ++ [x] := by
      rcases List.eq_nil_or_concat a with rfl | ⟨a', x, rfl⟩
      · simp at hn
      · exact ⟨a', x, by simp⟩
    obtain ⟨N, hN⟩ := lastPart_spec o p n a' (x :: b) (by simpa using hn) (by simp [e])
    refine ⟨N + 1, fun fuel hf => ?_⟩
    obtain ⟨k, rfl⟩ : ∃ k, fuel = k + 1 := ⟨fuel - 1, by omega⟩
    have := hN k (by omega)
    have hs := (o.split (p := p) (a := a') (x := x) (b := b) (by simp [e])).1
    dsimp only at this ⊢
    simp only [List.getLast?_append, List.getLast?_singleton, Option.some_or, lastPart, List.reverse_append, List.reverse_cons, List.reverse_nil,
      List.nil_append, List.singleton_append, List.find?_cons, hs, this, solid]
    by_cases h1 : (m.heap x).isNode = true <;> by_cases h2 : (m.heap x).typeName = sepNt <;> simp [h1, h2]

end Verif.Proof.ConfTree
