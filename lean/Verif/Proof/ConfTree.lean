/-
Trees of configuration files: labels of elements, new elements, search and output.
-/
import Verif.Model.ConfEdit
import Verif.Spec.Conf
import Verif.Proof.TreeSelect
import Verif.Proof.TreeEdit
import Verif.Proof.TreeTokens

namespace Verif.Proof.ConfTree

open Verif Verif.Model Verif.Model.Tree Verif.Model.ConfEdit Verif.Spec Verif.Spec.Conf Verif.Proof
open Verif.Spec.Trees (Forest Within visit visitAll elementsOf)
open Verif.Spec.Select (topmost topmostOf)

/-- Only links differ. -/
structure Same (h h' : Heap) : Prop where
  same : ∀ x, (h' x).isNode = (h x).isNode ∧ (h' x).typeName = (h x).typeName ∧ (h' x).token = (h x).token

theorem Same.refl (h : Heap) : Same h h := ⟨fun _ => ⟨rfl, rfl, rfl⟩⟩

theorem Same.trans {h h' h'' : Heap} (a : Same h h') (b : Same h' h'') : Same h h'' := ⟨fun x =>
  ⟨(b.same x).1.trans (a.same x).1, (b.same x).2.1.trans (a.same x).2.1, (b.same x).2.2.trans (a.same x).2.2⟩⟩

theorem same_setParent (h : Heap) (i : Nat) (p : Option Nat) : Same h (h.setParent i p) := ⟨fun x => by
  simp only [Heap.setParent, Heap.set]; split <;> simp_all⟩
theorem same_setPrev (h : Heap) (i : Nat) (p : Option Nat) : Same h (h.setPrev i p) := ⟨fun x => by
  simp only [Heap.setPrev, Heap.set]; split <;> simp_all⟩
theorem same_setNext (h : Heap) (i : Nat) (p : Option Nat) : Same h (h.setNext i p) := ⟨fun x => by
  simp only [Heap.setNext, Heap.set]; split <;> simp_all⟩
theorem same_setFirst (h : Heap) (i : Nat) (p : Option Nat) : Same h (h.setFirst i p) := ⟨fun x => by
  simp only [Heap.setFirst, Heap.set]; split <;> simp_all⟩
theorem same_setLast (h : Heap) (i : Nat) (p : Option Nat) : Same h (h.setLast i p) := ⟨fun x => by
  simp only [Heap.setLast, Heap.set]; split <;> simp_all⟩

theorem same_addChild (h : Heap) (n : Nat) (c b : Option Nat) : Same h (addChild h n c b) := by
  unfold addChild
  split
  · exact .refl h
  · split
    · dsimp only
      split
      · exact (same_setParent ..).trans ((same_setFirst ..).trans (same_setLast ..))
      · exact (same_setParent ..).trans ((same_setPrev ..).trans ((same_setNext ..).trans (same_setLast ..)))
    · split
      · exact .refl h
      · dsimp only
        have : ∀ x y z, Same h ((((h.setParent x (some n)).setPrev y (some x)).setNext x (some y)).setPrev x z) := fun x y z =>
          (same_setParent ..).trans ((same_setPrev ..).trans ((same_setNext ..).trans (same_setPrev ..)))
        split
        · exact (this ..).trans (same_setFirst ..)
        · exact (this ..).trans (same_setNext ..)

theorem same_removeChild (h : Heap) (n : Nat) (c : Option Nat) : Same h (removeChild h n c) := by
  unfold removeChild
  split
  · exact .refl h
  · split
    · exact .refl h
    · dsimp only
      have h3 : ∀ x, Same h (((h.setParent x none).setPrev x none).setNext x none) := fun x =>
        (same_setParent ..).trans ((same_setPrev ..).trans (same_setNext ..))
      split <;> split
      · exact (h3 _).trans ((same_setFirst ..).trans (same_setLast ..))
      · exact (h3 _).trans ((same_setNext ..).trans (same_setLast ..))
      · exact (h3 _).trans ((same_setFirst ..).trans (same_setPrev ..))
      · exact (h3 _).trans ((same_setNext ..).trans (same_setPrev ..))

theorem same_detach (h : Heap) (n : Option Nat) : Same h (detach h n) := by
  unfold detach
  split
  · exact .refl h
  · split
    · exact .refl h
    · exact same_removeChild ..

theorem same_appendSibling {h : Heap} {F : Forest} (r : Rep h F) {p x el : Nat} (hx : x ∈ F p) (hne : x ≠ el) :
    Same h (appendSibling h (some x) (some el)) := by
  obtain ⟨r1, -, -⟩ := detach_rep r el
  have hx1 : x ∈ Trees.detach F el p := by simp [Trees.detach, hx, hne]
  simp only [appendSibling, (r1.parent p x).2 hx1]
  exact (same_detach ..).trans (same_addChild ..)

theorem same_prependSibling {h : Heap} {F : Forest} (r : Rep h F) {p x el : Nat} (hx : x ∈ F p) (hne : x ≠ el) :
    Same h (prependSibling h (some x) (some el)) := by
  obtain ⟨r1, -, -⟩ := detach_rep r el
  have hx1 : x ∈ Trees.detach F el p := by simp [Trees.detach, hx, hne]
  simp only [prependSibling, (r1.parent p x).2 hx1]
  exact (same_detach ..).trans (same_addChild ..)

theorem same_replace {h h' : Heap} {old : Nat} {n : Option Nat} (hr : replace h (some old) n = some h') : Same h h' := by
  unfold replace at hr
  split at hr
  · dsimp only at hr
    split at hr
    · simp at hr
    · rw [← Option.some.inj hr]
      exact (same_detach ..).trans ((same_detach ..).trans (same_addChild ..))
  · rw [← Option.some.inj hr]
    exact same_detach ..

/-- What is written on elements. -/
def labels (h : Heap) (x : Nat) : Label := ⟨(h x).isNode, (h x).typeName, ((h x).token.map (·.content)).getD []⟩

theorem same_labels {h h' : Heap} (s : Same h h') : labels h' = labels h := by
  funext x
  obtain ⟨a, b, c⟩ := s.same x
  simp [labels, a, b, c]

/-! New elements -/

/-- Elements that exist make a forest; new elements are not in it; all token elements have tokens. -/
structure Ok (m : Mem) (F : Forest) : Prop where
  rep : Rep m.heap F
  kids : ∀ n, m.size ≤ n → F n = []
  free : ∀ n p, m.size ≤ n → n ∉ F p
  words : ∀ n p, n ∈ F p → (m.heap n).isNode = false → (m.heap n).token.isSome

theorem Ok.lt {m : Mem} {F : Forest} (o : Ok m F) {n p : Nat} (h : n ∈ F p) : n < m.size := by
  by_contra hn
  exact o.free n p (by omega) h

theorem Ok.lt_kids {m : Mem} {F : Forest} (o : Ok m F) {n p : Nat} (h : n ∈ F p) : p < m.size := by
  by_contra hn
  rw [o.kids p (by omega)] at h
  simp at h

theorem Ok.orphan {m : Mem} {F : Forest} (o : Ok m F) {n : Nat} (hn : m.size ≤ n) : (m.heap n).parent = none := by
  cases hp : (m.heap n).parent with
  | none => rfl
  | some p => exact absurd ((o.rep.parent p n).1 hp) (o.free n p hn)

theorem Ok.same {m : Mem} {F F' : Forest} {h' : Heap} (o : Ok m F) (r : Rep h' F') (s : Same m.heap h') (hs : ∀ n x, x ∈ F' n → x < m.size ∧ n < m.size)
    (hw : ∀ n x, x ∈ F' n → (m.heap x).isNode = false → (m.heap x).token.isSome) : Ok { m with heap := h' } F' where
  rep := r
  kids n hn := List.eq_nil_iff_forall_not_mem.2 fun x hx => by have := (hs n x hx).2; simp at hn; omega
  free n p hn hx := by have := (hs p n hx).1; simp at hn; omega
  words n p hx ht := by
    have := s.same n
    simp only at ht ⊢
    rw [this.2.2]
    rw [this.1] at ht
    exact hw p n hx ht

/-- No links. -/
def Unlinked (e : Elem) : Prop := e.parent = none ∧ e.prev = none ∧ e.next = none ∧ e.firstChild = none ∧ e.lastChild = none

theorem new_rep {h : Heap} {F : Forest} (r : Rep h F) {n : Nat} {e : Elem} (hk : F n = []) (hf : ∀ p, n ∉ F p) (hu : Unlinked e) :
    Rep (h.set n e) F := by
  obtain ⟨u1, u2, u3, u4, u5⟩ := hu
  have hm : ∀ p, ∀ x ∈ F p, x ≠ n := fun p x hx e => hf p (e ▸ hx)
  refine ⟨?_, ?_, r.nodup, ?_, ?_, ?_, ?_, r.down, r.up⟩
  · intro p x
    by_cases hx : x = n
    · subst hx
      simp [Heap.set, u1, hf]
    · simpa [Heap.set, hx] using r.parent p x
  · intro p
    refine link_congr (r.link p) ?_ ?_ <;> intro x hx <;> simp [Heap.set, hm p x hx]
  · intro p hp
    by_cases hx : p = n
    · subst hx; simp [Heap.set, u4, hk]
    · simp only [Heap.set, hx, if_false] at hp ⊢; exact r.first p hp
  · intro p hp
    by_cases hx : p = n
    · subst hx; simp [Heap.set, u5, hk]
    · simp only [Heap.set, hx, if_false] at hp ⊢; exact r.last p hp
  · intro p hp
    by_cases hx : p = n
    · subst hx; exact hk
    · simp only [Heap.set, hx, if_false] at hp; exact r.token p hp
  · intro x hp
    by_cases hx : x = n
    · subst hx; simp [Heap.set, u2, u3]
    · simp only [Heap.set, hx, if_false] at hp ⊢; exact r.alone x hp

theorem new_ok {m : Mem} {F : Forest} (o : Ok m F) {e : Elem} (hu : Unlinked e) : Ok (m.new e) F where
  rep := new_rep o.rep (o.kids _ (Nat.le_refl _)) (fun p => o.free _ p (Nat.le_refl _)) hu
  kids n hn := o.kids n (by simp [Mem.new] at hn; omega)
  free n p hn := o.free n p (by simp [Mem.new] at hn; omega)
  words n p hx := by
    have : n ≠ m.size := by have := o.lt hx; omega
    simpa [Mem.new, Heap.set, this] using o.words n p hx

theorem new_heap (m : Mem) (e : Elem) (x : Nat) : (m.new e).heap x = if x = m.size then e else m.heap x := rfl

@[simp] theorem new_size (m : Mem) (e : Elem) : (m.new e).size = m.size + 1 := rfl

theorem unlinked_token (typ : String) (text : List Nat) : Unlinked (tokenNode typ text) := ⟨rfl, rfl, rfl, rfl, rfl⟩

theorem unlinked_node (typ : String) : Unlinked (newNodeElement typ none) := ⟨rfl, rfl, rfl, rfl, rfl⟩

theorem not_within_leaf {F : Forest} {c n : Nat} (hk : F c = []) (hne : n ≠ c) : ¬ Within F c n := by
  intro hw
  rcases Relation.ReflTransGen.cases_head hw with e | ⟨x, hx, -⟩
  · exact hne e.symm
  · rw [hk] at hx; simp at hx

/-- An element not in the tree becomes a child. -/
theorem attach_ok {m : Mem} {F : Forest} (o : Ok m F) {n c : Nat} (hn : (m.heap n).isNode = true) (hnl : n < m.size) (hc : c < m.size)
    (hfree : ∀ p, c ∉ F p) (hw : ¬ Within F c n) (ht : (m.heap c).isNode = false → (m.heap c).token.isSome) {a b : List Nat} (e : F n = a ++ b) :
    Ok { m with heap := addChild m.heap n (some c) b.head? } (put F n (a ++ c :: b)) := by
  have hp : (m.heap c).parent = none := by
    cases hp : (m.heap c).parent with
    | none => rfl
    | some p => exact absurd ((o.rep.parent p c).1 hp) (hfree p)
  have key : ∀ k x, x ∈ put F n (a ++ c :: b) k → x = c ∧ k = n ∨ x ∈ F k := by
    intro k x hx
    by_cases hk : k = n
    · subst hk
      simp only [put, if_true] at hx
      rw [e]
      simp at hx ⊢
      tauto
    · simp only [put, hk, if_false] at hx
      exact .inr hx
  refine o.same (addChild_rep o.rep hp hn e hw).1 (same_addChild ..) ?_ ?_
  · intro k x hx
    rcases key k x hx with ⟨rfl, rfl⟩ | hx
    · exact ⟨hc, hnl⟩
    · exact ⟨o.lt hx, o.lt_kids hx⟩
  · intro k x hx
    rcases key k x hx with ⟨rfl, rfl⟩ | hx
    · exact ht
    · exact o.words x k hx

theorem put_self (F : Forest) (n : Nat) (l : List Nat) : put F n l n = l := by simp [put]

theorem put_ne (F : Forest) {n m : Nat} (l : List Nat) (h : m ≠ n) : put F n l m = F m := by simp [put, h]

theorem addToken_ok {m : Mem} {F : Forest} (o : Ok m F) {n : Nat} (hn : (m.heap n).isNode = true) (hnl : n < m.size) (typ : String) (text : List Nat) :
    Ok (m.addToken n typ text) (put F n (F n ++ [m.size])) := by
  have o1 := new_ok o (unlinked_token typ text)
  have hne : n ≠ m.size := by omega
  exact attach_ok o1 (n := n) (c := m.size) (a := F n) (b := []) (by simpa [new_heap, hne] using hn) (by simp; omega) (by simp)
    (fun p => o.free _ p (Nat.le_refl _)) (not_within_leaf (o.kids _ (Nat.le_refl _)) hne) (fun _ => by simp [new_heap, tokenNode, newTokenElement]) (by simp)

@[simp] theorem addToken_size (m : Mem) (n : Nat) (typ : String) (text : List Nat) : (m.addToken n typ text).size = m.size + 1 := rfl

/-- A changed label. -/
def upd (lab : Nat → Label) (n : Nat) (l : Label) : Nat → Label := fun x => if x = n then l else lab x

theorem addToken_labels (m : Mem) (n : Nat) (typ : String) (text : List Nat) :
    labels (m.addToken n typ text).heap = upd (labels m.heap) m.size ⟨false, typ, text⟩ := by
  refine (same_labels (same_addChild ..)).trans ?_
  funext x
  by_cases hx : x = m.size
  · subst hx; simp [labels, upd, new_heap, tokenNode, newTokenElement]
  · simp [labels, upd, new_heap, hx]

theorem newNode_labels (m : Mem) (typ : String) :
    labels (m.new (newNodeElement typ none)).heap = upd (labels m.heap) m.size ⟨true, typ, []⟩ := by
  funext x
  by_cases hx : x = m.size
  · subst hx; simp [labels, upd, new_heap, newNodeElement]
  · simp [labels, upd, new_heap, hx]

theorem newToken_labels (m : Mem) (typ : String) (text : List Nat) :
    labels (m.new (tokenNode typ text)).heap = upd (labels m.heap) m.size ⟨false, typ, text⟩ := by
  funext x
  by_cases hx : x = m.size
  · subst hx; simp [labels, upd, new_heap, tokenNode, newTokenElement]
  · simp [labels, upd, new_heap, hx]

/-- Tokens added to a node one after another. -/
def Mem.addAll (m : Mem) (n : Nat) : List Tok → Mem
  | [] => m
  | t :: ts => Mem.addAll (m.addToken n t.type t.text) n ts

/-- New elements for tokens. -/
def fresh (k : Nat) (ts : List Tok) : List Nat := (List.range ts.length).map (k + ·)

theorem fresh_cons (k : Nat) (t : Tok) (ts : List Tok) : fresh k (t :: ts) = k :: fresh (k + 1) ts := by
  simp [fresh, List.range_succ_eq_map]
  intro a _
  omega

theorem mem_fresh {k : Nat} {ts : List Tok} {x : Nat} : x ∈ fresh k ts ↔ k ≤ x ∧ x < k + ts.length := by
  simp [fresh]
  constructor
  · rintro ⟨a, h, rfl⟩; omega
  · rintro ⟨h1, h2⟩; exact ⟨x - k, by omega, by omega⟩

theorem put_put (F : Forest) (n : Nat) (a b : List Nat) : put (put F n a) n b = put F n b := by
  funext x; simp only [put]; split <;> rfl

theorem addAll_spec : ∀ (ts : List Tok) {m : Mem} {F : Forest} {n : Nat}, Ok m F → (m.heap n).isNode = true → n < m.size →
    Ok (Mem.addAll m n ts) (put F n (F n ++ fresh m.size ts)) ∧ (Mem.addAll m n ts).size = m.size + ts.length ∧
      (∀ x < m.size, labels (Mem.addAll m n ts).heap x = labels m.heap x) ∧
      (fresh m.size ts).map (fun x => labels (Mem.addAll m n ts).heap x) = ts.map fun t => ⟨false, t⟩
  | [], m, F, n, o, _, _ => by
    have : put F n (F n ++ fresh m.size []) = F := by funext x; simp only [put, fresh]; split <;> simp_all
    rw [this]
    exact ⟨o, rfl, fun _ _ => rfl, rfl⟩
  | t :: ts, m, F, n, o, hn, hnl => by
    have hlab := addToken_labels m n t.type t.text
    have hl : labels (m.addToken n t.type t.text).heap n = labels m.heap n := by rw [hlab]; simp [upd]; omega
    have hn' : ((m.addToken n t.type t.text).heap n).isNode = true := by
      have := congrArg Label.isNode hl
      simpa [labels, hn] using this
    obtain ⟨o1, s1, l1, l2⟩ := addAll_spec ts (addToken_ok o hn hnl t.type t.text) hn' (by simp; omega)
    rw [put_put, put_self, addToken_size] at o1
    rw [addToken_size] at s1 l1 l2
    refine ⟨?_, ?_, ?_, ?_⟩
    · simpa [Mem.addAll, fresh_cons] using o1
    · simp only [Mem.addAll, s1, List.length_cons]; omega
    · intro x hx
      simp only [Mem.addAll]
      rw [l1 x (by omega), hlab]
      simp [upd]; omega
    · simp only [Mem.addAll, fresh_cons, List.map_cons]
      rw [l2, l1 m.size (by omega), hlab]
      simp [upd]

/-! Search -/

/-- Token elements of a part. -/
def leaves (h : Heap) (F : Forest) (x : Nat) : List Nat := if (h x).isNode then F x else [x]

theorem isA_one (h : Heap) (ty : String) (x : Nat) : isA h [ty] x = decide ((h x).typeName = ty) := by
  simp only [isA, isA.go]
  split <;> simp_all

theorem firstOf_tree {h : Heap} {F : Forest} (r : Rep h F) (ty : String) (t : Trees.Tree) (ht : t.Of F) :
    Ev (fun fuel => firstOf h fuel ty t.id) (topmost (fun x => decide ((h x).typeName = ty)) t).head? := by
  obtain ⟨N, hN⟩ := search_spec r (isA h [ty]) false t ht
  refine ⟨N, fun fuel hf => ?_⟩
  have := hN fuel hf
  simp only [Bool.false_eq_true, if_false] at this
  simp only [firstOf, newSelector, Selector.search, Selector.extract, Selector.apply, List.foldl_cons, List.foldl_nil, bindRun, Selector.turn,
    List.nil_append, selectOne, selectNodes, Bool.false_eq_true, if_false, this]
  have e : isA h [ty] = fun x => decide ((h x).typeName = ty) := funext (isA_one h ty)
  rw [e]

theorem topmost_leaf {F : Forest} (nf : Nat → Bool) : ∀ (t : Trees.Tree), t.Of F → F t.id = [] → topmost nf t = [t.id].filter nf
  | .node id kids, ht, hk => by
    simp only [Trees.Tree.Of] at ht
    have : kids = [] := by
      have := ht.1
      simp only [Trees.Tree.id] at hk
      rw [hk] at this
      simpa using this.symm
    subst this
    simp only [topmost, topmostOf, Trees.Tree.id, List.filter_cons, List.filter_nil]

theorem topmostOf_eq {F : Forest} (nf : Nat → Bool) (g : Nat → List Nat) : ∀ (ts : List Trees.Tree), Trees.allOf F ts →
    (∀ t ∈ ts, t.Of F → topmost nf t = g t.id) → topmostOf nf ts = (ts.map Trees.Tree.id).flatMap g
  | [], _, _ => rfl
  | t :: ts, ha, h => by
    simp only [Trees.allOf] at ha
    simp only [topmostOf, List.map_cons, List.flatMap_cons]
    rw [h t (by simp) ha.1, topmostOf_eq nf g ts ha.2 fun t' h' => h t' (by simp [h'])]

theorem topmost_node {F : Forest} (nf : Nat → Bool) (g : Nat → List Nat) : ∀ (t : Trees.Tree), t.Of F → nf t.id = false →
    (∀ k ∈ F t.id, ∀ t' : Trees.Tree, t'.id = k → t'.Of F → topmost nf t' = g k) → topmost nf t = (F t.id).flatMap g
  | .node id kids, ht, hn, h => by
    simp only [Trees.Tree.Of] at ht
    simp only [Trees.Tree.id] at hn h ⊢
    simp only [topmost, hn, Bool.false_eq_true, if_false]
    rw [topmostOf_eq nf g kids ht.2 fun t' h' ho => h t'.id (by rw [ht.1]; exact List.mem_map_of_mem h') t' rfl ho, ht.1]

theorem topmost_part {h : Heap} {F : Forest} (r : Rep h F) (nf : Nat → Bool) (t : Trees.Tree) (ht : t.Of F) (hn : (h t.id).isNode = true → nf t.id = false)
    (hk : ∀ y ∈ F t.id, (h y).isNode = false) : topmost nf t = (leaves h F t.id).filter nf := by
  cases hi : (h t.id).isNode with
  | false => rw [topmost_leaf nf t ht (r.token _ hi)]; simp [leaves, hi]
  | true =>
    rw [topmost_node nf (fun k => [k].filter nf) t ht (hn hi) fun k hkm t' e ho => by
      rw [topmost_leaf nf t' ho (by rw [e]; exact r.token _ (hk k hkm)), e]]
    simp only [leaves, hi, if_true]
    generalize F t.id = l
    induction l with
    | nil => rfl
    | cons x l ih =>
      rw [List.flatMap_cons, ih, List.filter_cons, List.filter_cons, List.filter_nil]
      split <;> rfl

theorem head?_filter (l : List Nat) (p : Nat → Bool) : (l.filter p).head? = l.find? p := by
  induction l with
  | nil => rfl
  | cons x l ih => simp only [List.filter_cons, List.find?_cons]; split <;> simp_all

theorem firstOf_part {h : Heap} {F : Forest} (r : Rep h F) (ty : String) (x : Nat) (hn : (h x).isNode = true → (h x).typeName ≠ ty)
    (hk : ∀ y ∈ F x, (h y).isNode = false) :
    Ev (fun fuel => firstOf h fuel ty x) ((leaves h F x).find? fun y => decide ((h y).typeName = ty)) := by
  obtain ⟨t, ht, rfl⟩ := exists_tree r.down x
  have := firstOf_tree r ty t ht
  rwa [topmost_part r _ t ht (fun hi => by simpa using hn hi) hk, head?_filter] at this

theorem firstOf_section {h : Heap} {F : Forest} (r : Rep h F) (ty : String) (σ : Nat) (hs : (h σ).typeName ≠ ty)
    (hn : ∀ x ∈ F σ, (h x).isNode = true → (h x).typeName ≠ ty) (hk : ∀ x ∈ F σ, ∀ y ∈ F x, (h y).isNode = false) :
    Ev (fun fuel => firstOf h fuel ty σ) (((F σ).flatMap (leaves h F)).find? fun y => decide ((h y).typeName = ty)) := by
  obtain ⟨t, ht, rfl⟩ := exists_tree r.down σ
  have := firstOf_tree r ty t ht
  rw [topmost_node _ (fun k => (leaves h F k).filter fun x => decide ((h x).typeName = ty)) t ht (by simpa using hs) fun k hkm t' e ho => by
      subst e
      exact topmost_part r _ t' ho (fun hi => by simpa using hn _ hkm hi) (hk _ hkm)] at this
  rwa [← head?_filter, List.filter_flatMap]

theorem find_text (h : Heap) (ty : String) (l : List Nat) : firstText ty (l.map fun y => (labels h y).tok) =
    (l.find? fun y => decide ((h y).typeName = ty)).map fun y => (labels h y).tok.text := by
  simp only [firstText, List.find?_map, Option.map_map]
  rfl

/-! Output -/

mutual
theorem visit_fold (f : List Nat → Nat → List Nat) : ∀ (t : Trees.Tree) (l : Nat) (s : List Nat),
    (visit (specVisitor fun (s : List Nat) x => (f s x.1, 0)) l s t).1 = t.elements.foldl f s ∧
      (visit (specVisitor fun (s : List Nat) x => (f s x.1, 0)) l s t).2.2 = .goOn
  | .node id kids, l, s => by
    obtain ⟨h1, h2⟩ := visitAll_fold f kids (l + 1) (f s id)
    have hv : specVisitor (fun (s : List Nat) (x : Nat × Nat) => (f s x.1, 0)) s (id, l) = (f s id, toFlags 0) := rfl
    have hf : toFlags 0 = ⟨false, false, false⟩ := by simp [toFlags, flag0]
    simp only [visit, hv, hf, Trees.Tree.elements, Bool.false_eq_true, if_false, h1, h2]
    simp
theorem visitAll_fold (f : List Nat → Nat → List Nat) : ∀ (ts : List Trees.Tree) (l : Nat) (s : List Nat),
    (visitAll (specVisitor fun (s : List Nat) x => (f s x.1, 0)) l s ts).1 = (elementsOf ts).foldl f s ∧
      (visitAll (specVisitor fun (s : List Nat) x => (f s x.1, 0)) l s ts).2.2 = .goOn
  | [], l, s => by simp [visitAll, elementsOf]
  | t :: ts, l, s => by
    obtain ⟨h1, h2⟩ := visit_fold f t l s
    obtain ⟨h3, h4⟩ := visitAll_fold f ts l (t.elements.foldl f s)
    simp only [visitAll, h1, h2, h3, h4, elementsOf]
    simp
end

theorem elementsOf_flatMap {F : Forest} (g k : Nat → List Nat) : ∀ (ts : List Trees.Tree), Trees.allOf F ts →
    (∀ t ∈ ts, t.Of F → t.elements.flatMap g = k t.id) → (elementsOf ts).flatMap g = (ts.map Trees.Tree.id).flatMap k
  | [], _, _ => rfl
  | t :: ts, ha, h => by
    simp only [Trees.allOf] at ha
    simp only [elementsOf, List.map_cons, List.flatMap_cons, List.flatMap_append]
    rw [h t (by simp) ha.1, elementsOf_flatMap g k ts ha.2 fun t' h' => h t' (by simp [h'])]

theorem elements_node {F : Forest} (g k : Nat → List Nat) : ∀ (t : Trees.Tree), t.Of F →
    (∀ x ∈ F t.id, ∀ t' : Trees.Tree, t'.id = x → t'.Of F → t'.elements.flatMap g = k x) → t.elements.flatMap g = g t.id ++ (F t.id).flatMap k
  | .node id kids, ht, h => by
    simp only [Trees.Tree.Of] at ht
    simp only [Trees.Tree.id] at h ⊢
    simp only [Trees.Tree.elements, List.flatMap_cons]
    rw [elementsOf_flatMap g k kids ht.2 fun t' h' ho => h t'.id (by rw [ht.1]; exact List.mem_map_of_mem h') t' rfl ho, ht.1]

/-- Three levels of elements: items, parts, tokens. -/
def Flat (h : Heap) (F : Forest) (root : Nat) : Prop :=
  (h root).isNode = true ∧ ∀ σ ∈ F root, ∀ x ∈ F σ, ∀ y ∈ F x, (h y).isNode = false

theorem foldl_flatMap (g : Nat → List Nat) : ∀ (l : List Nat) (s : List Nat), l.foldl (fun out x => out ++ g x) s = s ++ l.flatMap g
  | [], s => by simp
  | x :: l, s => by simp [foldl_flatMap g l]

theorem serialize_spec {h : Heap} {F : Forest} (r : Rep h F) {root : Nat} (hf : Flat h F root) :
    Ev (fun fuel => serialize h fuel root) (docAt (labels h) F root).text := by
  obtain ⟨t, ht, rfl⟩ := exists_tree r.down root
  let g : Nat → List Nat := fun x => if (h x).isNode then [] else (labels h x).tok.text
  obtain ⟨N, hN⟩ := walk_spec_ltr r (fun (out : List Nat) x => (out ++ g x.1, 0)) t ht []
  refine ⟨N, fun fuel hfu => ?_⟩
  have e : (fun (out : List Nat) (x : Nat × Nat) => if (h x.1).isNode then (out, 0) else (out ++ ((h x.1).token.map (·.content)).getD [], 0)) =
      fun (out : List Nat) (x : Nat × Nat) => (out ++ g x.1, 0) := by
    funext out x
    simp only [g, labels]
    split <;> simp
  simp only [serialize]
  rw [e, hN fuel hfu]
  simp only [bindRun, Bool.false_eq_true, if_false]
  congr 1
  rw [(visit_fold (fun out x => out ++ g x) t 0 []).1, foldl_flatMap, List.nil_append]
  have hleaf : ∀ (t' : Trees.Tree), t'.Of F → (h t'.id).isNode = false → t'.elements.flatMap g = (labels h t'.id).tok.text := by
    intro t' ho hl
    rw [elements_node g (fun _ => []) t' ho (by rw [r.token _ hl]; simp), r.token _ hl]
    simp [g, hl]
  have hpart : ∀ (t' : Trees.Tree), t'.Of F → (∀ y ∈ F t'.id, (h y).isNode = false) →
      t'.elements.flatMap g = (partAt (labels h) F t'.id).toks.flatMap Tok.text := by
    intro t' ho hk
    cases hi : (h t'.id).isNode with
    | false => rw [hleaf t' ho hi]; simp [partAt, labels, hi, Part.toks]
    | true =>
      rw [elements_node g (fun x => (labels h x).tok.text) t' ho fun x hx t'' e ho' => by subst e; exact hleaf t'' ho' (hk _ hx)]
      have : (labels h t'.id).isNode = true := hi
      simp only [partAt, this, if_true, Part.toks, g, hi, List.nil_append, List.flatMap_map]
  have hitem : ∀ (t' : Trees.Tree), t'.Of F → (∀ x ∈ F t'.id, ∀ y ∈ F x, (h y).isNode = false) →
      t'.elements.flatMap g = (itemAt (labels h) F t'.id).toks.flatMap Tok.text := by
    intro t' ho hk
    cases hi : (h t'.id).isNode with
    | false => rw [hleaf t' ho hi]; simp [itemAt, labels, hi, Item.toks]
    | true =>
      rw [elements_node g (fun x => (partAt (labels h) F x).toks.flatMap Tok.text) t' ho fun x hx t'' e ho' => by subst e; exact hpart t'' ho' (hk _ hx)]
      have : (labels h t'.id).isNode = true := hi
      simp only [itemAt, this, if_true, Item.toks, g, hi, List.nil_append, List.flatMap_map, List.flatMap_assoc]
  rw [elements_node g (fun x => (itemAt (labels h) F x).toks.flatMap Tok.text) t ht fun x hx t'' e ho' => by subst e; exact hitem t'' ho' (hf.2 _ hx)]
  simp only [g, hf.1, if_true, List.nil_append, docAt, Doc.text, List.flatMap_map, List.flatMap_assoc]

end Verif.Proof.ConfTree
