/-
Tree editing: C17, C18.
-/
import Verif.Proof.TreeEdit

namespace Verif.Props

open Verif.Model.Tree Verif.Spec Verif.Spec.Trees

/-- The links of the heap show exactly the forest: parents, siblings, first and last children. -/
structure Shows (h : Heap) (F : Forest) : Prop where
  parent : ∀ n x, (h x).parent = some n ↔ x ∈ F n
  top : ∀ x, (h x).parent = none → (h x).prev = none ∧ (h x).next = none
  siblings : ∀ n a x b, F n = a ++ x :: b → (h x).prev = a.getLast? ∧ (h x).next = b.head?
  nodes : ∀ n, (h n).isNode = true → (h n).firstChild = (F n).head? ∧ (h n).lastChild = (F n).getLast?
  tokens : ∀ n, (h n).isNode = false → F n = []
  distinct : ∀ n, (F n).Nodup

theorem shows_of_rep {h : Heap} {F : Forest} (r : Rep h F) : Shows h F :=
  ⟨r.parent, r.alone, fun n a x b e => r.link n a x b e, fun n hn => ⟨r.first n hn, r.last n hn⟩, r.token, r.nodup⟩

/-- An edit made by the code. -/
def runEdit (h : Heap) : Edit → Heap
  | .detach el => detach h (some el)
  | .appendChild p el => appendChild h (some p) (some el)
  | .appendSibling x el => appendSibling h (some x) (some el)
  | .prependSibling x el => prependSibling h (some x) (some el)

/-- Elements without links. -/
def blank (isNode : Nat → Bool) : Heap := fun n => ⟨isNode n, "", none, none, none, none, none, none⟩

/-- No links yet. -/
def Separate (h : Heap) : Prop := ∀ n, (h n).parent = none ∧ (h n).prev = none ∧ (h n).next = none ∧
  (h n).firstChild = none ∧ (h n).lastChild = none

theorem separate_blank (isNode : Nat → Bool) : Separate (blank isNode) := fun _ => ⟨rfl, rfl, rfl, rfl, rfl⟩

theorem rep_separate {h : Heap} (hs : Separate h) : Rep h Forest.empty where
  parent := by intro n x; simp [(hs x).1, Forest.empty]
  link := by intro n a x b e; simp [Forest.empty] at e
  nodup := by intro n; simp [Forest.empty]
  first := by intro n _; simp [(hs n).2.2.2.1, Forest.empty]
  last := by intro n _; simp [(hs n).2.2.2.2, Forest.empty]
  token := by intro n _; simp [Forest.empty]
  alone := by intro x _; exact ⟨(hs x).2.1, (hs x).2.2.1⟩
  down := ⟨fun a => ⟨a, fun y hy => by simp [Forest.empty] at hy⟩⟩
  up := ⟨fun a => ⟨a, fun y hy => by simp [Forest.empty] at hy⟩⟩

theorem edit_rep {h : Heap} {F : Forest} (r : Rep h F) (e : Edit) (ha : e.Allowed (kinds h) F) :
    Rep (runEdit h e) (e.apply F) ∧ kinds (runEdit h e) = kinds h := by
  cases e with
  | detach el => exact ⟨(detach_rep r el).1, (detach_rep r el).2.1⟩
  | appendChild p el => exact appendChild_rep r ha.1 ha.2
  | appendSibling x el => obtain ⟨⟨p, hp⟩, hw⟩ := ha; exact appendSibling_rep r hp hw
  | prependSibling x el => obtain ⟨⟨p, hp⟩, hw⟩ := ha; exact prependSibling_rep r hp hw

theorem history_rep {F F' : Forest} {es : List Edit} {k : Nat → Bool} (hist : History k F es F') :
    ∀ {h : Heap}, Rep h F → kinds h = k → Rep (es.foldl runEdit h) F' ∧ kinds (es.foldl runEdit h) = k := by
  induction hist with
  | nil F => intro h r hk; exact ⟨r, hk⟩
  | cons ha _ ih =>
    intro h r hk
    obtain ⟨r1, k1⟩ := edit_rep r _ (by rw [hk]; exact ha)
    exact ih r1 (k1.trans hk)

/-- The heap is made by edits of separate elements, the forest is the result of the same edits of lists. -/
def Edited (h : Heap) (F : Forest) : Prop :=
  ∃ h0 es, Separate h0 ∧ History (kinds h0) Forest.empty es F ∧ h = es.foldl runEdit h0

theorem Edited.rep {h : Heap} {F : Forest} (e : Edited h F) : Rep h F := by
  obtain ⟨h0, es, hs, hist, rfl⟩ := e
  exact (history_rep hist (rep_separate hs) rfl).1

/-- C17: any history of edits starting with separate elements leaves exactly the links of the edited lists. -/
theorem C17_edits_are_list_edits (h : Heap) (hs : Separate h) (es : List Edit) (F : Forest)
    (hist : History (kinds h) Forest.empty es F) :
    Shows (es.foldl runEdit h) F :=
  shows_of_rep (history_rep hist (rep_separate hs) rfl).1

/-- C17: editing never creates a cycle: no element gets into its own subtree. -/
theorem C17_edits_make_no_cycle (h : Heap) (hs : Separate h) (es : List Edit) (F : Forest)
    (hist : History (kinds h) Forest.empty es F)
    (x : Nat) : ¬ ∃ c ∈ F x, Within F c x := by
  rintro ⟨c, hc, hw⟩
  have r := (history_rep hist (rep_separate hs) rfl).1
  have hcyc : Relation.TransGen (fun p c => c ∈ F p) x x := Relation.TransGen.head' hc hw
  exact (WellFounded.transGen r.up).asymmetric _ _ hcyc hcyc

/-- C17: the kind of an element never changes. -/
theorem C17_edits_keep_kinds (h : Heap) (hs : Separate h) (es : List Edit) (F : Forest)
    (hist : History (kinds h) Forest.empty es F) (x : Nat) :
    (es.foldl runEdit h x).isNode = (h x).isNode :=
  congrFun (history_rep hist (rep_separate hs) rfl).2 x

theorem within_of_no_kids {F : Forest} {a x : Nat} (h : F a = []) (hw : Within F a x) : a = x := by
  rcases Relation.ReflTransGen.cases_head hw with rfl | ⟨c, hc, _⟩
  · rfl
  · rw [h] at hc; simp at hc

/-- Kinds of elements of examples: element 0 and elements 10, 11, ... are nodes. -/
def sampleKinds (n : Nat) : Bool := n = 0 || n ≥ 10

/-- A history meeting the hypothesis: three children, the last one is moved before the first one. -/
theorem sample_history : ∃ F, F 0 = [3, 1, 2] ∧ History sampleKinds Forest.empty
    [.appendChild 0 1, .appendChild 0 2, .appendSibling 2 3, .prependSibling 1 3] F := by
  refine ⟨_, ?_, .cons ⟨rfl, ?_⟩ <| .cons ⟨rfl, ?_⟩ <| .cons ⟨⟨0, ?_⟩, ?_⟩ <| .cons ⟨⟨0, ?_⟩, ?_⟩ <| .nil _⟩
  · decide
  · intro h; have := within_of_no_kids (by decide) h; simp at this
  · intro h; have := within_of_no_kids (by decide) h; simp at this
  · decide
  · intro h; have := within_of_no_kids (by decide) h; simp at this
  · decide
  · intro h; have := within_of_no_kids (by decide) h; simp at this

example : ∃ F, F 0 = [3, 1, 2] ∧ Shows ([Edit.appendChild 0 1, .appendChild 0 2, .appendSibling 2 3,
    .prependSibling 1 3].foldl runEdit (blank sampleKinds)) F := by
  obtain ⟨F, h0, hist⟩ := sample_history
  exact ⟨F, h0, C17_edits_are_list_edits _ (separate_blank sampleKinds) _ _ hist⟩

/-- C17: siblings without a parent form a chain of their own; `AppendSibling` inserts into the chain and touches
nothing else. -/
theorem C17_append_to_chain (h : Heap) (a b : List Nat) (x el : Nat)
    (hl : ∀ a' y b', a ++ x :: b = a' ++ y :: b' → (h y).prev = a'.getLast? ∧ (h y).next = b'.head?)
    (hd : (a ++ x :: el :: b).Nodup) (hx : (h x).parent = none) (hel : (h el).parent = none) :
    (∀ a' y b', a ++ x :: el :: b = a' ++ y :: b' →
      (appendSibling h (some x) (some el) y).prev = a'.getLast? ∧
      (appendSibling h (some x) (some el) y).next = b'.head?) ∧
    ∀ y, y ∉ a ++ x :: el :: b → appendSibling h (some x) (some el) y = h y := by
  obtain ⟨h1, h2, _⟩ := appendSibling_chain (h := h) (a := a) (b := b) (x := x) (el := el) hl hd hx hel
  exact ⟨h1, h2⟩

/-- A chain meeting the hypotheses: separate elements. -/
example : ((blank sampleKinds) 1).parent = none ∧ ((blank sampleKinds) 2).parent = none ∧
    ([] ++ 1 :: 2 :: [] : List Nat).Nodup ∧ (appendSibling (blank sampleKinds) (some 1) (some 2) 1).next = some 2 := by
  decide

/-! C18: `Replace` -/

/-- C18 (proved part): an element other than the next sibling takes the place of the old one. Missing: see
`C18_replace_by_next_sibling`, `C18_replace_top`. -/
theorem C18_replace_partial (h : Heap) (hs : Separate h) (es : List Edit) (F : Forest)
    (hist : History (kinds h) Forest.empty es F)
    (old n p : Nat) (hold : old ∈ F p) (hw : n = old ∨ ¬ Within F n old)
    (hnext : ∀ a b, F p ≠ a ++ old :: n :: b) :
    ∃ h', replace (es.foldl runEdit h) (some old) (some n) = some h' ∧ Shows h' (Trees.replace F old n) := by
  have r := (history_rep hist (rep_separate hs) rfl).1
  obtain ⟨a, b, e, _, hnx, _, _⟩ := r.split hold
  obtain ⟨h', e1, r', _⟩ := replace_rep r hold hw (by
    rw [hnx]
    cases b with
    | nil => simp
    | cons y b =>
      simp
      rintro rfl
      exact hnext a b e)
  exact ⟨h', e1, shows_of_rep r'⟩

/-- C18: replacement with nil just detaches the old element. -/
theorem C18_replace_by_nil (h : Heap) (hs : Separate h) (es : List Edit) (F : Forest)
    (hist : History (kinds h) Forest.empty es F) (old : Nat) :
    ∃ h', replace (es.foldl runEdit h) (some old) none = some h' ∧ Shows h' (Trees.detach F old) :=
  ⟨_, rfl, shows_of_rep (detach_rep (history_rep hist (rep_separate hs) rfl).1 old).1⟩

/-- C18 is false: replacement with the next sibling always drops both elements. -/
theorem C18_replace_by_next_sibling (h : Heap) (hs : Separate h) (es : List Edit) (F : Forest)
    (hist : History (kinds h) Forest.empty es F)
    (old n p : Nat) (a b : List Nat) (e : F p = a ++ old :: n :: b) :
    ∃ h', replace (es.foldl runEdit h) (some old) (some n) = some h' ∧
      Shows h' (Trees.detach (Trees.detach F old) n) ∧ ¬ Shows h' (Trees.replace F old n) := by
  have r := (history_rep hist (rep_separate hs) rfl).1
  have hold : old ∈ F p := by rw [e]; simp
  obtain ⟨_, hnx⟩ := r.link p a old (n :: b) e
  obtain ⟨h', e1, r', _⟩ := replace_next r hold (by simpa using hnx)
  refine ⟨h', e1, shows_of_rep r', fun s => ?_⟩
  have hne : old ≠ n := by
    have := r.nodup p
    rw [e, List.nodup_append] at this
    have := this.2.1
    simp at this
    exact this.1.1
  have h1 : n ∈ Trees.replace F old n p := by
    simp only [Trees.replace, if_neg hne, List.mem_map]
    exact ⟨old, by simp [Trees.detach, e, hne], by simp⟩
  have h2 := (s.parent p n).2 h1
  have h3 := ((shows_of_rep r').parent p n).1 h2
  simp [Trees.detach] at h3

/-- C18 is false: an element without a parent cannot be replaced, the code panics. -/
theorem C18_replace_top (h : Heap) (old n : Nat) (hp : (h old).parent = none) :
    replace h (some old) (some n) = none := by
  simp [Model.Tree.replace, hp]

/-- Cases meeting the hypotheses: in the children 3, 1, 2 element 3 may be replaced with 2 and is lost with 1. -/
example : ∃ F, F 0 = [3, 1, 2] ∧ (∃ es, History sampleKinds Forest.empty es F) ∧ 3 ∈ F 0 ∧ ¬ Within F 2 3 ∧
    (∀ a b, F 0 ≠ a ++ 3 :: 2 :: b) ∧ F 0 = [] ++ 3 :: 1 :: [2] ∧ Trees.replace F 3 2 0 = [2, 1] ∧
    Trees.detach (Trees.detach F 3) 1 0 = [2] := by
  obtain ⟨F, h0, hist⟩ := sample_history
  refine ⟨F, h0, ⟨_, hist⟩, by simp [h0], ?_, ?_, by simp [h0], by simp [Trees.replace, Trees.detach, h0],
    by simp [Trees.detach, h0]⟩
  · intro hw
    have := within_of_no_kids ((history_rep hist (rep_separate (separate_blank _)) rfl).1.token 2 (by
      have := congrFun (history_rep hist (rep_separate (separate_blank _)) rfl).2 2
      exact this)) hw
    simp at this
  · intro a b e
    rw [h0] at e
    have : (3 :: 1 :: [2] : List Nat) = a ++ 3 :: 2 :: b := e
    cases a with
    | nil => simp at this
    | cons y a =>
      cases a with
      | nil => simp at this
      | cons z a =>
        cases a with
        | nil => simp at this
        | cons w a => simp at this

end Verif.Props
