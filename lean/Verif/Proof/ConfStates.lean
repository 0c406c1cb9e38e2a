/-
The configuration editor: trees and what they state.
-/
import Verif.Proof.ConfLines
import Verif.Proof.Cuts

namespace Verif.Proof.Conf

open Verif Verif.Model Verif.Model.ConfEdit Verif.Spec Verif.Spec.Conf Verif.Props Verif.Props.Conf Verif.Proof
open Verif.Spec.Trees (Tree)

mutual
/-- The same tree is built of the same items. -/
theorem built_same {look : Nat → Bool × String × Option Token} : ∀ {T : Tree} {x x' : Spec.Item}, Built look names T x → Built look names T x' →
    x.leaves = x'.leaves ∧ partOf names x = partOf names x' ∧ itemOf names x = itemOf names x'
  | .node id kids, .tok t, .tok t', h, h' => by
    simp only [Built] at h h'
    have := h.1.symm.trans h'.1
    simp only [Prod.mk.injEq, Option.some.injEq] at this
    rw [this.2.2]
    exact ⟨rfl, rfl, rfl⟩
  | .node id kids, .tok t, .node i st its, h, h' => by
    simp only [Built] at h h'
    have := h.1.symm.trans h'.1
    simp at this
  | .node id kids, .node i st its, .tok t, h, h' => by
    simp only [Built] at h h'
    have := h.1.symm.trans h'.1
    simp at this
  | .node id kids, .node i st its, .node i' st' its', h, h' => by
    simp only [Built] at h h'
    have := h.1.symm.trans h'.1
    simp only [Prod.mk.injEq, true_and] at this
    obtain ⟨h1, h2, h3⟩ := builts_same h.2 h'.2
    refine ⟨h1, ?_, ?_⟩
    · simp only [partOf, this.1, h1]
    · simp only [itemOf, this.1, h2]
theorem builts_same {look : Nat → Bool × String × Option Token} : ∀ {ts : List Tree} {its its' : List Spec.Item}, builtAll look names ts its →
    builtAll look names ts its' → leavesOf its = leavesOf its' ∧ its.map (partOf names) = its'.map (partOf names) ∧
      its.map (itemOf names) = its'.map (itemOf names)
  | [], [], [], _, _ => ⟨rfl, rfl, rfl⟩
  | [], _ :: _, _, h, _ => by simp [builtAll] at h
  | [], [], _ :: _, _, h => by simp [builtAll] at h
  | _ :: _, [], _, h, _ => by simp [builtAll] at h
  | _ :: _, _ :: _, [], _, h => by simp [builtAll] at h
  | t :: ts, x :: its, x' :: its', h, h' => by
    simp only [builtAll] at h h'
    obtain ⟨h1, h2, h3⟩ := built_same h.1 h'.1
    obtain ⟨h4, h5, h6⟩ := builts_same h.2 h'.2
    exact ⟨by simp only [leavesOf, h1, h4], by simp only [List.map_cons, h2, h5], by simp only [List.map_cons, h3, h6]⟩
end

/-! Side tokens state nothing -/

theorem first_sides {ty : String} (hty : ty ≠ "space" ∧ ty ≠ "comment") {l : List Token} (h : ∀ t ∈ l, Named t) :
    firstText ty ((l.filter fun t => !grammar.isSideType t.type).map tokOf) = firstText ty (l.map tokOf) := by
  induction l with
  | nil => rfl
  | cons t l ih =>
    have ih := ih fun t ht => h t (by simp [ht])
    by_cases hs : grammar.isSideType t.type = true
    · have : t.typeName ≠ ty := by
        rcases named_side (h t (by simp)) hs with e | e <;> rw [e]
        · exact hty.1.symm
        · exact hty.2.symm
      rw [List.filter_cons_of_neg (by simp [hs]), ih]
      simp [firstText, tokOf, this]
    · rw [List.filter_cons_of_pos (by simp [hs])]
      unfold firstText at ih ⊢
      rw [List.map_cons, List.map_cons, List.find?_cons, List.find?_cons]
      split
      · rfl
      · exact ih

theorem part_sides {i : Nat} {st : Option Token} {its : List Spec.Item} (h : ∀ t ∈ leavesOf its, Named t) (trim : Bytes → Bytes) :
    (partOf names (.node i st (dropSides grammar its))).key = (partOf names (.node i st its)).key ∧
      (partOf names (.node i st (dropSides grammar its))).value trim = (partOf names (.node i st its)).value trim := by
  simp only [partOf, Part.key, Part.value, Part.toks]
  rw [leaves_dropSides, first_sides (by decide) h, first_sides (by decide) h]
  exact ⟨rfl, rfl⟩

theorem entries_sides {trim : Bytes → Bytes} {s : Bytes} {its : List Spec.Item} (h : ∀ t ∈ leavesOf its, Named t) :
    entriesIn trim s (dropSides grammar its) = entriesIn trim s its := by
  induction its with
  | nil => rw [dropSides]
  | cons x its ih =>
    have ih := ih fun t ht => h t (by simp [leavesOf, ht])
    rw [← List.singleton_append (l := its), entriesIn_append]
    cases x with
    | tok t =>
      have h0 : entriesIn trim s [.tok t] = [] := by simp [entriesIn, partOf, Part.key]
      rw [h0, List.nil_append, ← ih, List.singleton_append, dropSides]
      split
      · rfl
      · rw [← List.singleton_append, entriesIn_append, h0, List.nil_append]
    | node i st js =>
      rw [List.singleton_append, dropSides, ← List.singleton_append, entriesIn_append, ih]
      congr 1
      obtain ⟨h1, h2⟩ := part_sides (i := i) (st := st) (its := js) (fun t ht => h t (by simp [leavesOf, Spec.Item.leaves, ht])) trim
      simp only [entriesIn, List.map_cons, List.map_nil, List.filterMap_cons, List.filterMap_nil, h1, h2]

theorem name_sides {i : Nat} {st : Option Token} {its : List Spec.Item} (h : ∀ t ∈ leavesOf its, Named t) :
    (itemOf names (.node i st (dropSides grammar its))).name = (itemOf names (.node i st its)).name := by
  have key : ∀ its : List Spec.Item, (its.map (partOf names)).flatMap Part.toks = (leavesOf its).map tokOf := by
    intro its
    rw [List.flatMap_map, leavesOf_flatMap, List.map_flatMap]
    congr 1
    funext x
    exact partOf_toks names x
  simp only [itemOf, Item.name]
  rw [key, key, leaves_dropSides, first_sides (by decide) h]

theorem item_sides {trim : Bytes → Bytes} {i : Nat} {st : Option Token} {its : List Spec.Item} (h : ∀ t ∈ leavesOf its, Named t) :
    (itemOf names (.node i st (dropSides grammar its))).entries trim = (itemOf names (.node i st its)).entries trim := by
  have hn := name_sides (i := i) (st := st) h
  cases hs : (itemOf names (.node i st its)).name with
  | some s => rw [item_entries hs, item_entries (hn.trans hs), entries_sides h]
  | none =>
    have key : ∀ its : List Spec.Item, (itemOf names (.node i st its)).name = none → (itemOf names (.node i st its)).entries trim = [] := by
      intro its h
      unfold itemOf at h ⊢
      unfold Item.entries
      dsimp only
      rw [h]
      simp
    rw [key _ hs, key _ (hn.trans hs)]

/-- What is stated does not depend on side tokens. -/
theorem states_sides {trim : Bytes → Bytes} {its : List Spec.Item} (h : ∀ t ∈ leavesOf its, Named t) {es : List (Bytes × Bytes × Bytes)} {ss : List Bytes}
    (hs : States trim (dropSides grammar its) es ss) : States trim its es ss := by
  have key : (docOf names (dropSides grammar its)).entries trim = (docOf names its).entries trim ∧
      (docOf names (dropSides grammar its)).filterMap Item.name = (docOf names its).filterMap Item.name := by
    clear hs
    induction its with
    | nil => rw [dropSides]; exact ⟨rfl, rfl⟩
    | cons x its ih =>
      obtain ⟨h1, h2⟩ := ih fun t ht => h t (by simp [leavesOf, ht])
      simp only [Doc.entries, docOf] at h1 h2 ⊢
      cases x with
      | tok t =>
        rw [dropSides]
        split
        · rw [h1, h2]; exact ⟨rfl, rfl⟩
        · simp only [List.map_cons, List.flatMap_cons, List.filterMap_cons, h1, h2, and_self]
      | node i st js =>
        have hj : ∀ t ∈ leavesOf js, Named t := fun t ht => h t (by simp [leavesOf, Spec.Item.leaves, ht])
        rw [dropSides]
        simp only [List.map_cons, List.flatMap_cons, List.filterMap_cons, h1, h2]
        rw [item_sides hj, name_sides hj]
        exact ⟨rfl, rfl⟩
  exact ⟨key.1 ▸ hs.entries, key.2 ▸ hs.sections⟩

end Verif.Proof.Conf
