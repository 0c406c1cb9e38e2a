/-
Sections and entries of a parsed configuration.
-/
import Verif.Proof.ConfDrop

namespace Verif.Proof.ConfTree

open Verif Verif.Model Verif.Model.Tree Verif.Model.ConfEdit Verif.Spec Verif.Spec.Conf Verif.Proof
open Verif.Spec.Trees (Forest Within)

/-- Records of listed entries. -/
def entriesOf (trim : Bytes → Bytes) (h : Heap) (F : Forest) (l : List Nat) : Bytes → Option ConfEdit.Entry := fun e =>
  (l.find? fun x => decide ((partAt (labels h) F x).key = some e)).map (record trim h F)

/-- The record of a section. -/
def sectionOf (trim : Bytes → Bytes) (h : Heap) (F : Forest) (σ : Nat) : Section := ⟨[σ], entriesOf trim h F (F σ), false⟩

/-- Records of listed sections. -/
def sectionsOf (trim : Bytes → Bytes) (h : Heap) (F : Forest) (l : List Nat) : Bytes → Option Section := fun s =>
  (l.find? fun σ => decide ((itemAt (labels h) F σ).name = some s)).map (sectionOf trim h F)

theorem key_entry {h : Heap} {F : Forest} {x : Nat} (hg : (partAt (labels h) F x).Good) (ht : (h x).typeName = "entry") :
    (h x).isNode = true ∧ ∃ e, (partAt (labels h) F x).key = some e ∧ firstText "name" ((F x).map fun y => (labels h y).tok) = some e := by
  have ht' : (labels h x).tok.type = "entry" := ht
  cases hi : (h x).isNode with
  | false =>
    have hi' : (labels h x).isNode = false := hi
    simp [partAt, hi', Part.Good, ht'] at hg
  | true =>
    have hi' : (labels h x).isNode = true := hi
    refine ⟨rfl, ?_⟩
    simp only [partAt, hi', if_true, ht', Part.Good, Part.key] at hg ⊢
    simp only [String.reduceEq, false_or, true_and] at hg
    obtain ⟨⟨nm, rest, hl, -⟩, -⟩ := hg
    rw [hl]
    exact ⟨nm, by simp [firstText], by simp [firstText]⟩

theorem key_other {h : Heap} {F : Forest} {x : Nat} (ht : (h x).typeName ≠ "entry") : (partAt (labels h) F x).key = none := by
  have ht' : (labels h x).tok.type ≠ "entry" := ht
  simp only [partAt]
  split <;> simp [Part.key, ht']

theorem loadEntries_spec {trim : Bytes → Bytes} {m : Mem} {F : Forest} (o : Ok m F) : ∀ (l : List Nat) (sec : Section),
    (∀ x ∈ l, (partAt (labels m.heap) F x).Good) → (∀ x ∈ l, ∀ y ∈ F x, (m.heap y).isNode = false) →
    (l.filterMap fun x => (partAt (labels m.heap) F x).key).Nodup →
    (∀ x ∈ l, ∀ e, (partAt (labels m.heap) F x).key = some e → sec.entries e = none) →
    Ev (fun fuel => loadEntries trim fuel l m.heap sec) (m.heap, { sec with entries := fun e => (entriesOf trim m.heap F l e).or (sec.entries e) })
  | [], sec, _, _, _, _ => ⟨0, fun _ _ => by simp [loadEntries, entriesOf]⟩
  | x :: l, sec, hg, hf, hd, he => by
    by_cases ht : (m.heap x).typeName = "entry"
    · obtain ⟨hi, e, hk, hn⟩ := key_entry (hg x (by simp)) ht
      have hk' := hk
      rw [List.filterMap_cons_some (f := fun x => (partAt (labels m.heap) F x).key) hk, List.nodup_cons] at hd
      have hnone : ∀ y ∈ l, (partAt (labels m.heap) F y).key ≠ some e := fun y hy hye => hd.1 (List.mem_filterMap.2 ⟨y, hy, hye⟩)
      obtain ⟨N1, h1⟩ := addEntryNode_spec (trim := trim) o hi ht (hf x (by simp)) hn (he x (by simp) e hk)
      obtain ⟨N2, h2⟩ := loadEntries_spec (trim := trim) o l { sec with entries := setKey sec.entries e (some (record trim m.heap F x)) }
        (fun y hy => hg y (by simp [hy])) (fun y hy => hf y (by simp [hy])) hd.2 fun y hy e' hye => by
          have : e' ≠ e := by rintro rfl; exact hnone y hy hye
          simp [setKey, this, he y (by simp [hy]) e' hye]
      refine ⟨N1 + N2, fun fuel hfu => ?_⟩
      have e1 := h1 fuel (by omega)
      have e2 := h2 fuel (by omega)
      simp only [loadEntries, entryNt, ht, if_true, e1, bindRun, e2]
      congr 3
      funext e'
      by_cases hee : e' = e
      · subst hee
        have : l.find? (fun x => decide ((partAt (labels m.heap) F x).key = some e')) = none := by
          rw [List.find?_eq_none]
          intro y hy
          simpa using hnone y hy
        simp [entriesOf, this, hk, setKey]
      · have : ¬ e = e' := fun h => hee h.symm
        simp [entriesOf, hk, setKey, hee, this]
    · have hk := key_other (F := F) ht
      rw [List.filterMap_cons_none (f := fun x => (partAt (labels m.heap) F x).key) hk] at hd
      obtain ⟨N2, h2⟩ := loadEntries_spec (trim := trim) o l sec
        (fun y hy => hg y (by simp [hy])) (fun y hy => hf y (by simp [hy])) hd fun y hy => he y (by simp [hy])
      refine ⟨N2, fun fuel hfu => ?_⟩
      have e2 := h2 fuel hfu
      simp only [loadEntries, entryNt, ht, if_false, e2]
      congr 3
      funext e'
      simp [entriesOf, hk]

theorem name_good {h : Heap} {F : Forest} {σ : Nat} (hg : (itemAt (labels h) F σ).Good) (hi : (h σ).isNode = true) :
    ∃ s, (itemAt (labels h) F σ).name = some s := by
  have hi' : (labels h σ).isNode = true := hi
  simp only [itemAt, hi', if_true, Item.Good, Item.name] at hg ⊢
  rcases hg.1 with h1 | ⟨h1, t, ht, hty⟩
  · exact ⟨[], by simp [h1]⟩
  · simp only [h1, String.reduceEq, if_false, firstText]
    have : (List.find? (fun x => decide (x.type = "sec-name")) (List.flatMap Part.toks (List.map (partAt (labels h) F) (F σ)))).isSome := by
      rw [List.find?_isSome]
      exact ⟨t, ht, by simp [hty]⟩
    obtain ⟨t', ht'⟩ := Option.isSome_iff_exists.1 this
    exact ⟨t'.text, by rw [ht']; rfl⟩

theorem name_token {h : Heap} {F : Forest} {σ : Nat} (hi : (h σ).isNode ≠ true) : (itemAt (labels h) F σ).name = none := by
  have hi' : (labels h σ).isNode ≠ true := hi
  simp [itemAt, hi', Item.name]

theorem loadSections_spec {trim : Bytes → Bytes} {m : Mem} {F : Forest} (o : Ok m F) : ∀ (l : List Nat) (c : Conf),
    (∀ σ ∈ l, (itemAt (labels m.heap) F σ).Good) → (∀ σ ∈ l, ∀ x ∈ F σ, ∀ y ∈ F x, (m.heap y).isNode = false) →
    (l.filterMap fun σ => (itemAt (labels m.heap) F σ).name).Nodup →
    (∀ σ ∈ l, ∀ s, (itemAt (labels m.heap) F σ).name = some s → ((F σ).filterMap fun x => (partAt (labels m.heap) F x).key).Nodup) →
    (∀ σ ∈ l, ∀ s, (itemAt (labels m.heap) F σ).name = some s → c.sections s = none) →
    Ev (fun fuel => loadSections trim fuel l m.heap c) (m.heap, { c with sections := fun s => (sectionsOf trim m.heap F l s).or (c.sections s) })
  | [], c, _, _, _, _, _ => ⟨0, fun _ _ => by simp [loadSections, sectionsOf]⟩
  | σ :: l, c, hg, hf, hd, hdk, he => by
    by_cases hi : (m.heap σ).isNode = true
    · obtain ⟨s, hn⟩ := name_good (hg σ (by simp)) hi
      rw [List.filterMap_cons_some (f := fun x => (itemAt (labels m.heap) F x).name) hn, List.nodup_cons] at hd
      have hnone : ∀ y ∈ l, (itemAt (labels m.heap) F y).name ≠ some s := fun y hy hye => hd.1 (List.mem_filterMap.2 ⟨y, hy, hye⟩)
      obtain ⟨N1, h1⟩ := addSectionNode_spec o hi (hg σ (by simp)) hn (hf σ (by simp)) (he σ (by simp) s hn)
      obtain ⟨N2, h2⟩ := children_spec o.rep σ
      have hparts : ∀ x ∈ F σ, (partAt (labels m.heap) F x).Good := by
        have := hg σ (by simp)
        rw [itemAt_node (by exact hi)] at this
        exact fun x hx => this.2 _ (List.mem_map_of_mem hx)
      obtain ⟨N3, h3⟩ := loadEntries_spec (trim := trim) o (F σ) ⟨[σ], fun _ => none, false⟩ hparts (hf σ (by simp)) (hdk σ (by simp) s hn) fun _ _ _ _ => rfl
      obtain ⟨N4, h4⟩ := loadSections_spec (trim := trim) o l { c with sections := setKey c.sections s (some (sectionOf trim m.heap F σ)) }
        (fun y hy => hg y (by simp [hy])) (fun y hy => hf y (by simp [hy])) hd.2 (fun y hy => hdk y (by simp [hy])) fun y hy e' hye => by
          have : e' ≠ s := by rintro rfl; exact hnone y hy hye
          simp [setKey, this, he y (by simp [hy]) e' hye]
      refine ⟨N1 + N2 + N3 + N4, fun fuel hfu => ?_⟩
      have e1 := h1 fuel (by omega)
      have e2 := h2 fuel (by omega)
      have e3 := h3 fuel (by omega)
      have e4 := h4 fuel (by omega)
      have e5 : setKey (setKey c.sections s (some ⟨[σ], fun _ => none, false⟩)) s (some (sectionOf trim m.heap F σ)) =
          setKey c.sections s (some (sectionOf trim m.heap F σ)) := by
        funext s'
        simp only [setKey]
        split <;> rfl
      have e6 : (⟨[σ], fun e => (entriesOf trim m.heap F (F σ) e).or none, false⟩ : Section) = sectionOf trim m.heap F σ := by
        simp [sectionOf]
      have e7 : setKey c.sections s (some ⟨[σ], fun _ => none, false⟩) s = some ⟨[σ], fun _ => none, false⟩ := by simp [setKey]
      simp only [loadSections, hi, if_true, e1, bindRun, e2, e7, orPanic, e3, e6, e5, e4]
      congr 3
      funext e'
      by_cases hee : e' = s
      · subst hee
        have : l.find? (fun x => decide ((itemAt (labels m.heap) F x).name = some e')) = none := by
          rw [List.find?_eq_none]
          intro y hy
          simpa using hnone y hy
        simp [sectionsOf, this, hn, setKey]
      · have : ¬ s = e' := fun h => hee h.symm
        simp [sectionsOf, hn, setKey, hee, this]
    · have hn := name_token (F := F) hi
      rw [List.filterMap_cons_none (f := fun x => (itemAt (labels m.heap) F x).name) hn] at hd
      obtain ⟨N2, h2⟩ := loadSections_spec (trim := trim) o l c
        (fun y hy => hg y (by simp [hy])) (fun y hy => hf y (by simp [hy])) hd (fun y hy => hdk y (by simp [hy])) fun y hy => he y (by simp [hy])
      refine ⟨N2, fun fuel hfu => ?_⟩
      have e2 := h2 fuel hfu
      simp only [loadSections, hi, e2]
      simp only [Bool.false_eq_true, if_false]
      congr 3
      funext e'
      simp [sectionsOf, hn]

/-! The index -/

theorem find_unique {α β : Type} [DecidableEq β] {f : α → Option β} : ∀ {l : List α} {x : α} {b : β}, (l.filterMap f).Nodup → x ∈ l → f x = some b →
    l.find? (fun y => decide (f y = some b)) = some x
  | y :: l, x, b, hd, hx, hb => by
    by_cases hy : f y = some b
    · rw [List.filterMap_cons_some hy, List.nodup_cons] at hd
      rcases List.mem_cons.1 hx with rfl | hx
      · simp [hb]
      · exact absurd (List.mem_filterMap.2 ⟨x, hx, hb⟩) hd.1
    · rw [List.find?_cons_of_neg (by simpa using hy)]
      rcases List.mem_cons.1 hx with rfl | hx
      · exact absurd hb hy
      · refine find_unique ?_ hx hb
        rw [List.filterMap_cons] at hd
        split at hd
        · exact hd
        · exact (List.nodup_cons.1 hd).2

theorem entries_keys {d : Doc} {s : Bytes} : ∀ {ty : String} {ps : List Part}, Item.node ty ps ∈ d → (Item.node ty ps).name = some s → d.Distinct →
    (ps.filterMap Part.key).Nodup := by
  intro ty ps hm hn hd
  simp only [Doc.Distinct, Doc.entries, List.map_flatMap] at hd
  have h1 := (List.nodup_flatMap.1 hd).1 _ hm
  simp only [Item.entries, hn] at h1
  rw [List.map_filterMap] at h1
  rw [List.filterMap_congr (g := fun p => p.key.map fun e => (s, e)) fun p _ => by cases p.key <;> rfl, ← List.map_filterMap] at h1
  exact List.Nodup.of_map _ h1

theorem loaded_index {trim : Bytes → Bytes} {h : Heap} {F : Forest} {root : Nat}
    (h1 : ((F root).filterMap fun σ => (itemAt (labels h) F σ).name).Nodup)
    (h2 : ∀ σ ∈ F root, ∀ s, (itemAt (labels h) F σ).name = some s → ((F σ).filterMap fun x => (partAt (labels h) F x).key).Nodup) :
    Index (Sec h F root) (Ent h F root) (Val trim h F) (sectionsOf trim h F (F root)) where
  found s sec hs := by
    obtain ⟨σ, hσ, rfl⟩ := Option.map_eq_some_iff.1 hs
    have hm := List.mem_of_find?_eq_some hσ
    have hn : (itemAt (labels h) F σ).name = some s := by simpa using List.find?_some hσ
    refine ⟨σ, rfl, ⟨hm, hn⟩, fun e ent he => ?_⟩
    obtain ⟨x, hx, rfl⟩ := Option.map_eq_some_iff.1 he
    exact ⟨⟨⟨hm, hn⟩, List.mem_of_find?_eq_some hx, (by simpa using List.find?_some hx : (partAt (labels h) F x).key = some e)⟩, record_val ..⟩
  all s σ hs := ⟨sectionOf trim h F σ, by simp only [sectionsOf, find_unique (f := fun σ => (itemAt (labels h) F σ).name) h1 hs.1 hs.2]; rfl, rfl⟩
  each s σ e x sec he hs := by
    obtain ⟨σ', hσ, rfl⟩ := Option.map_eq_some_iff.1 hs
    rw [find_unique (f := fun σ => (itemAt (labels h) F σ).name) h1 he.1.1 he.1.2] at hσ
    obtain rfl := Option.some.inj hσ
    refine ⟨record trim h F x, ?_, rfl⟩
    simp only [sectionOf, entriesOf, find_unique (f := fun x => (partAt (labels h) F x).key) (h2 _ he.1.1 s he.1.2) he.2.1 he.2.2]
    rfl

/-- Parsed documents. -/
structure Parsed (m : Mem) (F : Forest) (root : Nat) : Prop where
  ok : Ok m F
  flat : Flat m.heap F root
  lt : root < m.size
  top : ∀ p, root ∉ F p

theorem load_spec {trim : Bytes → Bytes} {m : Mem} {F : Forest} {root : Nat} (p : Parsed m F root) (hg : (docAt (labels m.heap) F root).Good)
    (hd : (docAt (labels m.heap) F root).Distinct) (hs : (docAt (labels m.heap) F root).Separate) :
    ∃ c, Ev (fun fuel => load trim fuel m.heap root) (m.heap, c) ∧ Inv trim m F c ∧ c.root = root ∧ ¬ c.Updated := by
  have hd1 : ((F root).filterMap fun σ => (itemAt (labels m.heap) F σ).name).Nodup := by
    simpa [Doc.Separate, docAt, List.filterMap_map, Function.comp_def] using hs
  have hd2 : ∀ σ ∈ F root, ∀ s, (itemAt (labels m.heap) F σ).name = some s → ((F σ).filterMap fun x => (partAt (labels m.heap) F x).key).Nodup := by
    intro σ hσ s hn
    have hm : itemAt (labels m.heap) F σ ∈ docAt (labels m.heap) F root := List.mem_map_of_mem hσ
    have hit := (sec_node (h := m.heap) (F := F) (root := root) ⟨hσ, hn⟩).2
    rw [hit] at hm hn
    have := entries_keys hm hn hd
    simpa [List.filterMap_map, Function.comp_def] using this
  obtain ⟨N1, h1⟩ := children_spec p.ok.rep root
  obtain ⟨N2, h2⟩ := loadSections_spec (trim := trim) p.ok (F root) ⟨root, fun _ => none, false⟩ (fun σ hσ => hg _ (List.mem_map_of_mem hσ)) p.flat.2 hd1 hd2
    fun _ _ _ _ => rfl
  refine ⟨⟨root, sectionsOf trim m.heap F (F root), false⟩, ⟨N1 + N2, fun fuel hf => ?_⟩, ⟨p.ok, p.flat, p.lt, p.top, hg, loaded_index hd1 hd2⟩, rfl, ?_⟩
  · simp only [load, h1 fuel (by omega), bindRun, h2 fuel (by omega), Option.or_none]
  · rintro (h | ⟨n, s, h1, h2⟩)
    · simp at h
    · obtain ⟨σ, -, rfl⟩ := Option.map_eq_some_iff.1 h1
      simp [sectionOf] at h2

end Verif.Proof.ConfTree
