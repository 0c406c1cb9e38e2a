/-
The index of a configuration: sections and entries found in the tree.
-/
import Verif.Proof.ConfOps

namespace Verif.Proof.ConfTree

open Verif Verif.Model Verif.Model.Tree Verif.Model.ConfEdit Verif.Spec Verif.Spec.Conf Verif.Proof
open Verif.Spec.Trees (Forest Within)

/-! Names and values -/

theorem find_some_of_unique {α : Type} {p : α → Bool} : ∀ {l : List α} {x : α}, (l.filter p).length ≤ 1 → x ∈ l → p x = true → l.find? p = some x
  | y :: l, x, hl, hx, hp => by
    by_cases hy : p y = true
    · simp only [List.filter_cons, hy, if_true, List.length_cons] at hl
      have : l.filter p = [] := List.length_eq_zero_iff.1 (by omega)
      rw [List.find?_cons_of_pos hy]
      rcases List.mem_cons.1 hx with rfl | hx
      · rfl
      · rw [List.filter_eq_nil_iff] at this
        exact absurd hp (this x hx)
    · simp only [Bool.not_eq_true] at hy
      rw [List.find?_cons_of_neg (by simp [hy])]
      rcases List.mem_cons.1 hx with rfl | hx
      · simp [hp] at hy
      · exact find_some_of_unique (by simpa [List.filter_cons, hy] using hl) hx hp

theorem good_value {l : List Tok} (hg : GoodEntry l) {t : Tok} (ht : t ∈ l) (hv : t.type = "value") : firstText "value" l = some t.text := by
  obtain ⟨nm, rest, rfl, -, h⟩ := hg
  have : ((⟨"name", nm⟩ :: rest : List Tok).find? (·.type = "value")) = some t :=
    find_some_of_unique (by simpa [List.filter_cons] using h) ht (by simp [hv])
  simp [firstText, this]

theorem firstText_none {ty : String} {l : List Tok} (h : ∀ t ∈ l, t.type ≠ ty) : firstText ty l = none := by
  simp only [firstText, Option.map_eq_none_iff, List.find?_eq_none]
  intro t ht
  simpa using h t ht

theorem firstText_drop {ty : String} {l : List Tok} (h : ∀ t ∈ l, t.type ≠ ty) (a b : List Tok) : firstText ty (a ++ (l ++ b)) = firstText ty (a ++ b) := by
  have : l.find? (·.type = ty) = none := by
    rw [List.find?_eq_none]
    intro t ht
    simpa using h t ht
  simp only [firstText, List.find?_append, this, Option.none_or]

/-- No name of a section inside. -/
def Plain (p : Part) : Prop := ∀ t ∈ p.toks, t.type ≠ "sec-name"

theorem name_skip {ty : String} {p q : List Part} {x : Part} (hx : Plain x) : (Item.node ty (p ++ x :: q)).name = (Item.node ty (p ++ q)).name := by
  simp only [Item.name]
  split
  · rfl
  · simp only [List.flatMap_append, List.flatMap_cons]
    exact firstText_drop hx ..

/-! The index -/

/-- The section is in the tree. -/
def Sec (h : Heap) (F : Forest) (root : Nat) (s : Bytes) (σ : Nat) : Prop := σ ∈ F root ∧ (itemAt (labels h) F σ).name = some s

/-- The entry is in the tree. -/
def Ent (h : Heap) (F : Forest) (root : Nat) (s : Bytes) (σ : Nat) (e : Bytes) (x : Nat) : Prop :=
  Sec h F root s σ ∧ x ∈ F σ ∧ (partAt (labels h) F x).key = some e

/-- The record of an entry shows its value. -/
def Val (trim : Bytes → Bytes) (h : Heap) (F : Forest) (ent : ConfEdit.Entry) : Prop :=
  match ent.valueNode with
  | none => (∀ y ∈ F ent.node, (labels h y).tok.type ≠ "value") ∧ ent.value = []
  | some v => v ∈ F ent.node ∧ (labels h v).tok.type = "value" ∧ (ent.value = trim (labels h v).tok.text ∨ ent.value = (labels h v).tok.text)

/-- Sections and entries of the tree are exactly the ones of the index. -/
structure Index (Sec : Bytes → Nat → Prop) (Ent : Bytes → Nat → Bytes → Nat → Prop) (Val : ConfEdit.Entry → Prop) (sections : Bytes → Option Section) : Prop where
  found : ∀ s sec, sections s = some sec → ∃ σ, sec.nodes = [σ] ∧ Sec s σ ∧ ∀ e ent, sec.entries e = some ent → Ent s σ e ent.node ∧ Val ent
  all : ∀ s σ, Sec s σ → ∃ sec, sections s = some sec ∧ sec.nodes = [σ]
  each : ∀ s σ e x sec, Ent s σ e x → sections s = some sec → ∃ ent, sec.entries e = some ent ∧ ent.node = x

/-- A configuration agrees with its tree. -/
structure Inv (trim : Bytes → Bytes) (m : Mem) (F : Forest) (c : Conf) : Prop where
  ok : Ok m F
  flat : Flat m.heap F c.root
  lt : c.root < m.size
  top : ∀ p, c.root ∉ F p
  good : (docAt (labels m.heap) F c.root).Good
  index : Index (Sec m.heap F c.root) (Ent m.heap F c.root) (Val trim m.heap F) c.sections

theorem Inv.item_good {trim : Bytes → Bytes} {m : Mem} {F : Forest} {c : Conf} (i : Inv trim m F c) {σ : Nat} (hσ : σ ∈ F c.root) :
    (itemAt (labels m.heap) F σ).Good := i.good _ (List.mem_map_of_mem hσ)

theorem sec_node {h : Heap} {F : Forest} {root : Nat} {s : Bytes} {σ : Nat} (hs : Sec h F root s σ) :
    (h σ).isNode = true ∧ itemAt (labels h) F σ = .node (h σ).typeName ((F σ).map (partAt (labels h) F)) := by
  have h2 := hs.2
  simp only [itemAt] at h2 ⊢
  cases hi : (h σ).isNode with
  | false =>
    have : (labels h σ).isNode = false := hi
    simp [this, Item.name] at h2
  | true =>
    have : (labels h σ).isNode = true := hi
    simp only [this, if_true]
    exact ⟨trivial, rfl⟩

theorem ent_node {h : Heap} {F : Forest} {e : Bytes} {x : Nat} (hk : (partAt (labels h) F x).key = some e) :
    (h x).isNode = true ∧ (h x).typeName = "entry" ∧ partAt (labels h) F x = .node "entry" ((F x).map fun y => (labels h y).tok) ∧
      firstText "name" ((F x).map fun y => (labels h y).tok) = some e := by
  simp only [partAt] at hk ⊢
  cases hi : (h x).isNode with
  | false =>
    have : (labels h x).isNode = false := hi
    simp [this, Part.key] at hk
  | true =>
    have : (labels h x).isNode = true := hi
    simp only [this, if_true, Part.key] at hk ⊢
    split at hk
    · next ht =>
      refine ⟨trivial, ht, ?_, hk⟩
      rw [ht]
    · simp at hk

theorem Inv.part_good {trim : Bytes → Bytes} {m : Mem} {F : Forest} {c : Conf} (i : Inv trim m F c) {s : Bytes} {σ x : Nat} (hs : Sec m.heap F c.root s σ)
    (hx : x ∈ F σ) : (partAt (labels m.heap) F x).Good := by
  have := i.item_good hs.1
  rw [(sec_node hs).2] at this
  exact this.2 _ (List.mem_map_of_mem hx)

theorem Inv.entry_good {trim : Bytes → Bytes} {m : Mem} {F : Forest} {c : Conf} (i : Inv trim m F c) {s e : Bytes} {σ x : Nat}
    (he : Ent m.heap F c.root s σ e x) :
    GoodEntry ((F x).map fun y => (labels m.heap y).tok) ∧ ∀ y ∈ F x, (labels m.heap y).tok.type ≠ "sec-name" := by
  have := i.part_good he.1 he.2.1
  rw [(ent_node he.2.2).2.2.1] at this
  simp only [Part.Good, String.reduceEq, false_or, true_and] at this
  exact ⟨this.1, fun y hy => this.2 _ (List.mem_map_of_mem hy)⟩

theorem mem_entries {trim : Bytes → Bytes} {h : Heap} {F : Forest} {root : Nat} {s e v : Bytes} :
    (s, e, v) ∈ (docAt (labels h) F root).entries trim ↔ ∃ σ x, Ent h F root s σ e x ∧ v = (partAt (labels h) F x).value trim := by
  simp only [Doc.entries, docAt, List.mem_flatMap, List.mem_map]
  constructor
  · rintro ⟨it, ⟨σ, hσ, rfl⟩, hm⟩
    cases hi : (labels h σ).isNode with
    | false => simp [itemAt, hi, Item.entries] at hm
    | true =>
      have hit : itemAt (labels h) F σ = .node (labels h σ).tok.type ((F σ).map (partAt (labels h) F)) := by simp [itemAt, hi]
      rw [hit] at hm
      simp only [Item.entries, List.mem_filterMap, List.mem_map] at hm
      obtain ⟨p, ⟨x, hx, rfl⟩, hm⟩ := hm
      rw [← hit] at hm
      split at hm
      · next s' e' h1 h2 =>
        simp only [Option.some.injEq, Prod.mk.injEq] at hm
        obtain ⟨rfl, rfl, rfl⟩ := hm
        exact ⟨σ, x, ⟨⟨hσ, h1⟩, hx, h2⟩, rfl⟩
      · simp at hm
  · rintro ⟨σ, x, ⟨hs, hx, hk⟩, rfl⟩
    refine ⟨_, ⟨σ, hs.1, rfl⟩, ?_⟩
    have hit := (sec_node hs).2
    have h2 := hs.2
    rw [hit] at h2 ⊢
    simp only [Item.entries, List.mem_filterMap, List.mem_map]
    exact ⟨_, ⟨x, hx, rfl⟩, by rw [h2, hk]⟩

theorem lookup_some {trim : Bytes → Bytes} {d : Doc} {s e v : Bytes} (hm : (s, e, v) ∈ d.entries trim)
    (hu : ∀ v', (s, e, v') ∈ d.entries trim → v' = v) : d.lookup trim s e = some v := by
  simp only [Doc.lookup]
  cases hf : (d.entries trim).reverse.find? fun x => decide (x.1 = s ∧ x.2.1 = e) with
  | none =>
    rw [List.find?_eq_none] at hf
    exact absurd (hf (s, e, v) (by simpa using hm)) (by simp)
  | some x =>
    obtain ⟨s', e', v'⟩ := x
    have h1 := List.find?_some hf
    have h2 := List.mem_of_find?_eq_some hf
    simp at h1 h2
    obtain ⟨rfl, rfl⟩ := h1
    simp [hu v' h2]

theorem lookup_none {trim : Bytes → Bytes} {d : Doc} {s e : Bytes} (hn : ∀ v, (s, e, v) ∉ d.entries trim) : d.lookup trim s e = none := by
  simp only [Doc.lookup, Option.map_eq_none_iff, List.find?_eq_none]
  rintro ⟨s', e', v'⟩ hm
  simp at hm ⊢
  rintro rfl rfl
  exact hn _ hm

theorem Inv.value {trim : Bytes → Bytes} (ht : Trims trim) {m : Mem} {F : Forest} {c : Conf} (i : Inv trim m F c) {s e : Bytes} {σ : Nat} {ent : ConfEdit.Entry}
    (he : Ent m.heap F c.root s σ e ent.node) (hv : Val trim m.heap F ent) : (partAt (labels m.heap) F ent.node).value trim = trim ent.value := by
  have hg := (i.entry_good he).1
  rw [(ent_node he.2.2).2.2.1]
  simp only [Part.value, Part.toks]
  unfold Val at hv
  split at hv
  · obtain ⟨h1, h2⟩ := hv
    rw [firstText_none fun t hm => ?_, h2]
    · simp [ht.1]
    · obtain ⟨y, hy, rfl⟩ := List.mem_map.1 hm
      exact h1 y hy
  · obtain ⟨h1, h2, h3⟩ := hv
    rw [good_value hg (List.mem_map_of_mem h1) h2]
    rcases h3 with h3 | h3 <;> simp [h3, ht.2]

/-- The value shown by the index. -/
def Conf.get (trim : Bytes → Bytes) (c : Conf) (s e : Bytes) : Option Bytes := ((c.sections s).bind (·.entries e)).map fun x => trim x.value

theorem Inv.lookup {trim : Bytes → Bytes} (ht : Trims trim) {m : Mem} {F : Forest} {c : Conf} (i : Inv trim m F c) (s e : Bytes) :
    (docAt (labels m.heap) F c.root).lookup trim s e = Conf.get trim c s e := by
  simp only [Conf.get]
  cases hs : c.sections s with
  | none =>
    refine lookup_none fun v hm => ?_
    obtain ⟨σ, x, he, -⟩ := mem_entries.1 hm
    obtain ⟨sec, h1, -⟩ := i.index.all s σ he.1
    simp [hs] at h1
  | some sec =>
    obtain ⟨σ, hn, hsec, hent⟩ := i.index.found s sec hs
    cases hx : sec.entries e with
    | none =>
      simp only [Option.bind_some, hx]
      refine lookup_none fun v hm => ?_
      obtain ⟨σ', x, he, -⟩ := mem_entries.1 hm
      obtain ⟨ent, h1, -⟩ := i.index.each s σ' e x sec he hs
      simp [hx] at h1
    | some ent =>
      simp only [Option.bind_some, hx, Option.map_some]
      obtain ⟨h1, h2⟩ := hent e ent hx
      refine lookup_some (mem_entries.2 ⟨σ, ent.node, h1, (i.value ht h1 h2).symm⟩) fun v' hm => ?_
      obtain ⟨σ', x, he, rfl⟩ := mem_entries.1 hm
      obtain ⟨ent', h3, h4⟩ := i.index.each s σ' e x sec he hs
      rw [hx] at h3
      obtain rfl := Option.some.inj h3
      subst h4
      exact i.value ht h1 h2

theorem Inv.has {trim : Bytes → Bytes} {m : Mem} {F : Forest} {c : Conf} (i : Inv trim m F c) (s : Bytes) :
    (docAt (labels m.heap) F c.root).Has s ↔ ∃ sec, c.sections s = some sec := by
  simp only [Doc.Has, docAt, List.mem_map]
  constructor
  · rintro ⟨it, ⟨σ, hσ, rfl⟩, hn⟩
    obtain ⟨sec, h, -⟩ := i.index.all s σ ⟨hσ, hn⟩
    exact ⟨sec, h⟩
  · rintro ⟨sec, h⟩
    obtain ⟨σ, -, hs, -⟩ := i.index.found s sec h
    exact ⟨_, ⟨σ, hs.1, rfl⟩, hs.2⟩

/-! Unchanged parts of trees -/

theorem part_congr {lab lab' : Nat → Label} {F F' : Forest} {x : Nat} (h1 : lab' x = lab x) (h2 : F' x = F x) (h3 : ∀ y ∈ F x, lab' y = lab y) :
    partAt lab' F' x = partAt lab F x := by
  simp only [partAt, h1, h2]
  split
  · congr 1
    exact List.map_congr_left fun y hy => by rw [h3 y hy]
  · rfl

theorem item_congr {lab lab' : Nat → Label} {F F' : Forest} {x : Nat} (h1 : lab' x = lab x) (h2 : F' x = F x)
    (h3 : ∀ y ∈ F x, partAt lab' F' y = partAt lab F y) : itemAt lab' F' x = itemAt lab F x := by
  simp only [itemAt, h1, h2]
  split
  · congr 1
    exact List.map_congr_left h3
  · rfl

end Verif.Proof.ConfTree
