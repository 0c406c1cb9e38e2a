/-
New sections of a configuration.
-/
import Verif.Proof.ConfAdd

namespace Verif.Proof.ConfTree

open Verif Verif.Model Verif.Model.Tree Verif.Model.ConfEdit Verif.Spec Verif.Spec.Conf Verif.Proof
open Verif.Spec.Trees (Forest Within)

theorem index_congr {S S' : Bytes → Nat → Prop} {E E' : Bytes → Nat → Bytes → Nat → Prop} {V V' : ConfEdit.Entry → Prop} {secs : Bytes → Option Section}
    (i : Index S E V secs) (hS : ∀ s σ, S' s σ ↔ S s σ) (hE : ∀ s σ e x, E' s σ e x ↔ E s σ e x) (hV : ∀ s σ e x, E s σ e x.node → V x → V' x) :
    Index S' E' V' secs := by
  refine ⟨fun s sec h => ?_, fun s σ h => i.all s σ ((hS ..).1 h), fun s σ e x sec h => i.each s σ e x sec ((hE ..).1 h)⟩
  obtain ⟨σ, h1, h2, h3⟩ := i.found s sec h
  refine ⟨σ, h1, (hS ..).2 h2, fun e ent he => ?_⟩
  obtain ⟨h4, h5⟩ := h3 e ent he
  exact ⟨(hE ..).2 h4, hV _ _ _ _ h4 h5⟩

/-- The tree of the document is not changed by other elements. -/
theorem Inv.loose {trim : Bytes → Bytes} {m m' : Mem} {F F' : Forest} {c : Conf} (i : Inv trim m F c) (o' : Ok m' F') (hle : m.size ≤ m'.size)
    (hlab : ∀ n < m.size, labels m'.heap n = labels m.heap n) (hF : ∀ n < m.size, F' n = F n) (htop : ∀ p, c.root ∉ F' p) :
    Inv trim m' F' c ∧ docAt (labels m'.heap) F' c.root = docAt (labels m.heap) F c.root := by
  have hroot : F' c.root = F c.root := hF _ i.lt
  have hnode : ∀ n < m.size, (m'.heap n).isNode = (m.heap n).isNode := fun n hn => congrArg Label.isNode (hlab n hn)
  have hpart : ∀ σ, ∀ x ∈ F σ, partAt (labels m'.heap) F' x = partAt (labels m.heap) F x := fun σ x hx =>
    part_congr (hlab _ (i.ok.lt hx)) (hF _ (i.ok.lt hx)) fun y hy => hlab _ (i.ok.lt hy)
  have hitem : ∀ σ ∈ F c.root, itemAt (labels m'.heap) F' σ = itemAt (labels m.heap) F σ := fun σ hσ =>
    item_congr (hlab _ (i.ok.lt hσ)) (hF _ (i.ok.lt hσ)) (hpart σ)
  have hdoc : docAt (labels m'.heap) F' c.root = docAt (labels m.heap) F c.root := by
    simp only [docAt, hroot]
    exact List.map_congr_left hitem
  have hS : ∀ s σ, Sec m'.heap F' c.root s σ ↔ Sec m.heap F c.root s σ := fun s σ => by
    simp only [Sec, hroot]
    exact and_congr_right fun h => by rw [hitem σ h]
  refine ⟨⟨o', ⟨by rw [hnode _ i.lt]; exact i.flat.1, ?_⟩, by have := i.lt; omega, htop, hdoc ▸ i.good, ?_⟩, hdoc⟩
  · rw [hroot]
    intro σ hσ x hx y hy
    rw [hF _ (i.ok.lt hσ)] at hx
    rw [hF _ (i.ok.lt hx)] at hy
    rw [hnode _ (i.ok.lt hy)]
    exact i.flat.2 σ hσ x hx y hy
  · refine index_congr i.index hS (fun s σ e x => ?_) fun s σ e x hx hv => val_congr (hF _ (i.ok.lt hx.2.1)) (fun y hy => hlab _ (i.ok.lt hy)) hv
    simp only [Ent, hS]
    refine and_congr_right fun h => ?_
    rw [hF _ (i.ok.lt h.1)]
    exact and_congr_right fun h => by rw [hpart σ x h]

/-- A node becomes a new section. -/
theorem Inv.attach {trim : Bytes → Bytes} {m : Mem} {F : Forest} {c : Conf} (i : Inv trim m F c) {σ : Nat} {A B : List Nat} {h' : Heap}
    (o' : Ok { m with heap := h' } (put F c.root (A ++ σ :: B))) (hsame : Same m.heap h') (e : F c.root = A ++ B) (hfree : ∀ p, σ ∉ F p)
    (hne : σ ≠ c.root) {s : Bytes} (hg : (itemAt (labels m.heap) F σ).Good) (hn : (itemAt (labels m.heap) F σ).name = some s)
    (hkey : ∀ x ∈ F σ, (partAt (labels m.heap) F x).key = none) (hflat : ∀ x ∈ F σ, ∀ y ∈ F x, (m.heap y).isNode = false) (hs : c.sections s = none)
    {c' : Conf} (hroot : c'.root = c.root) {b : Bool} (hc : c'.sections = setKey c.sections s (some ⟨[σ], fun _ => none, b⟩)) :
    Inv trim { m with heap := h' } (put F c.root (A ++ σ :: B)) c' ∧
      (∀ x, x ≠ c.root → itemAt (labels h') (put F c.root (A ++ σ :: B)) x = itemAt (labels m.heap) F x) ∧
      (∀ x, x ≠ c.root → partAt (labels h') (put F c.root (A ++ σ :: B)) x = partAt (labels m.heap) F x) := by
  have hlab : labels h' = labels m.heap := same_labels hsame
  have hpart : ∀ x, x ≠ c.root → partAt (labels h') (put F c.root (A ++ σ :: B)) x = partAt (labels m.heap) F x := fun x hx =>
    part_congr (by rw [hlab]) (put_ne _ _ hx) fun _ _ => by rw [hlab]
  have hitem : ∀ x, x ≠ c.root → itemAt (labels h') (put F c.root (A ++ σ :: B)) x = itemAt (labels m.heap) F x := fun x hx =>
    item_congr (by rw [hlab]) (put_ne _ _ hx) fun y hy => hpart y (by rintro rfl; exact i.top _ hy)
  have hnr : ∀ p x, x ∈ F p → x ≠ c.root := fun p x hx e => i.top p (e ▸ hx)
  have hmem : ∀ x, x ∈ A ++ σ :: B ↔ x ∈ F c.root ∨ x = σ := fun x => by rw [e]; simp; tauto
  have hS : ∀ s1 σ1, Sec h' (put F c.root (A ++ σ :: B)) c.root s1 σ1 ↔ Sec m.heap F c.root s1 σ1 ∨ s1 = s ∧ σ1 = σ := fun s1 σ1 => by
    simp only [Sec, put_self, hmem]
    constructor
    · rintro ⟨h | rfl, h2⟩
      · rw [hitem _ (hnr _ _ h)] at h2
        exact .inl ⟨h, h2⟩
      · rw [hitem _ hne, hn] at h2
        exact .inr ⟨(Option.some.inj h2).symm, rfl⟩
    · rintro (⟨h, h2⟩ | ⟨rfl, rfl⟩)
      · exact ⟨.inl h, by rw [hitem _ (hnr _ _ h)]; exact h2⟩
      · exact ⟨.inr rfl, by rw [hitem _ hne]; exact hn⟩
  refine ⟨⟨o', ⟨?_, ?_⟩, by rw [hroot]; exact i.lt, ?_, ?_, ?_⟩, hitem, hpart⟩
  · rw [hroot, (hsame.same _).1]; exact i.flat.1
  · rw [hroot, put_self]
    intro σ1 h1 x hx y hy
    rw [(hsame.same _).1]
    rw [hmem] at h1
    have h1r : σ1 ≠ c.root := by
      rcases h1 with h1 | rfl
      · exact hnr _ _ h1
      · exact hne
    rw [put_ne _ _ h1r] at hx
    rw [put_ne _ _ (hnr _ _ hx)] at hy
    rcases h1 with h1 | rfl
    · exact i.flat.2 σ1 h1 x hx y hy
    · exact hflat x hx y hy
  · intro p hp
    rw [hroot] at hp
    by_cases hpr : p = c.root
    · rw [hpr, put_self, hmem] at hp
      rcases hp with hp | hp
      · exact i.top _ hp
      · exact hne hp.symm
    · rw [put_ne _ _ hpr] at hp
      exact i.top _ hp
  · intro it hit
    rw [hroot] at hit
    simp only [docAt, put_self, List.mem_map, hmem] at hit
    obtain ⟨σ1, h1, rfl⟩ := hit
    rcases h1 with h1 | rfl
    · rw [hitem _ (hnr _ _ h1)]; exact i.item_good h1
    · rw [hitem _ hne]; exact hg
  · rw [hc, hroot]
    refine index_section i.index hs hS (fun s1 σ1 e1 x => ?_) (fun _ _ _ _ h => h.1) fun s1 σ1 e1 x hx hv =>
      val_congr (put_ne _ _ (hnr _ _ hx.2.1)) (fun _ _ => by rw [hlab]) hv
    simp only [Ent, hS]
    constructor
    · rintro ⟨h1, hx, hk⟩
      have h1r : σ1 ≠ c.root := by
        rcases h1 with h1 | ⟨-, rfl⟩
        · exact hnr _ _ h1.1
        · exact hne
      rw [put_ne _ _ h1r] at hx
      rw [hpart _ (hnr _ _ hx)] at hk
      rcases h1 with h1 | ⟨-, rfl⟩
      · exact ⟨h1, hx, hk⟩
      · rw [hkey x hx] at hk
        simp at hk
    · rintro ⟨h1, hx, hk⟩
      exact ⟨.inl h1, by rw [put_ne _ _ (hnr _ _ h1.1)]; exact hx, by rw [hpart _ (hnr _ _ hx)]; exact hk⟩

theorem good_named {it : Item} (hg : it.Good) (hn : it.isNode = true) : ∃ s, it.name = some s := by
  cases it with
  | token t => simp [Item.isNode] at hn
  | node ty ps =>
    rcases hg.1 with rfl | ⟨rfl, h⟩
    · exact ⟨[], by simp [Item.name]⟩
    · rw [has_name (ty := "")] at h
      obtain ⟨s, hs⟩ := Option.ne_none_iff_exists'.1 h
      exact ⟨s, by simp [Item.name, hs]⟩

theorem sepPart_plain : Plain sepPart := by simp [Plain, sepPart, Part.toks]

/-- A separator after the last part of a section. -/
theorem Inv.close {trim : Bytes → Bytes} {m : Mem} {F : Forest} {c : Conf} (i : Inv trim m F c) {x sep : Nat} {A : List Nat} {h' : Heap} (e : F c.root = A ++ [x])
    (hx : (m.heap x).isNode = true) (hsame : Same m.heap h') (o' : Ok { m with heap := h' } (put F x (F x ++ [sep]))) (hfree : ∀ p, sep ∉ F p)
    (hne : sep ≠ c.root) (hnx : sep ≠ x) (hsep : partAt (labels m.heap) F sep = sepPart) (hk : ∀ y ∈ F sep, (m.heap y).isNode = false) :
    Inv trim { m with heap := h' } (put F x (F x ++ [sep])) c ∧ docAt (labels h') (put F x (F x ++ [sep])) c.root =
      A.map (itemAt (labels m.heap) F) ++ [.node (m.heap x).typeName ((F x).map (partAt (labels m.heap) F) ++ [sepPart])] := by
  have hlab : labels h' = labels m.heap := same_labels hsame
  have hxr : x ∈ F c.root := by simp [e]
  have hit0 : itemAt (labels m.heap) F x = .node (m.heap x).typeName ((F x).map (partAt (labels m.heap) F)) := by rw [itemAt_node (by exact hx)]; rfl
  obtain ⟨s, hs⟩ := good_named (i.item_good hxr) (by rw [hit0]; rfl)
  have hsec : Sec m.heap F c.root s x := ⟨hxr, hs⟩
  have hlev := fun {y} => (i.levels (x := y) hxr hxr).2.2.2
  have hpart : ∀ y ∈ F x, partAt (labels m.heap) (put F x (F x ++ [sep])) y = partAt (labels m.heap) F y := fun y hy =>
    part_congr rfl (put_ne _ _ (hlev hy).1) fun _ _ => rfl
  have hparts : partAt (labels m.heap) (put F x (F x ++ [sep])) sep = sepPart := by
    rw [← hsep]
    exact part_congr rfl (put_ne _ _ hnx) fun _ _ => rfl
  have hit' : itemAt (labels m.heap) (put F x (F x ++ [sep])) x = .node (m.heap x).typeName ((F x).map (partAt (labels m.heap) F) ++ [sepPart]) := by
    rw [itemAt_node (by exact hx), put_self, List.map_append, List.map_singleton, hparts, List.map_congr_left hpart]; rfl
  have hname : (itemAt (labels m.heap) (put F x (F x ++ [sep])) x).name = some s := by
    have := name_skip (ty := (m.heap x).typeName) (p := (F x).map (partAt (labels m.heap) F)) (q := []) sepPart_plain
    rw [hit', this, List.append_nil, ← hit0, hs]
  have htop : ∀ p, c.root ∉ put F x (F x ++ [sep]) p := fun p hp => by
    by_cases hpx : p = x
    · subst hpx
      rw [put_self] at hp
      rcases List.mem_append.1 hp with hp | hp
      · exact i.top _ hp
      · exact hne (List.mem_singleton.1 hp).symm
    · rw [put_ne _ _ hpx] at hp
      exact i.top _ hp
  obtain ⟨h1, h2, h3, h4, h5, h6, h7⟩ := i.change hsec (m' := { m with heap := h' }) (F' := put F x (F x ++ [sep])) (Nat.le_refl _) htop
    (fun n _ => by simp only [hlab]) (fun n _ hn _ => put_ne _ _ hn) (by simpa only [hlab] using hname)
    (by
      simp only [hlab]
      rw [hit']
      have h0 := i.item_good hxr
      rw [hit0] at h0
      refine good_of_name h0 (by rw [← hit', hname, ← hit0, hs]) fun p hp => ?_
      rcases List.mem_append.1 hp with h | h
      · exact h0.2 p h
      · obtain rfl := List.mem_singleton.1 h
        exact .inr ⟨.inl rfl, sepPart_plain⟩)
    (fun y hy z hz => by
      simp only [(hsame.same z).1]
      rw [put_self] at hy
      rcases List.mem_append.1 hy with hy | hy
      · rw [put_ne _ _ (hlev hy).1] at hz
        exact i.flat.2 x hxr y hy z hz
      · obtain rfl := List.mem_singleton.1 hy
        rw [put_ne _ _ hnx] at hz
        exact hk z hz)
  obtain ⟨-, d2⟩ := h7 A [] e
  simp only [hlab] at d2 ⊢
  refine ⟨⟨o', h2, h3, htop, h4, ?_⟩, by rw [d2, hit']; rfl⟩
  refine index_congr i.index h5 (fun s1 σ1 e1 y => ?_) fun s1 σ1 e1 y hy hv => val_congr (put_ne _ _ ((i.levels hy.1.1 hxr).2.2.2 hy.2.1).1) (fun _ _ => by rw [hlab]) hv
  by_cases hσ : σ1 = x
  · subst hσ
    simp only [Ent, h5, put_self, hlab]
    refine and_congr_right fun _ => ?_
    constructor
    · rintro ⟨hy, hk⟩
      rcases List.mem_append.1 hy with hy | hy
      · rw [hpart y hy] at hk
        exact ⟨hy, hk⟩
      · obtain rfl := List.mem_singleton.1 hy
        rw [hparts] at hk
        simp [sepPart, Part.key] at hk
    · rintro ⟨hy, hk⟩
      exact ⟨List.mem_append_left _ hy, by rw [hpart y hy]; exact hk⟩
  · exact h6 s1 σ1 e1 y hσ

theorem toks_leaves (h : Heap) (F : Forest) (l : List Nat) :
    (l.map (partAt (labels h) F)).flatMap Part.toks = (l.flatMap (leaves h F)).map fun y => (labels h y).tok := by
  rw [List.flatMap_map, List.map_flatMap]
  refine congrArg (fun g => l.flatMap g) (funext fun x => ?_)
  simp only [partAt, leaves]
  cases hx : (h x).isNode with
  | true => simp [show (labels h x).isNode = true from hx, Part.toks]
  | false => simp [show (labels h x).isNode = false from hx, Part.toks]

/-- The record of a section. -/
theorem addSectionNode_spec {m : Mem} {F : Forest} (o : Ok m F) {σ : Nat} (hσ : (m.heap σ).isNode = true) (hg : (itemAt (labels m.heap) F σ).Good) {s : Bytes}
    (hn : (itemAt (labels m.heap) F σ).name = some s) (hflat : ∀ x ∈ F σ, ∀ y ∈ F x, (m.heap y).isNode = false) {c : Conf} (hs : c.sections s = none) :
    Ev (fun fuel => addSectionNode fuel m.heap c σ) ({ c with sections := setKey c.sections s (some ⟨[σ], fun _ => none, false⟩) }, s) := by
  have hit : itemAt (labels m.heap) F σ = .node (m.heap σ).typeName ((F σ).map (partAt (labels m.heap) F)) := by rw [itemAt_node (by exact hσ)]; rfl
  rw [hit] at hg hn
  by_cases hd : (m.heap σ).typeName = "def-section"
  · simp only [Item.name, hd, if_true, Option.some.injEq] at hn
    subst hn
    exact ⟨0, fun fuel _ => by simp [addSectionNode, defSectionNt, hd, bindRun, hs]⟩
  · have hty : (m.heap σ).typeName = "section" := (hg.1.resolve_left hd).1
    simp only [Item.name, hd, if_false, toks_leaves, find_text] at hn
    obtain ⟨y, hy, hye⟩ := Option.map_eq_some_iff.1 hn
    obtain ⟨N, hN⟩ := firstOf_section o.rep secNameToken σ (by rw [hty]; decide) (fun x hx hxn => by
      have := hg.2 _ (List.mem_map_of_mem hx)
      rw [partAt_node (by exact hxn)] at this
      intro ht
      have h9 : (labels m.heap x).tok.type = "sec-name" := ht
      rcases this with h | ⟨h | ⟨h, -⟩, -⟩ <;> rw [h9] at h <;> exact absurd h (by decide)) hflat
    have hym := List.mem_of_find?_eq_some hy
    obtain ⟨x, hx, hyx⟩ := List.mem_flatMap.1 hym
    obtain ⟨p, hp, hyn⟩ : ∃ p, y ∈ F p ∧ (m.heap y).isNode = false := by
      simp only [leaves] at hyx
      cases hxn : (m.heap x).isNode with
      | true => rw [hxn, if_pos rfl] at hyx; exact ⟨x, hyx, hflat x hx y hyx⟩
      | false => rw [hxn] at hyx; obtain rfl := List.mem_singleton.1 hyx; exact ⟨σ, hx, hxn⟩
    refine ⟨N, fun fuel hf => ?_⟩
    have e1 : firstOf m.heap fuel secNameToken σ = .done (some y) := (hN fuel hf).trans (congrArg Run.done hy)
    have hd' : (m.heap σ).typeName ≠ defSectionNt := hd
    simp only [addSectionNode, hd', ne_eq, not_false_eq_true, if_true, e1, bindRun, textOf_done o hp hyn, hye, hs]

end Verif.Proof.ConfTree
