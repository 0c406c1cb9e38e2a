/-
Edits of entries of a configuration.
-/
import Verif.Proof.ConfChange

namespace Verif.Proof.ConfTree

open Verif Verif.Model Verif.Model.Tree Verif.Model.ConfEdit Verif.Spec Verif.Spec.Conf Verif.Proof
open Verif.Spec.Trees (Forest Within)

theorem has_name {ty : String} {ps : List Part} : (∃ t ∈ ps.flatMap Part.toks, t.type = "sec-name") ↔ firstText "sec-name" (ps.flatMap Part.toks) ≠ none := by
  constructor
  · rintro ⟨t, h1, h2⟩ hn
    simp only [firstText, Option.map_eq_none_iff, List.find?_eq_none] at hn
    exact hn t h1 (by simp [h2])
  · intro h
    by_contra hn
    push Not at hn
    exact h (firstText_none hn)

theorem good_of_name {ty : String} {ps ps' : List Part} (hg : (Item.node ty ps).Good) (hn : (Item.node ty ps').name = (Item.node ty ps).name)
    (hp : ∀ p ∈ ps', p.Good) : (Item.node ty ps').Good := by
  refine ⟨?_, hp⟩
  rcases hg.1 with h | ⟨h1, h2⟩
  · exact .inl h
  · refine .inr ⟨h1, ?_⟩
    rw [has_name (ty := ty)] at h2 ⊢
    simp only [Item.name, h1, String.reduceEq, if_false] at hn
    rwa [hn]

theorem Inv.plain {trim : Bytes → Bytes} {m : Mem} {F : Forest} {c : Conf} (i : Inv trim m F c) {s e : Bytes} {σ x : Nat}
    (he : Ent m.heap F c.root s σ e x) : Plain (partAt (labels m.heap) F x) := by
  rw [(ent_node he.2.2).2.2.1]
  intro t ht
  obtain ⟨y, hy, rfl⟩ := List.mem_map.1 ht
  exact (i.entry_good he).2 y hy

theorem itemAt_node {lab : Nat → Label} {F : Forest} {x : Nat} (h : (lab x).isNode = true) :
    itemAt lab F x = .node (lab x).tok.type ((F x).map (partAt lab F)) := by simp [itemAt, h]

theorem partAt_node {lab : Nat → Label} {F : Forest} {x : Nat} (h : (lab x).isNode = true) :
    partAt lab F x = .node (lab x).tok.type ((F x).map fun y => (lab y).tok) := by simp [partAt, h]

theorem get_set {trim : Bytes → Bytes} {c c' : Conf} {s e : Bytes} {sec : Section} {v : Option ConfEdit.Entry} {b : Bool} (hs : c.sections s = some sec)
    (hc : c'.sections = setKey c.sections s (some { sec with entries := setKey sec.entries e v, updated := b })) (s' e' : Bytes) :
    Conf.get trim c' s' e' = if s' = s ∧ e' = e then v.map (fun x => trim x.value) else Conf.get trim c s' e' := by
  simp only [Conf.get, hc]
  by_cases h1 : s' = s
  · subst h1
    rw [setKey_self, hs]
    by_cases h2 : e' = e
    · subst h2; simp [setKey_self]
    · simp [h2, setKey_ne]
  · simp [h1, setKey_ne]

/-! Removing -/

theorem remove_spec {trim : Bytes → Bytes} (ht : Trims trim) {m : Mem} {F : Forest} {c : Conf} (i : Inv trim m F c) (name s e : Bytes)
    (hsn : splitName name = (s, e)) :
    ∃ F', Inv trim (removeEntry m c name).1 F' (removeEntry m c name).2 ∧ (removeEntry m c name).2.root = c.root ∧
      Removes trim s e (docAt (labels m.heap) F c.root) (docAt (labels (removeEntry m c name).1.heap) F' c.root) ∧
      ∀ s' e', Conf.get trim (removeEntry m c name).2 s' e' = (Edit.remove s e).apply trim (Conf.get trim c) s' e' := by
  have hkeep : ∀ {m' : Mem} {c' : Conf}, m' = m → c' = c → Conf.get trim c s e = none → ∃ F', Inv trim m' F' c' ∧ c'.root = c.root ∧
      Removes trim s e (docAt (labels m.heap) F c.root) (docAt (labels m'.heap) F' c.root) ∧
      ∀ s' e', Conf.get trim c' s' e' = (Edit.remove s e).apply trim (Conf.get trim c) s' e' := by
    rintro m' c' rfl rfl hg
    refine ⟨F, i, rfl, .keep _ (by rw [i.lookup ht, hg]), fun s' e' => ?_⟩
    simp only [Edit.apply]
    split
    · next h => rw [h.1, h.2, hg]
    · rfl
  have hr : removeEntry m c name = match c.sections s with
      | none => (m, c)
      | some sec => let r := sec.removeEntry m.heap e; ({ m with heap := r.1 }, { c with sections := setKey c.sections s (some r.2) }) := by
    simp only [removeEntry, hsn]
    cases c.sections s <;> rfl
  rw [hr]
  cases hs : c.sections s with
  | none => exact hkeep rfl rfl (by simp [Conf.get, hs])
  | some sec =>
    cases he : sec.entries e with
    | none =>
      have hre : sec.removeEntry m.heap e = (m.heap, sec) := by simp [Section.removeEntry, he]
      dsimp only
      rw [hre]
      refine hkeep rfl ?_ (by simp [Conf.get, hs, he])
      obtain ⟨root, sections, upd⟩ := c
      simp only at hs ⊢
      congr 1
      funext n
      by_cases hn : n = s
      · subst hn; rw [setKey_self, hs]
      · rw [setKey_ne _ _ hn]
    | some ent =>
      have hre : sec.removeEntry m.heap e = (detach m.heap (some ent.node), { sec with updated := true, entries := setKey sec.entries e none }) := by
        simp [Section.removeEntry, he]
      simp only [hre]
      obtain ⟨σ, hσ, hsec, hent⟩ := i.index.found s sec hs
      obtain ⟨hE, hV⟩ := hent e ent he
      obtain ⟨P, Q, eσ⟩ := List.append_of_mem hE.2.1
      have hnd := i.ok.nodup eσ
      have o' := detach_ok i.ok eσ
      have hlab : labels (detach m.heap (some ent.node)) = labels m.heap := same_labels (same_detach ..)
      have hlev := fun {σ' x} h1 => i.levels (σ := σ) (σ' := σ') (x := x) hsec.1 h1
      have hpart : ∀ x ∈ F σ, partAt (labels m.heap) (put F σ (P ++ Q)) x = partAt (labels m.heap) F x := fun x hx =>
        part_congr rfl (put_ne _ _ ((hlev (x := x) hsec.1).2.2.2 hx).1) fun _ _ => rfl
      have hit := (sec_node hsec).2
      have hnode : (labels m.heap σ).isNode = true := (sec_node hsec).1
      have hit' : itemAt (labels m.heap) (put F σ (P ++ Q)) σ = .node (m.heap σ).typeName (P.map (partAt (labels m.heap) F) ++ Q.map (partAt (labels m.heap) F)) := by
        rw [itemAt_node hnode, put_self, List.map_append]
        congr 2 <;> exact List.map_congr_left fun x hx => hpart x (by simp [eσ, hx])
      have hit0 : itemAt (labels m.heap) F σ = .node (m.heap σ).typeName (P.map (partAt (labels m.heap) F) ++
          partAt (labels m.heap) F ent.node :: Q.map (partAt (labels m.heap) F)) := by rw [hit, eσ]; simp
      have hname : (itemAt (labels m.heap) (put F σ (P ++ Q)) σ).name = some s := by
        rw [hit', ← name_skip (i.plain hE), ← hit0, hsec.2]
      have hgood : (itemAt (labels m.heap) (put F σ (P ++ Q)) σ).Good := by
        have h0 := i.item_good hsec.1
        rw [hit0] at h0
        rw [hit']
        refine good_of_name h0 (name_skip (i.plain hE)).symm fun p hp => h0.2 p ?_
        rcases List.mem_append.1 hp with h | h
        · exact List.mem_append_left _ h
        · exact List.mem_append_right _ (List.mem_cons_of_mem _ h)
      obtain ⟨h1, h2, h3, h4, h5, h6, h7⟩ := i.change hsec (m' := { m with heap := detach m.heap (some ent.node) }) (F' := put F σ (P ++ Q)) (Nat.le_refl _)
        (fun p => by
          by_cases hp : p = σ
          · subst hp
            rw [put_self]
            have := i.top p
            rw [eσ] at this
            simp at this ⊢
            tauto
          · rw [put_ne _ _ hp]; exact i.top p)
        (fun n _ => by simp only [hlab]) (fun n _ hn _ => put_ne _ _ hn) (by simpa only [hlab] using hname) (by simpa only [hlab] using hgood)
        (fun x hx y hy => by
          rw [put_self] at hx
          have hx' : x ∈ F σ := by rw [eσ]; simp at hx ⊢; tauto
          rw [put_ne _ _ ((hlev (x := x) hsec.1).2.2.2 hx').1] at hy
          rw [((same_detach m.heap (some ent.node)).same y).1]
          exact i.flat.2 σ hsec.1 x hx' y hy)
      simp only [hlab] at h4 h7
      have hE' : ∀ s1 σ1 e1 x, Ent (detach m.heap (some ent.node)) (put F σ (P ++ Q)) c.root s1 σ1 e1 x ↔ Ent m.heap F c.root s1 σ1 e1 x ∧ x ≠ ent.node := by
        intro s1 σ1 e1 x
        by_cases hne : σ1 = σ
        · subst hne
          simp only [Ent, h5, hlab, put_self, and_assoc]
          refine and_congr_right fun _ => ?_
          constructor
          · rintro ⟨hx, hk⟩
            have hx' : x ∈ F σ1 := by rw [eσ]; simp at hx ⊢; tauto
            rw [hpart x hx'] at hk
            exact ⟨hx', hk, by rintro rfl; simp [hnd] at hx⟩
          · rintro ⟨hx, hk, hne⟩
            refine ⟨?_, by rw [hpart x hx]; exact hk⟩
            rw [eσ] at hx
            simp [hne] at hx ⊢
            exact hx
        · rw [h6 s1 σ1 e1 x hne]
          refine ⟨fun h => ⟨h, ?_⟩, And.left⟩
          rintro rfl
          exact hne (i.ok.rep.unique_parent h.2.1 hE.2.1)
      obtain ⟨a, b, eroot⟩ := List.append_of_mem hsec.1
      obtain ⟨d1, d2⟩ := h7 a b eroot
      refine ⟨put F σ (P ++ Q), ⟨o', h2, h3, ?_, by simpa only [hlab] using h4, ?_⟩, trivial, ?_, ?_⟩
      · intro p
        by_cases hp : p = σ
        · subst hp
          rw [put_self]
          have := i.top p
          rw [eσ] at this
          simp at this ⊢
          tauto
        · rw [put_ne _ _ hp]; exact i.top p
      · refine index_remove i.index hs he h5 hE' (ent_unique i.ok) fun s1 σ1 e1 x hx hne hv => val_congr ?_ (fun _ _ => by rw [hlab]) hv
        refine put_ne _ _ fun e => ?_
        have := (i.levels hx.1.1 hsec.1).2.2.2 hx.2.1
        exact this.1 e
      · simp only [hlab]
        rw [d1, d2, hit', hit0]
        refine .drop _ _ _ _ _ _ ?_ hE.2.2
        rw [← hit0, hsec.2]
      · intro s' e'
        rw [get_set hs (v := none) (b := true) rfl]
        simp only [Edit.apply, Option.map_none]

end Verif.Proof.ConfTree
