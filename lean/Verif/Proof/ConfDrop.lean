/-
Edits of configurations: values of entries and removal of sections.
-/
import Verif.Proof.ConfOpen

namespace Verif.Proof.ConfTree

open Verif Verif.Model Verif.Model.Tree Verif.Model.ConfEdit Verif.Spec Verif.Spec.Conf Verif.Proof
open Verif.Spec.Trees (Forest Within)

/-- An entry gets a value. -/
theorem set_spec {trim : Bytes → Bytes} (ht : Trims trim) {m : Mem} {F : Forest} {c : Conf} (i : Inv trim m F c) (name s e v : Bytes)
    (hsn : splitName name = (s, e)) :
    (Edit.set s e v).Breaks (docAt (labels m.heap) F c.root) ∧ (∀ fuel, setEntry trim fuel m c name v = .panic) ∨
      ∃ m' c' F', Ev (fun fuel => setEntry trim fuel m c name v) (m', c') ∧ Inv trim m' F' c' ∧ c'.root = c.root ∧
        Sets trim s e v (docAt (labels m.heap) F c.root) (docAt (labels m'.heap) F' c.root) ∧
        ∀ s' e', Conf.get trim c' s' e' = (Edit.set s e v).apply trim (Conf.get trim c) s' e' := by
  cases hs : c.sections s with
  | some sec =>
    right
    obtain ⟨m', sec', F', ⟨N, h1⟩, h2⟩ : ∃ m' sec' F', Ev (fun fuel => sec.setEntry trim fuel m e v) (m', sec') ∧ ∀ c' : Conf, c'.root = c.root →
        c'.sections = setKey c.sections s (some sec') → Inv trim m' F' c' ∧
        Sets trim s e v (docAt (labels m.heap) F c.root) (docAt (labels m'.heap) F' c.root) ∧
        ∀ s' e', Conf.get trim c' s' e' = (Edit.set s e v).apply trim (Conf.get trim c) s' e' := by
      cases he : sec.entries e with
      | none => exact addEntry_spec ht i hs he v
      | some ent => exact setValue_spec ht i hs he v
    obtain ⟨h3, h4, h5⟩ := h2 { c with sections := setKey c.sections s (some sec') } rfl rfl
    refine ⟨m', _, F', ⟨N, fun fuel hf => ?_⟩, h3, rfl, h4, h5⟩
    have e1 := h1 fuel hf
    dsimp only at e1
    simp only [setEntry, hsn, addSection, hs, bindRun, orPanic, e1]
  | none =>
    rcases addSection_spec i hs with ⟨h1, h2⟩ | ⟨m1, ⟨F1, A, B, o1, g1, g2, g3, g4, e1, hop, hinv⟩, N1, h1⟩
    · left
      refine ⟨⟨h1.1, fun h => ?_, h1.2⟩, fun fuel => ?_⟩
      · obtain ⟨sec, h⟩ := (i.has s).1 h
        simp [hs] at h
      · simp only [setEntry, hsn, h2, bindRun]
    · right
      have i1 := hinv ⟨c.root, setKey c.sections s (some ⟨[m.size], fun _ => none, false⟩), true⟩ false rfl rfl
      obtain ⟨m', sec', F', P, Q, ⟨N2, h2⟩, eσ, hP, hQ, h3⟩ := addEntry_exact ht i1 (s := s) (e := e) (σ := m.size) (setKey_self ..) rfl rfl v
      obtain ⟨h4, h5, h6⟩ := h3 ⟨c.root, setKey (setKey c.sections s (some ⟨[m.size], fun _ => none, false⟩)) s (some sec'), true⟩ rfl rfl
      refine ⟨m', _, F', ⟨N1 + N2, fun fuel hf => ?_⟩, h4, rfl, ?_, fun s' e' => ?_⟩
      · have k1 := h1 fuel (by omega)
        have k2 := h2 fuel (by omega)
        dsimp only at k1 k2
        simp only [setEntry, hsn, k1, bindRun, setKey_self, orPanic, k2]
      · have h7 := h5 A B e1
        dsimp only at h7
        rw [h7]
        rw [eσ, List.map_append] at hop
        refine opened_sets hop (fun h => ?_) ?_ ?_
        · obtain ⟨sec, h⟩ := (i.has s).1 h
          simp [hs] at h
        · cases hg : P.getLast? with
          | none => simp [List.getLast?_map, hg]
          | some y => simp [List.getLast?_map, hg, solid_part, hP y hg]
        · simp only [List.all_map, List.all_eq_true]
          intro y hy
          simp [solid_part, hQ y hy]
      · rw [h6]
        simp only [Edit.apply]
        split
        · rfl
        · simp only [Conf.get]
          by_cases hss : s' = s
          · subst hss
            simp [setKey_self, hs]
          · simp [setKey_ne _ _ hss]

/-- An empty section is added. -/
theorem open_spec {trim : Bytes → Bytes} {m : Mem} {F : Forest} {c : Conf} (i : Inv trim m F c) (s : Bytes) :
    (Edit.addSection s).Breaks (docAt (labels m.heap) F c.root) ∧ (∀ fuel, addSection fuel m c s = .panic) ∨
      ∃ m' c' F', Ev (fun fuel => addSection fuel m c s) (m', c') ∧ Inv trim m' F' c' ∧ c'.root = c.root ∧
        Opens s (docAt (labels m.heap) F c.root) (docAt (labels m'.heap) F' c.root) ∧
        ∀ s' e', Conf.get trim c' s' e' = (Edit.addSection s).apply trim (Conf.get trim c) s' e' := by
  cases hs : c.sections s with
  | some sec =>
    right
    exact ⟨m, c, F, ⟨0, fun _ _ => by simp [addSection, hs]⟩, i, rfl, .keep _ ((i.has s).2 ⟨sec, hs⟩), fun _ _ => rfl⟩
  | none =>
    have hno : ¬ (docAt (labels m.heap) F c.root).Has s := fun h => by
      obtain ⟨sec, h⟩ := (i.has s).1 h
      simp [hs] at h
    rcases addSection_spec i hs with ⟨h1, h2⟩ | ⟨m1, ⟨F1, A, B, o1, g1, g2, g3, g4, e1, hop, hinv⟩, h1⟩
    · exact .inl ⟨⟨h1.1, hno, h1.2⟩, h2⟩
    · right
      refine ⟨m1, _, F1, h1, hinv _ false rfl rfl, rfl, ?_, fun s' e' => ?_⟩
      · have hd : docAt (labels m1.heap) F1 c.root = A.map (itemAt (labels m1.heap) F1) ++
            .node (m1.heap m.size).typeName ((F1 m.size).map (partAt (labels m1.heap) F1)) :: B.map (itemAt (labels m1.heap) F1) := by
          simp only [docAt, e1, List.map_append, List.map_cons]
          rw [itemAt_node (x := m.size) (by exact g1)]
          rfl
        rw [hd]
        exact .add hno hop
      · simp only [Edit.apply, Conf.get]
        by_cases hss : s' = s
        · subst hss
          simp [setKey_self, hs]
        · simp [setKey_ne _ _ hss]

/-! Removal of sections -/

/-- The last separator of a section is detached. -/
theorem Inv.unclose {trim : Bytes → Bytes} {m : Mem} {F : Forest} {c : Conf} (i : Inv trim m F c) {p x : Nat} {A B K : List Nat} (e : F c.root = A ++ p :: B)
    (hp : (m.heap p).isNode = true) (hk : F p = K ++ [x]) (hx : (partAt (labels m.heap) F x).isSep = true) :
    Inv trim { m with heap := detach m.heap (some x) } (put F p K) c ∧ docAt (labels m.heap) (put F p K) c.root =
      A.map (itemAt (labels m.heap) F) ++ .node (m.heap p).typeName (K.map (partAt (labels m.heap) F)) :: B.map (itemAt (labels m.heap) F) := by
  have hsame := same_detach m.heap (some x)
  have hlab : labels (detach m.heap (some x)) = labels m.heap := same_labels hsame
  have o' := detach_ok i.ok hk
  rw [List.append_nil] at o'
  have hpr : p ∈ F c.root := by simp [e]
  have hit0 : itemAt (labels m.heap) F p = .node (m.heap p).typeName (K.map (partAt (labels m.heap) F) ++ [partAt (labels m.heap) F x]) := by
    rw [itemAt_node (by exact hp), hk]; simp; rfl
  obtain ⟨s, hs⟩ := good_named (i.item_good hpr) (by rw [hit0]; rfl)
  have hsec : Sec m.heap F c.root s p := ⟨hpr, hs⟩
  have hlev := fun {y} => (i.levels (x := y) hpr hpr).2.2.2
  have hpart : ∀ y ∈ F p, partAt (labels m.heap) (put F p K) y = partAt (labels m.heap) F y := fun y hy =>
    part_congr rfl (put_ne _ _ (hlev hy).1) fun _ _ => rfl
  have hit' : itemAt (labels m.heap) (put F p K) p = .node (m.heap p).typeName (K.map (partAt (labels m.heap) F)) := by
    rw [itemAt_node (by exact hp), put_self, List.map_congr_left fun y hy => hpart y (by simp [hk, hy])]; rfl
  have h0 := i.item_good hpr
  rw [hit0] at h0
  have hplain : Plain (partAt (labels m.heap) F x) := by
    have := h0.2 (partAt (labels m.heap) F x) (by simp)
    generalize partAt (labels m.heap) F x = q at *
    cases q with
    | token t => simp [Part.isSep] at hx
    | node ty l =>
      simp only [Part.isSep, beq_iff_eq] at hx
      subst hx
      rcases this with h | h
      · simp at h
      · exact h.2
  have hname : (itemAt (labels m.heap) (put F p K) p).name = some s := by
    have := name_skip (ty := (m.heap p).typeName) (p := K.map (partAt (labels m.heap) F)) (q := []) hplain
    rw [hit0, this, List.append_nil] at hs
    rw [hit', hs]
  have hsub : ∀ n y, y ∈ put F p K n → y ∈ F n := fun n y hy => by
    by_cases hn : n = p
    · subst hn
      rw [put_self] at hy
      simp [hk, hy]
    · rwa [put_ne _ _ hn] at hy
  obtain ⟨h1, h2, h3, h4, h5, h6, h7⟩ := i.change hsec (m' := { m with heap := detach m.heap (some x) }) (F' := put F p K) (Nat.le_refl _)
    (fun n hn => i.top n (hsub _ _ hn)) (fun n _ => by simp only [hlab]) (fun n _ hn _ => put_ne _ _ hn) (by simpa only [hlab] using hname)
    (by
      simp only [hlab]
      rw [hit']
      refine good_of_name h0 ?_ fun q hq => h0.2 q (List.mem_append_left _ hq)
      rw [← hit', hname, ← hit0, hs])
    (fun y hy z hz => by
      simp only [(hsame.same z).1]
      exact i.flat.2 p hpr y (hsub _ _ hy) z (hsub _ _ hz))
  obtain ⟨-, d2⟩ := h7 A B e
  simp only [hlab] at d2 h4
  refine ⟨⟨o', h2, h3, fun n hn => i.top n (hsub _ _ hn), by simp only [hlab]; exact h4, ?_⟩, by rw [d2, hit']⟩
  refine index_congr i.index h5 (fun s1 σ1 e1 y => ?_) fun s1 σ1 e1 y hy hv => val_congr (put_ne _ _ ((i.levels hy.1.1 hpr).2.2.2 hy.2.1).1) (fun _ _ => by rw [hlab]) hv
  by_cases hσ : σ1 = p
  · subst hσ
    simp only [Ent, h5, put_self, hlab]
    refine and_congr_right fun _ => ?_
    constructor
    · rintro ⟨hy, hky⟩
      have hy' : y ∈ F σ1 := by simp [hk, hy]
      rw [hpart y hy'] at hky
      exact ⟨hy', hky⟩
    · rintro ⟨hy, hky⟩
      refine ⟨?_, by rw [hpart y hy]; exact hky⟩
      rw [hk] at hy
      rcases List.mem_append.1 hy with hy | hy
      · exact hy
      · obtain rfl := List.mem_singleton.1 hy
        obtain ⟨-, -, h8, -⟩ := ent_node hky
        rw [h8] at hx
        simp [Part.isSep] at hx
  · exact h6 s1 σ1 e1 y hσ

/-- A section is detached. -/
theorem Inv.drop {trim : Bytes → Bytes} {m : Mem} {F : Forest} {c : Conf} (i : Inv trim m F c) {σ : Nat} {s : Bytes} {A B : List Nat} (e : F c.root = A ++ σ :: B)
    (hs : Sec m.heap F c.root s σ) {c' : Conf} (hroot : c'.root = c.root) (hc : c'.sections = setKey c.sections s none) :
    Inv trim { m with heap := detach m.heap (some σ) } (put F c.root (A ++ B)) c' ∧
      docAt (labels (detach m.heap (some σ))) (put F c.root (A ++ B)) c.root = A.map (itemAt (labels m.heap) F) ++ B.map (itemAt (labels m.heap) F) := by
  have hsame := same_detach m.heap (some σ)
  have hlab : labels (detach m.heap (some σ)) = labels m.heap := same_labels hsame
  have o' := detach_ok i.ok e
  have hnd := i.ok.nodup e
  have hnr : ∀ p x, x ∈ F p → x ≠ c.root := fun p x hx e => i.top p (e ▸ hx)
  have hpart : ∀ x, x ≠ c.root → partAt (labels m.heap) (put F c.root (A ++ B)) x = partAt (labels m.heap) F x := fun x hx =>
    part_congr rfl (put_ne _ _ hx) fun _ _ => rfl
  have hitem : ∀ x, x ≠ c.root → itemAt (labels m.heap) (put F c.root (A ++ B)) x = itemAt (labels m.heap) F x := fun x hx =>
    item_congr rfl (put_ne _ _ hx) fun y hy => hpart y (hnr _ _ hy)
  have hmem : ∀ x, x ∈ A ++ B ↔ x ∈ F c.root ∧ x ≠ σ := fun x => by
    rw [e]
    simp only [List.mem_append, List.mem_cons]
    constructor
    · rintro (h | h)
      · exact ⟨.inl h, by rintro rfl; exact hnd.1 h⟩
      · exact ⟨.inr (.inr h), by rintro rfl; exact hnd.2 h⟩
    · rintro ⟨h | h | h, h2⟩
      · exact .inl h
      · exact absurd h h2
      · exact .inr h
  have huniq : ∀ σ', Sec m.heap F c.root s σ' → σ' = σ := fun σ' h => by
    obtain ⟨sec, h1, h2⟩ := i.index.all s σ' h
    obtain ⟨sec', h3, h4⟩ := i.index.all s σ hs
    rw [h1] at h3
    obtain rfl := Option.some.inj h3
    rw [h2] at h4
    simpa using h4
  have hS : ∀ s1 σ1, Sec (detach m.heap (some σ)) (put F c.root (A ++ B)) c.root s1 σ1 ↔ Sec m.heap F c.root s1 σ1 ∧ s1 ≠ s := fun s1 σ1 => by
    simp only [Sec, put_self, hmem, hlab]
    constructor
    · rintro ⟨⟨h1, h2⟩, h3⟩
      rw [hitem _ (hnr _ _ h1)] at h3
      refine ⟨⟨h1, h3⟩, ?_⟩
      rintro rfl
      exact h2 (huniq σ1 ⟨h1, h3⟩)
    · rintro ⟨⟨h1, h3⟩, h2⟩
      refine ⟨⟨h1, ?_⟩, by rw [hitem _ (hnr _ _ h1)]; exact h3⟩
      rintro rfl
      have := hs.2
      rw [h3] at this
      exact h2 (Option.some.inj this)
  refine ⟨⟨o', ⟨?_, ?_⟩, by rw [hroot]; exact i.lt, ?_, ?_, ?_⟩, ?_⟩
  · rw [hroot, (hsame.same _).1]; exact i.flat.1
  · rw [hroot, put_self]
    intro σ1 h1 x hx y hy
    have h1' := ((hmem _).1 h1).1
    rw [put_ne _ _ (hnr _ _ h1')] at hx
    rw [put_ne _ _ (hnr _ _ hx)] at hy
    simp only [(hsame.same _).1]
    exact i.flat.2 σ1 h1' x hx y hy
  · intro p hp
    rw [hroot] at hp
    by_cases hpr : p = c.root
    · rw [hpr, put_self, hmem] at hp
      exact i.top _ hp.1
    · rw [put_ne _ _ hpr] at hp
      exact i.top _ hp
  · intro it hit
    rw [hroot] at hit
    simp only [docAt, put_self, List.mem_map, hmem, hlab] at hit
    obtain ⟨σ1, h1, rfl⟩ := hit
    rw [hitem _ (hnr _ _ h1.1)]; exact i.item_good h1.1
  · rw [hc, hroot]
    refine index_drop i.index hS (fun s1 σ1 e1 x => ?_) fun s1 σ1 e1 x hx _ hv => val_congr (put_ne _ _ (hnr _ _ hx.2.1)) (fun _ _ => by rw [hlab]) hv
    simp only [Ent, hS, hlab]
    constructor
    · rintro ⟨⟨h1, h2⟩, hx, hk⟩
      rw [put_ne _ _ (hnr _ _ h1.1)] at hx
      rw [hpart _ (hnr _ _ hx)] at hk
      exact ⟨⟨h1, hx, hk⟩, h2⟩
    · rintro ⟨⟨h1, hx, hk⟩, h2⟩
      exact ⟨⟨h1, h2⟩, by rw [put_ne _ _ (hnr _ _ h1.1)]; exact hx, by rw [hpart _ (hnr _ _ hx)]; exact hk⟩
  · simp only [docAt, put_self, hlab, List.map_append]
    congr 1 <;> exact List.map_congr_left fun y hy => hitem y (hnr c.root y (by simp [e, hy]))

/-- A section is removed. -/
theorem removeSection_spec {trim : Bytes → Bytes} {m : Mem} {F : Forest} {c : Conf} (i : Inv trim m F c) (s : Bytes) :
    (Edit.removeSection s).Breaks (docAt (labels m.heap) F c.root) ∧ removeSection m c s = .panic ∨
      ∃ m' c' F', removeSection m c s = .done (m', c') ∧ Inv trim m' F' c' ∧ c'.root = c.root ∧
        Drops s (docAt (labels m.heap) F c.root) (docAt (labels m'.heap) F' c.root) ∧
        ∀ s' e', Conf.get trim c' s' e' = (Edit.removeSection s).apply trim (Conf.get trim c) s' e' := by
  cases hs : c.sections s with
  | none =>
    right
    refine ⟨m, c, F, by simp [removeSection, hs], i, rfl, .keep _ fun h => ?_, fun s' e' => ?_⟩
    · obtain ⟨sec, h⟩ := (i.has s).1 h
      simp [hs] at h
    · simp only [Edit.apply]
      split
      · next h => subst h; simp [Conf.get, hs]
      · rfl
  | some sec =>
    obtain ⟨σ, hσ, hsec, -⟩ := i.index.found s sec hs
    obtain ⟨A, B, e⟩ := List.append_of_mem hsec.1
    have hd : docAt (labels m.heap) F c.root = A.map (itemAt (labels m.heap) F) ++ itemAt (labels m.heap) F σ :: B.map (itemAt (labels m.heap) F) := by
      simp [docAt, e]
    have hget : ∀ c' : Conf, c'.sections = setKey c.sections s none → ∀ s' e', Conf.get trim c' s' e' = (Edit.removeSection s).apply trim (Conf.get trim c) s' e' := by
      intro c' hc s' e'
      simp only [Edit.apply, Conf.get, hc]
      by_cases h : s' = s
      · subst h; simp [setKey_self]
      · simp [h, setKey_ne _ _ h]
    have hprev := (i.ok.split e).1
    simp only [removeSection, hs, hσ, removeNodes, hprev]
    rcases List.eq_nil_or_concat A with rfl | ⟨A', p, rfl⟩
    · right
      obtain ⟨i', d'⟩ := i.drop e hsec (c' := { c with updated := true, sections := setKey c.sections s none }) rfl rfl
      refine ⟨_, _, _, rfl, i', rfl, ?_, hget _ rfl⟩
      simp only
      rw [d', hd]
      exact .drop [] _ _ hsec.2 rfl
    · rw [List.concat_eq_append] at *
      simp only [List.getLast?_append, List.getLast?_singleton, Option.some_or]
      have hpm : p ∈ F c.root := by simp [e]
      cases hp : (m.heap p).isNode with
      | false =>
        left
        refine ⟨⟨A'.map (itemAt (labels m.heap) F), B.map (itemAt (labels m.heap) F), (labels m.heap p).tok, itemAt (labels m.heap) F σ, ?_, hsec.2⟩, rfl⟩
        rw [hd]
        have : itemAt (labels m.heap) F p = .token (labels m.heap p).tok := by simp [itemAt, show (labels m.heap p).isNode = false from hp]
        simp [this]
      | true =>
        right
        have hitp : itemAt (labels m.heap) F p = .node (m.heap p).typeName ((F p).map (partAt (labels m.heap) F)) := by
          rw [itemAt_node (by exact hp)]; rfl
        have hdp : docAt (labels m.heap) F c.root = (A'.map (itemAt (labels m.heap) F) ++ [itemAt (labels m.heap) F p]) ++
            itemAt (labels m.heap) F σ :: B.map (itemAt (labels m.heap) F) := by rw [hd]; simp
        have hlast : (A'.map (itemAt (labels m.heap) F) ++ [itemAt (labels m.heap) F p]).getLast?.all Item.isNode := by
          simp [hitp, Item.isNode]
        simp only [if_true]
        rw [i.ok.rep.last p hp]
        -- no separator
        have plain : (itemAt (labels m.heap) F p).unclose = itemAt (labels m.heap) F p → ∃ m' c' F',
            (Run.done ({ m with heap := detach m.heap (some σ) }, { c with updated := true, sections := setKey c.sections s none }) : Run (Mem × Conf)) =
              .done (m', c') ∧ Inv trim m' F' c' ∧ c'.root = c.root ∧ Drops s (docAt (labels m.heap) F c.root) (docAt (labels m'.heap) F' c.root) ∧
            ∀ s' e', Conf.get trim c' s' e' = (Edit.removeSection s).apply trim (Conf.get trim c) s' e' := fun hu => by
          obtain ⟨i', d'⟩ := i.drop e hsec (c' := { c with updated := true, sections := setKey c.sections s none }) rfl rfl
          refine ⟨_, _, _, rfl, i', rfl, ?_, hget _ rfl⟩
          simp only
          have := Drops.drop (s := s) _ (B.map (itemAt (labels m.heap) F)) _ hsec.2 hlast
          rw [mapLast_append, hu, ← hdp] at this
          rw [d']
          simpa using this
        cases hl : (F p).getLast? with
        | none =>
          refine plain ?_
          rw [hitp, List.getLast?_eq_none_iff.1 hl]
          rfl
        | some x =>
          obtain ⟨K, hK⟩ : ∃ K, F p = K ++ [x] := by
            rcases List.eq_nil_or_concat (F p) with h | ⟨K, y, h⟩
            · simp [h] at hl
            · rw [List.concat_eq_append] at h
              rw [h] at hl
              simp at hl
              exact ⟨K, by rw [h, hl]⟩
          have hg := i.item_good hpm
          rw [hitp] at hg
          have hgx := hg.2 (partAt (labels m.heap) F x) (List.mem_map_of_mem (by simp [hK]))
          dsimp only
          by_cases hx : (m.heap x).typeName = sepNt
          · have hxn : (labels m.heap x).isNode = true := by
              by_contra hxn
              rw [Bool.not_eq_true] at hxn
              simp only [partAt, hxn, Bool.false_eq_true, if_false, Part.Good] at hgx
              exact hgx.2.1 hx
            have hxs : (partAt (labels m.heap) F x).isSep = true := by
              rw [partAt_node hxn, show (labels m.heap x).tok.type = "sep" from hx]
              rfl
            have e0 : F c.root = A' ++ p :: (σ :: B) := by simp [e]
            obtain ⟨i1, d1⟩ := i.unclose e0 hp hK hxs
            have hsame := same_detach m.heap (some x)
            have hlab : labels (detach m.heap (some x)) = labels m.heap := same_labels hsame
            have hpr : p ≠ c.root := fun h => i.top _ (h ▸ hpm)
            have hpσ : σ ≠ p := by
              rintro rfl
              have := (i.ok.nodup e).1
              simp at this
            have e1 : put F p K c.root = (A' ++ [p]) ++ σ :: B := by rw [put_ne _ _ hpr.symm, e]
            have hun := fun {σ'} (h1 : σ' ∈ F c.root) (h2 : σ' ≠ p) => i.untouched hpm (lab' := labels m.heap) (F' := put F p K) (fun _ _ => rfl) (fun n _ hn _ => put_ne _ _ hn) h1 h2
            have hsec1 : Sec (detach m.heap (some x)) (put F p K) c.root s σ := by
              refine ⟨by rw [put_ne _ _ hpr.symm]; exact hsec.1, ?_⟩
              rw [hlab, (hun hsec.1 hpσ).2.2]
              exact hsec.2
            obtain ⟨i', d'⟩ := i1.drop e1 hsec1 (c' := { c with updated := true, sections := setKey c.sections s none }) rfl rfl
            simp only [hx, if_true, bindRun]
            refine ⟨_, _, _, rfl, i', rfl, ?_, hget _ rfl⟩
            simp only
            rw [d']
            simp only [hlab]
            have hA : (A' ++ [p]).map (itemAt (labels m.heap) (put F p K)) = A'.map (itemAt (labels m.heap) F) ++ [(itemAt (labels m.heap) F p).unclose] := by
              have hnd := (i.ok.nodup e0).1
              rw [List.map_append, List.map_congr_left fun y hy => (hun (by simp [e, hy]) (by rintro rfl; exact hnd hy)).2.2]
              congr 1
              rw [List.map_singleton, itemAt_node (by exact hp), put_self, hitp, hK]
              have : ((K ++ [x]).map (partAt (labels m.heap) F)).getLast?.any Part.isSep = true := by simp [hxs]
              simp only [Item.unclose, this, if_true]
              rw [List.map_append, List.map_singleton, List.dropLast_concat]
              congr 2
              refine List.map_congr_left fun y hy => ?_
              have hy' : y ∈ F p := by simp [hK, hy]
              exact part_congr rfl (put_ne _ _ ((i.levels (x := y) hpm hpm).2.2.2 hy').1) fun _ _ => rfl
            have hB : B.map (itemAt (labels m.heap) (put F p K)) = B.map (itemAt (labels m.heap) F) := by
              have hnd := (i.ok.nodup e0).2
              exact List.map_congr_left fun y hy => (hun (by simp [e, hy]) (by rintro rfl; exact hnd (by simp [hy]))).2.2
            rw [hA, hB, hdp, ← mapLast_append]
            exact .drop _ _ _ hsec.2 hlast
          · simp only [hx, if_false, bindRun]
            refine plain ?_
            have hxs : (partAt (labels m.heap) F x).isSep = false := by
              simp only [partAt]
              cases hxn : (labels m.heap x).isNode with
              | false => rfl
              | true =>
                simp only [if_true, Part.isSep]
                exact beq_eq_false_iff_ne.2 hx
            rw [hitp]
            have : ((F p).map (partAt (labels m.heap) F)).getLast?.any Part.isSep = false := by simp [List.getLast?_map, hl, hxs]
            simp only [Item.unclose, this, Bool.false_eq_true, if_false]

end Verif.Proof.ConfTree
