/-
Values of entries of a configuration.
-/
import Verif.Proof.ConfEntry

namespace Verif.Proof.ConfTree

open Verif Verif.Model Verif.Model.Tree Verif.Model.ConfEdit Verif.Spec Verif.Spec.Conf Verif.Proof
open Verif.Spec.Trees (Forest Within)

theorem first_split {α : Type} {p : α → Prop} [DecidablePred p] : ∀ {l : List α}, (∃ x ∈ l, p x) → ∃ u x w, l = u ++ x :: w ∧ p x ∧ ∀ y ∈ u, ¬ p y
  | [], h => by simp at h
  | y :: l, h => by
    by_cases hy : p y
    · exact ⟨[], y, l, rfl, hy, by simp⟩
    · obtain ⟨u, x, w, rfl, h1, h2⟩ := first_split (l := l) (by
        obtain ⟨x, hx, hp⟩ := h
        rcases List.mem_cons.1 hx with rfl | hx
        · exact absurd hp hy
        · exact ⟨x, hx, hp⟩)
      refine ⟨y :: u, x, w, rfl, h1, fun z hz => ?_⟩
      rcases List.mem_cons.1 hz with rfl | hz
      · exact hy
      · exact h2 z hz

theorem assigns_good {v : Bytes} {l l' : List Tok} (hg : GoodEntry l) (ha : Assigns v l l') : GoodEntry l' ∧ firstText "name" l' = firstText "name" l ∧
    ((∀ t ∈ l, t.type ≠ "sec-name") → ∀ t ∈ l', t.type ≠ "sec-name") := by
  obtain ⟨nm, rest, hl, ⟨t, h1, h2⟩, h3⟩ := hg
  cases ha with
  | replace u w old hv =>
    match u, hl with
    | [], hl => simp at hl
    | n :: u', hl =>
      simp only [List.cons_append, List.cons.injEq] at hl
      obtain ⟨rfl, rfl⟩ := hl
      refine ⟨⟨nm, _, rfl, ⟨t, ?_, h2⟩, ?_⟩, by simp [firstText], fun h x hx => ?_⟩
      · simp at h1 ⊢
        rcases h1 with h1 | rfl | h1
        · exact .inl h1
        · simp at h2
        · exact .inr (.inr h1)
      · simpa [List.filter_append, List.filter_cons] using h3
      · simp at hx
        rcases hx with rfl | hx | rfl | hx
        · simp
        · exact h x (by simp [hx])
        · simp
        · exact h x (by simp [hx])
  | clear u w old hv =>
    match u, hl with
    | [], hl => simp at hl
    | n :: u', hl =>
      simp only [List.cons_append, List.cons.injEq] at hl
      obtain ⟨rfl, rfl⟩ := hl
      refine ⟨⟨nm, _, rfl, ⟨t, ?_, h2⟩, ?_⟩, by simp [firstText], fun h x hx => ?_⟩
      · simp at h1 ⊢
        rcases h1 with h1 | rfl | h1
        · exact .inl h1
        · simp at h2
        · exact .inr h1
      · simp [List.filter_append, List.filter_cons] at h3 ⊢
        omega
      · simp at hx
        rcases hx with rfl | hx | hx
        · simp
        · exact h x (by simp [hx])
        · exact h x (by simp [hx])
  | fill n u w o hv hno hop =>
    simp only [List.cons_append, List.cons.injEq] at hl
    obtain ⟨rfl, rfl⟩ := hl
    refine ⟨⟨nm, _, rfl, ⟨⟨"op", o⟩, by simp, rfl⟩, ?_⟩, by simp [firstText], fun h x hx => ?_⟩
    · have h4 : ∀ l : List Tok, (∀ t ∈ l, t.type ≠ "value") → l.filter (·.type = "value") = [] := fun l h => by
        rw [List.filter_eq_nil_iff]
        intro t ht
        simpa using h t ht
      rw [List.append_eq, List.filter_append, h4 u fun t ht => hno t (by simp [ht])]
      have := h4 w fun t ht => hno t (by simp [ht])
      simp [List.filter_cons, this]
    · simp at hx
      rcases hx with rfl | hx | rfl | rfl | hx
      · simp
      · exact h x (by simp [hx])
      · simp
      · simp
      · exact h x (by simp [hx])

/-- Tokens of an entry change. -/
theorem Inv.retoken {trim : Bytes → Bytes} {m m' : Mem} {F : Forest} {c : Conf} (i : Inv trim m F c) {s e v : Bytes} {sec : Section}
    {ent ent' : ConfEdit.Entry} (hs : c.sections s = some sec) (he : sec.entries e = some ent) {l' : List Nat} (o' : Ok m' (put F ent.node l'))
    (hle : m.size ≤ m'.size) (hlab : ∀ n < m.size, labels m'.heap n = labels m.heap n) (hfl : ∀ y ∈ l', (m'.heap y).isNode = false)
    (htop : c.root ∉ l') (ha : Assigns v ((F ent.node).map fun y => (labels m.heap y).tok) (l'.map fun y => (labels m'.heap y).tok)) (hn : ent'.node = ent.node)
    (hv : Val trim m'.heap (put F ent.node l') ent') {c' : Conf} (hroot : c'.root = c.root) {b : Bool}
    (hc : c'.sections = setKey c.sections s (some { sec with entries := setKey sec.entries e (some ent'), updated := b })) :
    Inv trim m' (put F ent.node l') c' ∧ Sets trim s e v (docAt (labels m.heap) F c.root) (docAt (labels m'.heap) (put F ent.node l') c.root) := by
  obtain ⟨σ, hσ, hsec, hent⟩ := i.index.found s sec hs
  obtain ⟨hE, hV⟩ := hent e ent he
  obtain ⟨P, Q, eσ⟩ := List.append_of_mem hE.2.1
  have hnd := i.ok.nodup eσ
  have hlev := (i.levels (x := ent.node) hsec.1 hsec.1).2.2.2 hE.2.1
  obtain ⟨ek1, ek2, ek3, ek4⟩ := ent_node hE.2.2
  obtain ⟨eg1, eg2⟩ := i.entry_good hE
  obtain ⟨ag1, ag2, ag3⟩ := assigns_good eg1 ha
  have hσF : put F ent.node l' σ = F σ := put_ne _ _ hlev.1.symm
  have hpart : ∀ x ∈ F σ, x ≠ ent.node → partAt (labels m'.heap) (put F ent.node l') x = partAt (labels m.heap) F x := fun x hx hne =>
    part_congr (hlab _ (i.ok.lt hx)) (put_ne _ _ hne) fun y hy => hlab _ (i.ok.lt hy)
  have hpe : partAt (labels m'.heap) (put F ent.node l') ent.node = .node "entry" (l'.map fun y => (labels m'.heap y).tok) := by
    rw [partAt_node (by rw [hlab _ (i.ok.lt hE.2.1)]; exact ek1), put_self, hlab _ (i.ok.lt hE.2.1)]
    congr 1
  have hit0 : itemAt (labels m.heap) F σ = .node (m.heap σ).typeName (P.map (partAt (labels m.heap) F) ++
      .node "entry" ((F ent.node).map fun y => (labels m.heap y).tok) :: Q.map (partAt (labels m.heap) F)) := by
    rw [(sec_node hsec).2, eσ, ← ek3]; simp
  have hit' : itemAt (labels m'.heap) (put F ent.node l') σ = .node (m.heap σ).typeName (P.map (partAt (labels m.heap) F) ++
      .node "entry" (l'.map fun y => (labels m'.heap y).tok) :: Q.map (partAt (labels m.heap) F)) := by
    rw [itemAt_node (by rw [hlab _ (i.ok.lt hsec.1)]; exact (sec_node hsec).1), hσF, eσ, List.map_append, List.map_cons, hpe, hlab _ (i.ok.lt hsec.1)]
    congr 2
    · exact List.map_congr_left fun x hx => hpart x (by simp [eσ, hx]) (by rintro rfl; exact hnd.1 hx)
    · congr 1
      exact List.map_congr_left fun x hx => hpart x (by simp [eσ, hx]) (by rintro rfl; exact hnd.2 hx)
  have hpl : Plain (.node "entry" ((F ent.node).map fun y => (labels m.heap y).tok)) := ek3 ▸ i.plain hE
  have hpl' : Plain (.node "entry" (l'.map fun y => (labels m'.heap y).tok)) := ag3 hpl
  have hname0 : (Item.node (m.heap σ).typeName (P.map (partAt (labels m.heap) F) ++ .node "entry" (l'.map fun y => (labels m'.heap y).tok) ::
      Q.map (partAt (labels m.heap) F))).name = (itemAt (labels m.heap) F σ).name := by rw [hit0, name_skip hpl, name_skip hpl']
  have hgood : (itemAt (labels m'.heap) (put F ent.node l') σ).Good := by
    have h0 := i.item_good hsec.1
    rw [hit'] 
    rw [hit0] at h0 hname0
    refine good_of_name h0 hname0 fun p hp => ?_
    rcases List.mem_append.1 hp with h | h
    · exact h0.2 p (List.mem_append_left _ h)
    · rcases List.mem_cons.1 h with rfl | h
      · exact .inr ⟨.inr ⟨rfl, ag1⟩, hpl'⟩
      · exact h0.2 p (List.mem_append_right _ (List.mem_cons_of_mem _ h))
  have htop' : ∀ p, c.root ∉ put F ent.node l' p := fun p => by
    by_cases hp : p = ent.node
    · subst hp; rw [put_self]; exact htop
    · rw [put_ne _ _ hp]; exact i.top p
  obtain ⟨h1, h2, h3, h4, h5, h6, h7⟩ := i.change hsec (F' := put F ent.node l') hle htop' hlab
    (fun n _ hn1 hn2 => put_ne _ _ fun e => hn2 (e ▸ hE.2.1)) (by rw [hit', hname0]; exact hsec.2) hgood
    (fun x hx y hy => by
      rw [hσF] at hx
      by_cases hxe : x = ent.node
      · subst hxe
        rw [put_self] at hy
        exact hfl y hy
      · rw [put_ne _ _ hxe] at hy
        have := i.flat.2 σ hsec.1 x hx y hy
        rw [← this]
        exact congrArg Label.isNode (hlab _ (i.ok.lt hy)))
  have hE' : ∀ s1 σ1 e1 x, Ent m'.heap (put F ent.node l') c.root s1 σ1 e1 x ↔ Ent m.heap F c.root s1 σ1 e1 x := by
    intro s1 σ1 e1 x
    by_cases hne : σ1 = σ
    · subst hne
      simp only [Ent, h5, hσF]
      refine and_congr_right fun _ => and_congr_right fun hx => ?_
      by_cases hxe : x = ent.node
      · subst hxe
        rw [hpe, ek3]
        simp only [Part.key, if_true, ag2]
      · rw [hpart x hx hxe]
    · exact h6 s1 σ1 e1 x hne
  obtain ⟨a, b', eroot⟩ := List.append_of_mem hsec.1
  obtain ⟨d1, d2⟩ := h7 a b' eroot
  refine ⟨⟨o', hroot ▸ h2, hroot ▸ h3, hroot ▸ htop', hroot ▸ h4, ?_⟩, ?_⟩
  · rw [hc, hroot]
    refine index_value i.index hs he hn h5 hE' (ent_unique i.ok) hv fun s1 σ1 e1 x hx hne hv => ?_
    exact val_congr (put_ne _ _ hne) (fun y hy => hlab _ (i.ok.lt hy)) hv
  · rw [d1, d2, hit', hit0]
    refine .change _ _ _ _ _ _ _ ?_ ek4 ha
    rw [← hit0, hsec.2]

theorem get_assign {trim : Bytes → Bytes} {c c' : Conf} {s e v : Bytes} {sec : Section} {x : ConfEdit.Entry} {b : Bool} (hs : c.sections s = some sec)
    (hc : c'.sections = setKey c.sections s (some { sec with entries := setKey sec.entries e (some x), updated := b })) (hx : trim x.value = trim v) (s' e' : Bytes) :
    Conf.get trim c' s' e' = (Edit.set s e v).apply trim (Conf.get trim c) s' e' := by
  rw [get_set hs hc]
  simp only [Edit.apply, Option.map_some, hx]

/-- An entry of the section gets a value. -/
theorem setValue_spec {trim : Bytes → Bytes} (ht : Trims trim) {m : Mem} {F : Forest} {c : Conf} (i : Inv trim m F c) {s e : Bytes} {sec : Section}
    {ent : ConfEdit.Entry} (hs : c.sections s = some sec) (he : sec.entries e = some ent) (v : Bytes) :
    ∃ m' sec' F', Ev (fun fuel => sec.setEntry trim fuel m e v) (m', sec') ∧ ∀ c' : Conf, c'.root = c.root → c'.sections = setKey c.sections s (some sec') →
      Inv trim m' F' c' ∧ Sets trim s e v (docAt (labels m.heap) F c.root) (docAt (labels m'.heap) F' c.root) ∧
      ∀ s' e', Conf.get trim c' s' e' = (Edit.set s e v).apply trim (Conf.get trim c) s' e' := by
  by_cases hval : ent.value = v
  · refine ⟨m, sec, F, ⟨0, fun fuel _ => by simp [Section.setEntry, he, hval]⟩, fun c' hroot hc => ?_⟩
    have hc1 : c'.sections = c.sections := by
      rw [hc]
      funext n
      by_cases hn : n = s
      · subst hn; rw [setKey_self, hs]
      · rw [setKey_ne _ _ hn]
    have hg : Conf.get trim c s e = some (trim v) := by simp [Conf.get, hs, he, hval]
    refine ⟨⟨i.ok, hroot ▸ i.flat, hroot ▸ i.lt, hroot ▸ i.top, hroot ▸ i.good, by rw [hroot, hc1]; exact i.index⟩, .keep _ (by rw [i.lookup ht, hg]), fun s' e' => ?_⟩
    have : Conf.get trim c' s' e' = Conf.get trim c s' e' := by simp only [Conf.get, hc1]
    rw [this]
    simp only [Edit.apply]
    split
    · next h => rw [h.1, h.2, hg]
    · rfl
  obtain ⟨σ, hσ, hsec, hent⟩ := i.index.found s sec hs
  obtain ⟨hE, hV⟩ := hent e ent he
  obtain ⟨ek1, ek2, ek3, ek4⟩ := ent_node hE.2.2
  obtain ⟨eg1, eg2⟩ := i.entry_good hE
  have hleafs : ∀ y ∈ F ent.node, (m.heap y).isNode = false := i.flat.2 σ hsec.1 _ hE.2.1
  have htopF := i.top ent.node
  have hn1 : m.size ∉ F ent.node := i.ok.free _ _ (Nat.le_refl _)
  have o1 := new_ok i.ok (unlinked_token valueToken v)
  have hl1 := newToken_labels m valueToken v
  have hloose : Loose (m.new (tokenNode valueToken v)) F m.size :=
    ⟨by simp, fun p => i.ok.free _ _ (Nat.le_refl _), fun _ => by simp [new_heap, tokenNode, newTokenElement]⟩
  have hw : ∀ x ∈ F ent.node, ¬ Within F m.size x := fun x hx =>
    not_within_leaf (i.ok.kids _ (Nat.le_refl _)) (fun e => hn1 (e ▸ hx))
  have hlt : ∀ y ∈ F ent.node, y ≠ m.size := fun y hy e => hn1 (e ▸ hy)
  cases hvn : ent.valueNode with
  | none =>
    simp only [Val, hvn] at hV
    obtain ⟨hno, hv0⟩ := hV
    have hvne : v ≠ [] := fun e => hval (by rw [hv0, e])
    obtain ⟨nm, rest, hl, hop, -⟩ := eg1
    match hF : F ent.node, hl with
    | n :: r, hl =>
      simp only [List.map_cons, List.cons.injEq] at hl
      obtain ⟨hn, rfl⟩ := hl
      obtain ⟨u, op, w, rfl, hop1, hop2⟩ := first_split (l := r) (p := fun y => (labels m.heap y).tok.type = "op") (by
        obtain ⟨t, h1, h2⟩ := hop
        obtain ⟨y, hy, rfl⟩ := List.mem_map.1 h1
        exact ⟨y, hy, h2⟩)
      have hne : ∀ y ∈ n :: (u ++ op :: w), ((m.new (tokenNode valueToken v)).heap y) = m.heap y := fun y hy => by
        rw [new_heap, if_neg (hlt y (hF ▸ hy))]
      obtain ⟨N, hN⟩ := findOp_spec (m := m.new (tokenNode valueToken v)) o1 ent.node (op := op) (w := w) (by rw [hne op (by simp)]; exact hop1) u [n] (by rw [hF]; rfl)
        (fun x hx => by rw [hne x (by simp [hx])]; exact hop2 x hx)
      have eF : F ent.node = (n :: u) ++ op :: w := by rw [hF]; rfl
      have o2 := appendSibling_ok o1 hloose eF (hw op (by simp [hF]))
      have hsame : Same (m.new (tokenNode valueToken v)).heap (appendSibling (m.new (tokenNode valueToken v)).heap (some op) (some m.size)) :=
        same_appendSibling o1.rep (p := ent.node) (by simp [hF]) (hlt op (by simp [hF]))
      have hl2 : labels (appendSibling (m.new (tokenNode valueToken v)).heap (some op) (some m.size)) = upd (labels m.heap) m.size ⟨false, valueToken, v⟩ := by
        rw [same_labels hsame, hl1]
      refine ⟨⟨appendSibling (m.new (tokenNode valueToken v)).heap (some op) (some m.size), m.size + 1⟩,
        { sec with updated := true, entries := setKey sec.entries e (some ⟨ent.node, some m.size, v⟩) }, put F ent.node ((n :: u) ++ op :: m.size :: w), ⟨N, fun fuel hf => ?_⟩, ?_⟩
      · have h1 := hN fuel hf
        have h2 : ((m.new (tokenNode valueToken v)).heap ent.node).firstChild = some n := by
          have := o1.rep.first ent.node (by rw [new_heap, if_neg (by have := i.ok.lt hE.2.1; omega)]; exact ek1)
          rw [this, hF]; rfl
        have h3 : ((m.new (tokenNode valueToken v)).heap n).next = (u ++ op :: w).head? := (o1.split (p := ent.node) (a := []) (by rw [hF]; rfl)).2
        simp only [Section.setEntry, he, hval, if_false, hvn, hvne, ne_eq, not_false_eq_true, if_true, h2, orPanic, h3]
        dsimp only at h1
        rw [h1]
        rfl
      · intro c' hroot hc
        have hmap : ((n :: u) ++ op :: m.size :: w).map (fun y => (upd (labels m.heap) m.size ⟨false, valueToken, v⟩ y).tok) =
            (labels m.heap n).tok :: u.map (fun y => (labels m.heap y).tok) ++ (labels m.heap op).tok :: ⟨"value", v⟩ :: w.map fun y => (labels m.heap y).tok := by
          have hk : ∀ l : List Nat, (∀ y ∈ l, y ∈ F ent.node) → l.map (fun y => (upd (labels m.heap) m.size ⟨false, valueToken, v⟩ y).tok) = l.map fun y => (labels m.heap y).tok :=
            fun l hl => List.map_congr_left fun y hy => by simp [upd, hlt y (hl y hy)]
          simp only [List.cons_append, List.map_cons, List.map_append]
          rw [hk u fun y hy => by simp [hF, hy], hk w fun y hy => by simp [hF, hy]]
          simp [upd, hlt n (by simp [hF]), hlt op (by simp [hF]), valueToken]
        have := i.retoken (v := v) (ent' := ⟨ent.node, some m.size, v⟩) hs he (l' := (n :: u) ++ op :: m.size :: w) o2 (by simp) (fun k hk => by
            simp only [hl2, upd]; rw [if_neg (by omega)]) (fun y hy => by
            have : (labels (appendSibling (m.new (tokenNode valueToken v)).heap (some op) (some m.size)) y).isNode = false := by
              rw [hl2]
              by_cases hy2 : y = m.size
              · simp [upd, hy2]
              · simp only [upd, hy2, if_false]
                refine hleafs y ?_
                rw [hF]
                simp [hy2] at hy ⊢
                exact hy
            exact this) (by
            rw [hF] at htopF
            have := i.lt
            simp at htopF ⊢
            exact ⟨htopF.1, htopF.2.1, htopF.2.2.1, by omega, htopF.2.2.2⟩) (by
            simp only [hl2, hmap, hF, List.map_cons, List.map_append]
            have hop' : (labels m.heap op).tok = ⟨"op", (labels m.heap op).tok.text⟩ := by rw [← hop1]
            rw [hop', ← List.cons_append]
            refine .fill _ _ _ _ hvne (fun t ht => ?_) (fun t ht => ?_)
            · have : t ∈ (F ent.node).map fun y => (labels m.heap y).tok := by
                rw [hF]
                simp only [List.map_cons, List.map_append, List.cons_append, List.mem_cons, List.mem_append] at ht ⊢
                tauto
              obtain ⟨y, hy, rfl⟩ := List.mem_map.1 this
              exact hno y hy
            · obtain ⟨y, hy, rfl⟩ := List.mem_map.1 ht
              exact hop2 y hy) rfl
            (by
              simp only [Val, put_self, hl2]
              exact ⟨by simp, by simp [upd, valueToken], .inr (by simp [upd])⟩) hroot hc
        exact ⟨this.1, this.2, get_assign hs hc rfl⟩
  | some v0 =>
    simp only [Val, hvn] at hV
    obtain ⟨hv1, hv2, hv3⟩ := hV
    obtain ⟨u, w, eF⟩ := List.append_of_mem hv1
    have hnd := i.ok.nodup eF
    have hv0 : (labels m.heap v0).tok = ⟨"value", (labels m.heap v0).tok.text⟩ := by rw [← hv2]
    by_cases hvne : v = []
    · have o2 := detach_ok i.ok eF
      have hl2 : labels (detach m.heap (some v0)) = labels m.heap := same_labels (same_detach ..)
      refine ⟨⟨detach m.heap (some v0), m.size⟩, { sec with updated := true, entries := setKey sec.entries e (some ⟨ent.node, none, v⟩) },
        put F ent.node (u ++ w), ⟨0, fun fuel hf => ?_⟩, ?_⟩
      · simp [Section.setEntry, he, hval, hvn, hvne, orPanic, replace, bindRun]
        intro h
        exact absurd (h.trans hvne.symm) hval
      · intro c' hroot hc
        have := i.retoken (v := v) (ent' := ⟨ent.node, none, v⟩) hs he (l' := u ++ w) o2 (Nat.le_refl _) (fun k hk => by simp only [hl2]) (fun y hy => by
            have : (labels (detach m.heap (some v0)) y).isNode = false := by
              rw [hl2]
              refine hleafs y ?_
              rw [eF]
              simp at hy ⊢
              tauto
            exact this) (by
            rw [eF] at htopF
            simp at htopF ⊢
            tauto) (by
            simp only [hl2, eF, List.map_cons, List.map_append]
            rw [hv0]
            exact .clear _ _ _ hvne) rfl
            (by
              simp only [Val, put_self, hl2]
              refine ⟨fun y hy hy2 => ?_, hvne⟩
              obtain ⟨nm, rest, hl, -, hlen⟩ := eg1
              have hlen' : (((F ent.node).map fun y => (labels m.heap y).tok).filter (·.type = "value")).length ≤ 1 := by
                rw [hl]; simpa [List.filter_cons] using hlen
              rw [eF] at hlen'
              simp only [List.map_append, List.map_cons, List.filter_append, List.filter_cons, hv2, decide_true, if_true, List.length_append, List.length_cons] at hlen'
              rcases List.mem_append.1 hy with hy | hy
              · have : (labels m.heap y).tok ∈ (u.map fun y => (labels m.heap y).tok).filter (·.type = "value") := by
                  rw [List.mem_filter]
                  exact ⟨List.mem_map_of_mem hy, by simpa using hy2⟩
                have := List.length_pos_of_mem this
                omega
              · have : (labels m.heap y).tok ∈ (w.map fun y => (labels m.heap y).tok).filter (·.type = "value") := by
                  rw [List.mem_filter]
                  exact ⟨List.mem_map_of_mem hy, by simpa using hy2⟩
                have := List.length_pos_of_mem this
                omega) hroot hc
        exact ⟨this.1, this.2, get_assign hs hc rfl⟩
    · obtain ⟨h', hr, hsame, o2⟩ := replace_ok o1 hloose eF (hw v0 hv1)
      have hl2 : labels h' = upd (labels m.heap) m.size ⟨false, valueToken, v⟩ := by rw [same_labels hsame, hl1]
      refine ⟨⟨h', m.size + 1⟩, { sec with updated := true, entries := setKey sec.entries e (some ⟨ent.node, some m.size, v⟩) },
        put F ent.node (u ++ m.size :: w), ⟨0, fun fuel hf => ?_⟩, ?_⟩
      · simp only [Section.setEntry, he, hval, if_false, hvn, hvne, ne_eq, not_false_eq_true, if_true, orPanic, hr, bindRun]
        rfl
      · intro c' hroot hc
        have hk : ∀ l : List Nat, (∀ y ∈ l, y ∈ F ent.node) → l.map (fun y => (upd (labels m.heap) m.size ⟨false, valueToken, v⟩ y).tok) = l.map fun y => (labels m.heap y).tok :=
          fun l hl => List.map_congr_left fun y hy => by simp [upd, hlt y (hl y hy)]
        have := i.retoken (v := v) (ent' := ⟨ent.node, some m.size, v⟩) hs he (l' := u ++ m.size :: w) o2 (by simp) (fun k hk => by
            simp only [hl2, upd]; rw [if_neg (by omega)]) (fun y hy => by
            have : (labels h' y).isNode = false := by
              rw [hl2]
              by_cases hy2 : y = m.size
              · simp [upd, hy2]
              · simp only [upd, hy2, if_false]
                refine hleafs y ?_
                rw [eF]
                simp [hy2] at hy ⊢
                tauto
            exact this) (by
            rw [eF] at htopF
            have := i.lt
            simp at htopF ⊢
            exact ⟨htopF.1, by omega, htopF.2.2⟩) (by
            simp only [hl2, eF, List.map_cons, List.map_append]
            rw [hk u fun y hy => by simp [eF, hy], hk w fun y hy => by simp [eF, hy], hv0]
            simp only [upd, if_true]
            exact .replace _ _ _ hvne) rfl
            (by
              simp only [Val, put_self, hl2]
              exact ⟨by simp, by simp [upd, valueToken], .inr (by simp [upd])⟩) hroot hc
        exact ⟨this.1, this.2, get_assign hs hc rfl⟩

end Verif.Proof.ConfTree
