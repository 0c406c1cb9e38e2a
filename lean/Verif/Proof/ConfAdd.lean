/-
New entries of a configuration.
-/
import Verif.Proof.ConfValue

namespace Verif.Proof.ConfTree

open Verif Verif.Model Verif.Model.Tree Verif.Model.ConfEdit Verif.Spec Verif.Spec.Conf Verif.Proof
open Verif.Spec.Trees (Forest Within)

theorem textOf_done {m : Mem} {F : Forest} (o : Ok m F) {x p : Nat} (hx : x ∈ F p) (hn : (m.heap x).isNode = false) :
    textOf m.heap (some x) = .done (labels m.heap x).tok.text := by
  have := o.words x p hx hn
  obtain ⟨t, ht⟩ := Option.isSome_iff_exists.1 this
  simp [textOf, orPanic, ht, labels]

/-- The record of an entry. -/
def record (trim : Bytes → Bytes) (h : Heap) (F : Forest) (x : Nat) : ConfEdit.Entry :=
  ⟨x, (F x).find? fun y => decide ((h y).typeName = "value"), (((F x).find? fun y => decide ((h y).typeName = "value")).map fun y => trim (labels h y).tok.text).getD []⟩

theorem record_val {trim : Bytes → Bytes} (h : Heap) (F : Forest) (x : Nat) : Val trim h F (record trim h F x) := by
  simp only [Val, record]
  cases hf : (F x).find? fun y => decide ((h y).typeName = "value") with
  | none =>
    rw [List.find?_eq_none] at hf
    exact ⟨fun y hy => by simpa [labels] using hf y hy, rfl⟩
  | some y => exact ⟨List.mem_of_find?_eq_some hf, by simpa [labels] using List.find?_some hf, .inl rfl⟩

theorem addEntryNode_spec {trim : Bytes → Bytes} {m : Mem} {F : Forest} (o : Ok m F) {x : Nat} (hx : (m.heap x).isNode = true)
    (hty : (m.heap x).typeName = "entry") (hk : ∀ y ∈ F x, (m.heap y).isNode = false) {e : Bytes}
    (hn : firstText "name" ((F x).map fun y => (labels m.heap y).tok) = some e) {sec : Section} (he : sec.entries e = none) :
    Ev (fun fuel => sec.addEntryNode trim fuel m.heap x) (m.heap, { sec with entries := setKey sec.entries e (some (record trim m.heap F x)) }) := by
  obtain ⟨N1, h1⟩ := firstOf_part o.rep nameToken x (fun _ => by rw [hty]; decide) hk
  obtain ⟨N2, h2⟩ := firstOf_part o.rep valueToken x (fun _ => by rw [hty]; decide) hk
  have hl : leaves m.heap F x = F x := by simp [leaves, hx]
  rw [hl] at h1 h2
  rw [find_text] at hn
  obtain ⟨y, hy, hye⟩ := Option.map_eq_some_iff.1 hn
  refine ⟨N1 + N2, fun fuel hf => ?_⟩
  have e1 : firstOf m.heap fuel nameToken x = .done (some y) := (h1 fuel (by omega)).trans (congrArg Run.done hy)
  have e2 : firstOf m.heap fuel valueToken x = .done ((F x).find? fun y => decide ((m.heap y).typeName = "value")) := h2 fuel (by omega)
  have hym := List.mem_of_find?_eq_some hy
  simp only [Section.addEntryNode, e1, bindRun, textOf_done o hym (hk y hym), hye, he, e2]
  simp only [record]
  cases hv : (F x).find? fun y => decide ((m.heap y).typeName = "value") with
  | none => rfl
  | some z =>
    have hzm := List.mem_of_find?_eq_some hv
    simp only [textOf_done o hzm (hk z hzm), bindRun]
    rfl

/-- Tokens of a new entry. -/
def newToks (e v : Bytes) : List Tok := (entryPart e v).toks

theorem newEntry_eq (m : Mem) (e v : Bytes) : m.newEntry e v = Mem.addAll (m.new (newNodeElement entryNt none)) m.size (newToks e v) := by
  by_cases hv : v = []
  · simp [Mem.newEntry, newToks, entryPart, Part.toks, Mem.addAll, hv, nameToken, opToken, nlToken]
  · simp [Mem.newEntry, newToks, entryPart, Part.toks, Mem.addAll, hv, nameToken, opToken, nlToken, valueToken]

theorem newToks_good (e v : Bytes) : GoodEntry (newToks e v) ∧ (∀ t ∈ newToks e v, t.type ≠ "sec-name") ∧ firstText "name" (newToks e v) = some e ∧
    firstText "value" (newToks e v) = if v = [] then none else some v := by
  by_cases hv : v = []
  · simp [newToks, entryPart, Part.toks, hv, GoodEntry, firstText]
  · simp [newToks, entryPart, Part.toks, hv, GoodEntry, firstText]

/-- A new entry with its tokens. -/
theorem newEntry_spec {m : Mem} {F : Forest} (o : Ok m F) (e v : Bytes) :
    Ok (m.newEntry e v) (put F m.size (fresh (m.size + 1) (newToks e v))) ∧ m.size < (m.newEntry e v).size ∧
      (∀ n < m.size, labels (m.newEntry e v).heap n = labels m.heap n) ∧ labels (m.newEntry e v).heap m.size = ⟨true, "entry", []⟩ ∧
      (fresh (m.size + 1) (newToks e v)).map (labels (m.newEntry e v).heap) = (newToks e v).map fun t => ⟨false, t⟩ := by
  have o1 := new_ok o (unlinked_node entryNt)
  have hl := newNode_labels m entryNt
  obtain ⟨h1, h2, h3, h4⟩ := addAll_spec (newToks e v) (n := m.size) o1 (by simp [new_heap, newNodeElement]) (by simp)
  rw [newEntry_eq]
  rw [o.kids _ (Nat.le_refl _), List.nil_append] at h1
  simp only [new_size] at h1 h2 h3 h4
  refine ⟨h1, by rw [h2]; omega, fun n hn => ?_, ?_, h4⟩
  · rw [h3 n (by omega), hl]
    simp [upd]; omega
  · rw [h3 _ (by omega), hl]
    simp [upd, entryNt]

/-- An entry is inserted into a section. -/
theorem Inv.insert {trim : Bytes → Bytes} {m m' : Mem} {F F' : Forest} {c : Conf} (i : Inv trim m F c) {s e v : Bytes} {sec : Section} {σ x : Nat}
    (hs : c.sections s = some sec) (hσ : sec.nodes = [σ]) (he : sec.entries e = none) (o' : Ok m' F') (hle : m.size ≤ m'.size)
    (hlab : ∀ n < m.size, labels m'.heap n = labels m.heap n) (hF : ∀ n < m.size, n ≠ σ → F' n = F n) {P Q : List Nat} (eσ : F σ = P ++ Q)
    (eσ' : F' σ = P ++ x :: Q) (hx : m.size ≤ x) (hxl : (labels m'.heap x).isNode = true ∧ (labels m'.heap x).tok.type = "entry")
    (hkids : (F' x).map (labels m'.heap) = (newToks e v).map fun t => ⟨false, t⟩) (htop : ∀ p, c.root ∉ F' p)
    {ent' : ConfEdit.Entry} (hn : ent'.node = x) (hv : Val trim m'.heap F' ent') {c' : Conf} (hroot : c'.root = c.root) {b : Bool}
    (hc : c'.sections = setKey c.sections s (some { sec with entries := setKey sec.entries e (some ent'), updated := b })) :
    Inv trim m' F' c' ∧ ∀ A B, F c.root = A ++ σ :: B → docAt (labels m'.heap) F' c.root = A.map (itemAt (labels m.heap) F) ++
      .node (m.heap σ).typeName (P.map (partAt (labels m.heap) F) ++ entryPart e v :: Q.map (partAt (labels m.heap) F)) :: B.map (itemAt (labels m.heap) F) := by
  obtain ⟨σ0, hσ0, hsec, hent⟩ := i.index.found s sec hs
  obtain rfl : σ0 = σ := by rw [hσ] at hσ0; simpa using hσ0.symm
  obtain ⟨g1, g2, g3, -⟩ := newToks_good e v
  have hlev := i.levels (x := 0) hsec.1 hsec.1
  have hlev' : ∀ y ∈ F σ0, y ≠ σ0 := fun y hy => ((i.levels (x := y) hsec.1 hsec.1).2.2.2 hy).1
  have hpart : ∀ y ∈ F σ0, partAt (labels m'.heap) F' y = partAt (labels m.heap) F y := fun y hy =>
    part_congr (hlab _ (i.ok.lt hy)) (hF _ (i.ok.lt hy) (hlev' y hy)) fun z hz => hlab _ (i.ok.lt hz)
  have hkt : (F' x).map (fun y => (labels m'.heap y).tok) = newToks e v := by
    have := congrArg (List.map Label.tok) hkids
    rw [List.map_map, List.map_map] at this
    simpa [Function.comp_def] using this
  have hkn : ∀ y ∈ F' x, (m'.heap y).isNode = false := fun y hy => by
    have : labels m'.heap y ∈ (newToks e v).map fun t => (⟨false, t⟩ : Label) := by rw [← hkids]; exact List.mem_map_of_mem hy
    obtain ⟨t, -, ht⟩ := List.mem_map.1 this
    exact (congrArg Label.isNode ht).symm
  have hpe : partAt (labels m'.heap) F' x = entryPart e v := by
    rw [partAt_node hxl.1, hxl.2, hkt]
    rfl
  have hpl : Plain (entryPart e v) := g2
  have hit0 : itemAt (labels m.heap) F σ0 = .node (m.heap σ0).typeName (P.map (partAt (labels m.heap) F) ++ Q.map (partAt (labels m.heap) F)) := by
    rw [(sec_node hsec).2, eσ]; simp
  have hit' : itemAt (labels m'.heap) F' σ0 = .node (m.heap σ0).typeName (P.map (partAt (labels m.heap) F) ++ entryPart e v :: Q.map (partAt (labels m.heap) F)) := by
    rw [itemAt_node (by rw [hlab _ (i.ok.lt hsec.1)]; exact (sec_node hsec).1), eσ', List.map_append, List.map_cons, hpe, hlab _ (i.ok.lt hsec.1)]
    congr 2
    · exact List.map_congr_left fun y hy => hpart y (by simp [eσ, hy])
    · congr 1
      exact List.map_congr_left fun y hy => hpart y (by simp [eσ, hy])
  have hgood : (itemAt (labels m'.heap) F' σ0).Good := by
    have h0 := i.item_good hsec.1
    rw [hit']
    rw [hit0] at h0
    refine good_of_name h0 (name_skip hpl) fun p hp => ?_
    rcases List.mem_append.1 hp with h | h
    · exact h0.2 p (List.mem_append_left _ h)
    · rcases List.mem_cons.1 h with rfl | h
      · exact .inr ⟨.inr ⟨rfl, g1⟩, hpl⟩
      · exact h0.2 p (List.mem_append_right _ h)
  obtain ⟨h1, h2, h3, h4, h5, h6, h7⟩ := i.change hsec (F' := F') hle htop hlab
    (fun n hn hn1 _ => hF n hn hn1) (by rw [hit', name_skip hpl, ← hit0]; exact hsec.2) hgood
    (fun y hy z hz => by
      rw [eσ'] at hy
      by_cases hyx : y = x
      · subst hyx
        exact hkn z hz
      · have hy' : y ∈ F σ0 := by rw [eσ]; simp [hyx] at hy ⊢; exact hy
        rw [hF y (i.ok.lt hy') (hlev' y hy')] at hz
        rw [← i.flat.2 σ0 hsec.1 y hy' z hz]
        exact congrArg Label.isNode (hlab _ (i.ok.lt hz)))
  have hE' : ∀ s1 σ1 e1 y, Ent m'.heap F' c.root s1 σ1 e1 y ↔ Ent m.heap F c.root s1 σ1 e1 y ∨ s1 = s ∧ σ1 = σ0 ∧ e1 = e ∧ y = ent'.node := by
    intro s1 σ1 e1 y
    rw [hn]
    by_cases hne : σ1 = σ0
    · subst hne
      simp only [Ent, h5, eσ', eσ]
      constructor
      · rintro ⟨hs1, hy, hk⟩
        by_cases hyx : y = x
        · subst hyx
          rw [hpe] at hk
          have he1 : e1 = e := by
            have h9 : (entryPart e v).key = firstText "name" (newToks e v) := by simp [entryPart, Part.key, newToks, Part.toks]
            rw [h9, g3] at hk
            exact (Option.some.inj hk).symm
          refine .inr ⟨?_, trivial, he1, rfl⟩
          have := hs1.2
          rw [hsec.2] at this
          exact (Option.some.inj this).symm
        · have hy' : y ∈ P ++ Q := by simp [hyx] at hy ⊢; exact hy
          rw [hpart y (eσ ▸ hy')] at hk
          exact .inl ⟨hs1, hy', hk⟩
      · rintro (⟨hs1, hy, hk⟩ | ⟨rfl, -, rfl, rfl⟩)
        · refine ⟨hs1, ?_, by rw [hpart y (eσ ▸ hy)]; exact hk⟩
          simp at hy ⊢
          rcases hy with hy | hy <;> simp [hy]
        · refine ⟨hsec, by simp, ?_⟩
          rw [hpe]
          have h9 : (entryPart e1 v).key = firstText "name" (newToks e1 v) := by simp [entryPart, Part.key, newToks, Part.toks]
          rw [h9, g3]
    · rw [h6 s1 σ1 e1 y hne]
      simp [hne]
  refine ⟨⟨o', hroot ▸ h2, hroot ▸ h3, hroot ▸ htop, hroot ▸ h4, ?_⟩, fun A B eroot => by rw [(h7 A B eroot).2, hit']⟩
  rw [hc, hroot]
  refine index_add i.index hs hσ he h5 hE' hv fun s1 σ1 e1 y hy hv => ?_
  refine val_congr (hF _ (i.ok.lt hy.2.1) ?_) (fun z hz => hlab _ (i.ok.lt hz)) hv
  exact ((i.levels hy.1.1 hsec.1).2.2.2 hy.2.1).1

theorem last_split {p : Nat → Bool} {l : List Nat} : (∃ P y Q, l = P ++ y :: Q ∧ l.reverse.find? p = some y ∧ p y = true ∧ ∀ z ∈ Q, p z = false) ∨
    l.reverse.find? p = none ∧ ∀ z ∈ l, p z = false := by
  cases hf : l.reverse.find? p with
  | none =>
    refine .inr ⟨rfl, fun z hz => ?_⟩
    rw [List.find?_eq_none] at hf
    simpa using hf z (by simpa using hz)
  | some y =>
    left
    obtain ⟨hy, as, bs, e, h⟩ := List.find?_eq_some_iff_append.1 hf
    refine ⟨bs.reverse, y, as.reverse, ?_, rfl, hy, fun z hz => ?_⟩
    · have := congrArg List.reverse e
      simpa using this
    · simpa using h z (by simpa using hz)

/-- A new entry of the section: the place of the entry. -/
theorem addEntry_exact {trim : Bytes → Bytes} (ht : Trims trim) {m : Mem} {F : Forest} {c : Conf} (i : Inv trim m F c) {s e : Bytes} {sec : Section} {σ : Nat}
    (hs : c.sections s = some sec) (hσ : sec.nodes = [σ]) (he : sec.entries e = none) (v : Bytes) :
    ∃ m' sec' F' P Q, Ev (fun fuel => sec.setEntry trim fuel m e v) (m', sec') ∧ F σ = P ++ Q ∧ (∀ y, P.getLast? = some y → solid m.heap y = true) ∧
      (∀ y ∈ Q, solid m.heap y = false) ∧ ∀ c' : Conf, c'.root = c.root → c'.sections = setKey c.sections s (some sec') → Inv trim m' F' c' ∧
      (∀ A B, F c.root = A ++ σ :: B → docAt (labels m'.heap) F' c.root = A.map (itemAt (labels m.heap) F) ++
        .node (m.heap σ).typeName (P.map (partAt (labels m.heap) F) ++ entryPart e v :: Q.map (partAt (labels m.heap) F)) :: B.map (itemAt (labels m.heap) F)) ∧
      ∀ s' e', Conf.get trim c' s' e' = (Edit.set s e v).apply trim (Conf.get trim c) s' e' := by
  obtain ⟨σ0, hσ0, hsec, hent⟩ := i.index.found s sec hs
  obtain rfl : σ0 = σ := by rw [hσ] at hσ0; simpa using hσ0.symm
  clear hσ0
  rename' σ0 => σ
  obtain ⟨o1, hsz, hl1, hl2, hl3⟩ := newEntry_spec i.ok e v
  obtain ⟨g1, g2, g3, g4⟩ := newToks_good e v
  generalize hm1 : m.newEntry e v = m1 at o1 hsz hl1 hl2 hl3
  have hσlt := i.ok.lt hsec.1
  have hF1 : ∀ n < m.size, put F m.size (fresh (m.size + 1) (newToks e v)) n = F n := fun n hn => put_ne _ _ (by omega)
  generalize hk1 : put F m.size (fresh (m.size + 1) (newToks e v)) = F1 at o1 hF1
  have hself : F1 m.size = fresh (m.size + 1) (newToks e v) := by rw [← hk1, put_self]
  have hmem1 : ∀ p y, y ∈ F1 p → y ∈ F p ∨ p = m.size ∧ m.size < y := fun p y hy => by
    by_cases hp : p = m.size
    · subst hp
      rw [hself, mem_fresh] at hy
      exact .inr ⟨rfl, by omega⟩
    · rw [← hk1, put_ne _ _ hp] at hy
      exact .inl hy
  have hfree : ∀ p, m.size ∉ F1 p := fun p hp => by
    rcases hmem1 p _ hp with h | h
    · exact i.ok.free _ _ (Nat.le_refl _) h
    · omega
  have hnode1 : ∀ n < m.size, (m1.heap n).isNode = (m.heap n).isNode ∧ (m1.heap n).typeName = (m.heap n).typeName := fun n hn =>
    ⟨congrArg Label.isNode (hl1 n hn), congrArg (fun l => l.tok.type) (hl1 n hn)⟩
  have hsol1 : ∀ n < m.size, solid m1.heap n = solid m.heap n := fun n hn => by simp only [solid, hnode1 n hn]
  have hloose : Loose m1 F1 m.size := ⟨hsz, hfree, fun h => by have := congrArg Label.isNode hl2; simp [labels, h] at this⟩
  have htop1 : ∀ p, c.root ∉ F1 p := fun p hp => by
    rcases hmem1 p _ hp with h | h
    · exact i.top _ h
    · have := i.lt; omega
  have hwσ : ¬ Within F1 m.size σ := by
    refine not_within_up o1 (p := c.root) (by rw [hF1 _ i.lt]; exact hsec.1) (by omega) ?_
    exact not_within_top htop1 (by have := i.lt; omega)
  -- the place of the entry
  obtain ⟨P, Q, eσ, hP, hQ, h2, o2, hsame, hEv⟩ : ∃ P Q, F σ = P ++ Q ∧ (∀ y, P.getLast? = some y → solid m.heap y = true) ∧ (∀ y ∈ Q, solid m.heap y = false) ∧
      ∃ h2, Ok { m1 with heap := h2 } (put F1 σ (P ++ m.size :: Q)) ∧ Same m1.heap h2 ∧
        Ev (fun fuel => bindRun (lastPart m1.heap fuel (m1.heap σ).lastChild) fun last => Run.done (match last with
          | none => addChild m1.heap σ (some m.size) (m1.heap σ).firstChild
          | some last => appendSibling m1.heap (some last) (some m.size))) h2 := by
    have hσ1 : (m1.heap σ).isNode = true := by rw [(hnode1 σ hσlt).1]; exact (sec_node hsec).1
    obtain ⟨N, hN⟩ := lastPart_spec o1 σ (F σ).length (F σ) [] rfl (by rw [hF1 _ hσlt]; simp)
    have hlast : (m1.heap σ).lastChild = (F σ).getLast? := by rw [o1.rep.last σ hσ1, hF1 _ hσlt]
    have hfirst : (m1.heap σ).firstChild = (F σ).head? := by rw [o1.rep.first σ hσ1, hF1 _ hσlt]
    rw [hlast, hfirst]
    have hsol : ∀ y ∈ F σ, solid m1.heap y = solid m.heap y := fun y hy => hsol1 y (i.ok.lt hy)
    rcases last_split (p := solid m1.heap) (l := F σ) with ⟨P, y, Q, e1, hf, hy, hQ⟩ | ⟨hf, hno⟩
    · have hyF : y ∈ F σ := by simp [e1]
      have hw : ¬ Within F1 m.size y := not_within_up o1 (p := σ) (by rw [hF1 _ hσlt]; exact hyF) (by have := i.ok.lt hyF; omega) hwσ
      refine ⟨P ++ [y], Q, by simp [e1], fun z hz => ?_, fun z hz => ?_, appendSibling m1.heap (some y) (some m.size), ?_, ?_, N, fun fuel hfu => ?_⟩
      · simp at hz
        subst hz
        rw [← hsol y hyF]; exact hy
      · rw [← hsol z (by simp [e1, hz])]; exact hQ z hz
      · have := appendSibling_ok o1 hloose (p := σ) (a := P) (b := Q) (x := y) (by rw [hF1 _ hσlt, e1]) hw
        simpa using this
      · exact same_appendSibling o1.rep (p := σ) (by rw [hF1 _ hσlt]; exact hyF) (by have := i.ok.lt hyF; omega)
      · have := hN fuel hfu
        rw [hf] at this
        dsimp only at this ⊢
        rw [this]
        rfl
    · refine ⟨[], F σ, rfl, by simp, fun z hz => ?_, addChild m1.heap σ (some m.size) (F σ).head?, ?_, same_addChild .., N, fun fuel hfu => ?_⟩
      · rw [← hsol z hz]; exact hno z hz
      · exact addChild_ok o1 hloose hσ1 (by omega) (a := []) (b := F σ) (by rw [hF1 _ hσlt]; rfl) hwσ
      · have := hN fuel hfu
        rw [hf] at this
        dsimp only at this ⊢
        rw [this]
        rfl
  obtain ⟨N1, hN1⟩ := hEv
  have hlab2 : labels h2 = labels m1.heap := same_labels hsame
  have hself2 : put F1 σ (P ++ m.size :: Q) m.size = fresh (m.size + 1) (newToks e v) := by rw [put_ne _ _ (by omega), hself]
  have hkids : (put F1 σ (P ++ m.size :: Q) m.size).map (labels h2) = (newToks e v).map fun t => ⟨false, t⟩ := by rw [hself2, hlab2, hl3]
  have hkn : ∀ y ∈ put F1 σ (P ++ m.size :: Q) m.size, (h2 y).isNode = false := fun y hy => by
    have : labels h2 y ∈ (newToks e v).map fun t => (⟨false, t⟩ : Label) := by rw [← hkids]; exact List.mem_map_of_mem hy
    obtain ⟨t, -, ht⟩ := List.mem_map.1 this
    exact (congrArg Label.isNode ht).symm
  have hxl : labels h2 m.size = ⟨true, "entry", []⟩ := by rw [hlab2, hl2]
  obtain ⟨N2, hN2⟩ := addEntryNode_spec (trim := trim) o2 (x := m.size) (congrArg Label.isNode hxl) (congrArg (fun l => l.tok.type) hxl) hkn (e := e) (by
    have := congrArg (List.map Label.tok) hkids
    simp only [List.map_map] at this
    have h9 : (put F1 σ (P ++ m.size :: Q) m.size).map (fun y => (labels h2 y).tok) = newToks e v := by
      rw [show (fun y => (labels h2 y).tok) = Label.tok ∘ labels h2 from rfl, this]; simp [Function.comp_def]
    rw [h9]
    exact g3) (sec := { sec with updated := true }) he
  refine ⟨{ m1 with heap := h2 }, { sec with updated := true, entries := setKey sec.entries e (some (record trim h2 (put F1 σ (P ++ m.size :: Q)) m.size)) },
    put F1 σ (P ++ m.size :: Q), P, Q, ⟨N1 + N2, fun fuel hf => ?_⟩, eσ, hP, hQ, fun c' hroot hc => ?_⟩
  · have e1 := hN1 fuel (by omega)
    have e2 := hN2 fuel (by omega)
    dsimp only at e1 e2
    simp only [Section.setEntry, he, hm1, hσ, List.getLast?_singleton, orPanic]
    cases hlp : lastPart m1.heap fuel (m1.heap σ).lastChild with
    | panic => simp [hlp, bindRun] at e1
    | timeout => simp [hlp, bindRun] at e1
    | done last =>
      rw [hlp] at e1
      simp only [bindRun, Run.done.injEq] at e1 ⊢
      cases last with
      | none => dsimp only at e1 ⊢; rw [e1]; simp only [hσ] at e2; rw [e2]
      | some y => dsimp only at e1 ⊢; rw [e1]; simp only [hσ] at e2; rw [e2]
  · have := i.insert (v := v) (x := m.size) (b := true) hs hσ he o2 (by simp only; omega) (fun n hn => (congrFun hlab2 n).trans (hl1 n hn))
      (fun n hn hne => by rw [put_ne _ _ hne]; exact hF1 n hn) eσ (put_self ..) (Nat.le_refl _) ⟨congrArg Label.isNode hxl, congrArg (fun l => l.tok.type) hxl⟩ hkids
      (fun p hp => by
        by_cases hpσ : p = σ
        · subst hpσ
          rw [put_self] at hp
          have h8 := i.top p
          rw [eσ] at h8
          have := i.lt
          rcases List.mem_append.1 hp with h | h
          · exact h8 (List.mem_append_left _ h)
          · rcases List.mem_cons.1 h with h | h
            · omega
            · exact h8 (List.mem_append_right _ h)
        · rw [put_ne _ _ hpσ] at hp
          exact htop1 p hp) rfl (record_val ..) hroot hc
    refine ⟨this.1, this.2, get_assign hs hc ?_⟩
    have h9 : (put F1 σ (P ++ m.size :: Q) m.size).map (fun y => (labels h2 y).tok) = newToks e v := by
      have := congrArg (List.map Label.tok) hkids
      rw [List.map_map, List.map_map] at this
      simpa [Function.comp_def] using this
    have h10 := find_text h2 "value" (put F1 σ (P ++ m.size :: Q) m.size)
    rw [h9, g4] at h10
    simp only [record]
    have h11 : (((put F1 σ (P ++ m.size :: Q) m.size).find? fun y => decide ((h2 y).typeName = "value")).map fun y => trim (labels h2 y).tok.text) =
        (if v = [] then none else some v : Option Bytes).map trim := by rw [h10, Option.map_map]; rfl
    rw [h11]
    split
    · next h => simp [h, ht.1]
    · simp [ht.2]

theorem solid_part (h : Heap) (F : Forest) (y : Nat) : (partAt (labels h) F y).isSolid = solid h y := by
  simp only [partAt, solid]
  cases hy : (h y).isNode with
  | false =>
    have : (labels h y).isNode = false := hy
    simp [this, Part.isSolid]
  | true =>
    have : (labels h y).isNode = true := hy
    simp only [this, if_true, Part.isSolid, Bool.true_and, show (labels h y).tok.type = (h y).typeName from rfl]
    by_cases h' : (h y).typeName = "sep"
    · rw [h']; rfl
    · simp only [sepNt, ne_eq, h', not_false_eq_true, decide_true, bne_iff_ne]

/-- A new entry of the section. -/
theorem addEntry_spec {trim : Bytes → Bytes} (ht : Trims trim) {m : Mem} {F : Forest} {c : Conf} (i : Inv trim m F c) {s e : Bytes} {sec : Section}
    (hs : c.sections s = some sec) (he : sec.entries e = none) (v : Bytes) :
    ∃ m' sec' F', Ev (fun fuel => sec.setEntry trim fuel m e v) (m', sec') ∧ ∀ c' : Conf, c'.root = c.root → c'.sections = setKey c.sections s (some sec') →
      Inv trim m' F' c' ∧ Sets trim s e v (docAt (labels m.heap) F c.root) (docAt (labels m'.heap) F' c.root) ∧
      ∀ s' e', Conf.get trim c' s' e' = (Edit.set s e v).apply trim (Conf.get trim c) s' e' := by
  obtain ⟨σ, hσ, hsec, hent⟩ := i.index.found s sec hs
  obtain ⟨m', sec', F', P, Q, h1, eσ, hP, hQ, h2⟩ := addEntry_exact ht i hs hσ he v
  refine ⟨m', sec', F', h1, fun c' hroot hc => ?_⟩
  obtain ⟨h3, h4, h5⟩ := h2 c' hroot hc
  refine ⟨h3, ?_, h5⟩
  obtain ⟨A, B, eroot⟩ := List.append_of_mem hsec.1
  have hit : itemAt (labels m.heap) F σ = .node (m.heap σ).typeName (P.map (partAt (labels m.heap) F) ++ Q.map (partAt (labels m.heap) F)) := by
    rw [(sec_node hsec).2, eσ]; simp
  have hd : docAt (labels m.heap) F c.root = A.map (itemAt (labels m.heap) F) ++
      .node (m.heap σ).typeName (P.map (partAt (labels m.heap) F) ++ Q.map (partAt (labels m.heap) F)) :: B.map (itemAt (labels m.heap) F) := by
    rw [← hit]; simp [docAt, eroot]
  rw [h4 A B eroot, hd]
  refine .add _ _ _ _ _ (by rw [← hit, hsec.2]) ?_ ?_ ?_
  · cases hg : P.getLast? with
    | none => simp [List.getLast?_map, hg]
    | some y => simp [List.getLast?_map, hg, solid_part, hP y hg]
  · simp only [List.all_map, List.all_eq_true]
    intro y hy
    simp [solid_part, hQ y hy]
  · rw [← hd, i.lookup ht]
    simp [Conf.get, hs, he]

/-- A new node with its tokens. -/
theorem newPart_spec {m : Mem} {F : Forest} (o : Ok m F) (ty : String) (toks : List Tok) {m1 : Mem}
    (e : m1 = Mem.addAll (m.new (newNodeElement ty none)) m.size toks) : ∃ F1, Ok m1 F1 ∧ m.size < m1.size ∧
      (∀ n < m.size, labels m1.heap n = labels m.heap n) ∧ (∀ n < m.size, F1 n = F n) ∧ (∀ p y, y ∈ F1 p → y ∈ F p ∨ p = m.size ∧ m.size < y) ∧
      partAt (labels m1.heap) F1 m.size = .node ty toks ∧ (∀ y ∈ F1 m.size, (m1.heap y).isNode = false) ∧ (m1.heap m.size).isNode = true := by
  have o1 := new_ok o (unlinked_node ty)
  have hl := newNode_labels m ty
  obtain ⟨h1, h2, h3, h4⟩ := addAll_spec toks (n := m.size) o1 (by simp [new_heap, newNodeElement]) (by simp)
  rw [← e] at h1 h2 h3 h4
  rw [o.kids _ (Nat.le_refl _), List.nil_append] at h1
  simp only [new_size] at h1 h2 h3 h4
  have h5 : labels m1.heap m.size = ⟨true, ty, []⟩ := by
    rw [h3 _ (by omega), hl]
    simp [upd]
  have h6 : (fresh (m.size + 1) toks).map (fun y => (labels m1.heap y).tok) = toks := by
    have := congrArg (List.map Label.tok) h4
    rw [List.map_map, List.map_map] at this
    simpa [Function.comp_def] using this
  refine ⟨put F m.size (fresh (m.size + 1) toks), h1, by omega, fun n hn => ?_, fun n hn => put_ne _ _ (by omega), fun p y hy => ?_, ?_, fun y hy => ?_,
    congrArg Label.isNode h5⟩
  · rw [h3 n (by omega), hl]
    simp [upd]; omega
  · by_cases hp : p = m.size
    · subst hp
      rw [put_self, mem_fresh] at hy
      exact .inr ⟨rfl, by omega⟩
    · rw [put_ne _ _ hp] at hy
      exact .inl hy
  · rw [partAt_node (by rw [h5]), put_self, h6, h5]
  · rw [put_self] at hy
    have : labels m1.heap y ∈ toks.map fun t => (⟨false, t⟩ : Label) := by rw [← h4]; exact List.mem_map_of_mem hy
    obtain ⟨t, -, ht⟩ := List.mem_map.1 this
    exact (congrArg Label.isNode ht).symm

end Verif.Proof.ConfTree
