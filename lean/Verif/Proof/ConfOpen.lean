/-
Adding of sections: nodes of new sections and their places.
-/
import Verif.Proof.ConfSection

namespace Verif.Proof.ConfTree

open Verif Verif.Model Verif.Model.Tree Verif.Model.ConfEdit Verif.Spec Verif.Spec.Conf Verif.Proof
open Verif.Spec.Trees (Forest Within)

theorem mapLast_append (f : Item → Item) (x : Item) : ∀ a : Doc, mapLast f (a ++ [x]) = a ++ [f x]
  | [] => rfl
  | [y] => rfl
  | y :: z :: a => by
    have := mapLast_append f x (z :: a)
    simp only [List.cons_append, mapLast] at this ⊢
    rw [this]

theorem opened_sets {trim : Bytes → Bytes} {s e v : Bytes} {d A B : Doc} {ty : String} {p q : List Part} (h : Opened s d A ty (p ++ q) B) (hno : ¬ d.Has s)
    (hp : p.getLast?.all Part.isSolid) (hq : q.all (!·.isSolid)) : Sets trim s e v d (A ++ .node ty (p ++ entryPart e v :: q) :: B) := by
  generalize hps : p ++ q = ps at h
  cases h with
  | named _ hs =>
    rcases List.append_eq_singleton_iff.1 hps with ⟨rfl, rfl⟩ | ⟨rfl, rfl⟩
    · simp [headerPart, Part.isSolid] at hq
    · exact .named d hno hs
  | default _ hs hall =>
    obtain ⟨rfl, rfl⟩ := List.append_eq_nil_iff.1 hps
    exact .default d hno hs hall
  | first a b it hs hall hit =>
    rcases List.append_eq_singleton_iff.1 hps with ⟨rfl, rfl⟩ | ⟨rfl, rfl⟩
    · exact .first _ _ _ hno hs hall hit
    · simp [sepPart, Part.isSolid] at hp

/-- The result of adding of a section. -/
def Adds (trim : Bytes → Bytes) (m : Mem) (F : Forest) (c : Conf) (s : Bytes) (m' : Mem) (σ : Nat) : Prop :=
  ∃ F' A B, Ok m' F' ∧ (m'.heap σ).isNode = true ∧ (itemAt (labels m'.heap) F' σ).Good ∧ (itemAt (labels m'.heap) F' σ).name = some s ∧
    (∀ x ∈ F' σ, ∀ y ∈ F' x, (m'.heap y).isNode = false) ∧ F' c.root = A ++ σ :: B ∧
    Opened s (docAt (labels m.heap) F c.root) (A.map (itemAt (labels m'.heap) F')) (m'.heap σ).typeName ((F' σ).map (partAt (labels m'.heap) F'))
      (B.map (itemAt (labels m'.heap) F')) ∧
    ∀ c' : Conf, ∀ b, c'.root = c.root → c'.sections = setKey c.sections s (some ⟨[σ], fun _ => none, b⟩) → Inv trim m' F' c'

theorem header_good (s : Bytes) : (Item.node "section" [headerPart s]).Good ∧ (Item.node "section" [headerPart s]).name = some s ∧ (headerPart s).key = none := by
  refine ⟨⟨.inr ⟨rfl, ⟨"sec-name", s⟩, by simp [headerPart, Part.toks], rfl⟩, fun p hp => ?_⟩, by simp [Item.name, headerPart, Part.toks, firstText], rfl⟩
  obtain rfl := List.mem_singleton.1 hp
  exact .inl rfl

theorem default_good (ps : List Part) (h : ps = [] ∨ ps = [sepPart]) : (Item.node "def-section" ps).Good ∧ (Item.node "def-section" ps).name = some [] ∧
    ∀ p ∈ ps, p.key = none := by
  refine ⟨⟨.inl rfl, fun p hp => ?_⟩, by simp [Item.name], fun p hp => ?_⟩
  · rcases h with rfl | rfl
    · simp at hp
    · obtain rfl := List.mem_singleton.1 hp
      exact .inr ⟨.inl rfl, sepPart_plain⟩
  · rcases h with rfl | rfl
    · simp at hp
    · obtain rfl := List.mem_singleton.1 hp
      rfl

/-- The node with its header. -/
def withHeader (m : Mem) (name : List Nat) : Mem :=
  let m3 := Mem.addAll ((m.new (newNodeElement sectionNt none)).new (newNodeElement headerNt none)) (m.size + 1) (headerPart name).toks
  { m3 with heap := addChild m3.heap m.size (some (m.size + 1)) none }

/-- A separator for the last section. -/
def closeLast (m : Mem) (root : Nat) : Run Mem :=
  match (m.heap root).lastChild with
  | some child =>
    if (m.heap child).isNode then
      orPanic (m.heap child).lastChild fun x =>
        if (m.heap x).typeName ≠ sepNt then .done { m.sepNode with heap := addChild m.sepNode.heap child (some m.size) none } else .done m
    else .done m
  | none => .done m

theorem addNamed_eq (m : Mem) (root : Nat) (name : List Nat) : addNamed m root name =
    bindRun (closeLast (withHeader m name) root) fun m5 => .done { m5 with heap := addChild m5.heap root (some m.size) none } := by
  simp only [addNamed, withHeader, headerPart, Part.toks, Mem.addAll, opToken, secNameToken, nlToken, new_size]
  rfl

/-- A node for a named section. -/
theorem header_spec {trim : Bytes → Bytes} {m : Mem} {F : Forest} {c : Conf} (i : Inv trim m F c) (s : Bytes) {m4 : Mem}
    (e4 : m4 = withHeader m s) :
    ∃ F4, Inv trim m4 F4 c ∧ docAt (labels m4.heap) F4 c.root = docAt (labels m.heap) F c.root ∧ m.size < m4.size ∧ (∀ p, m.size ∉ F4 p) ∧
      F4 m.size = [m.size + 1] ∧ partAt (labels m4.heap) F4 (m.size + 1) = headerPart s ∧ (∀ y ∈ F4 (m.size + 1), (m4.heap y).isNode = false) ∧
      (m4.heap m.size).isNode = true ∧ (m4.heap m.size).typeName = "section" := by
  have o1 := new_ok i.ok (unlinked_node sectionNt)
  have hl1 := newNode_labels m sectionNt
  obtain ⟨F3, o3, h1, h2, h3, h4, h5, h6, h7⟩ := newPart_spec o1 headerNt (headerPart s).toks rfl
  simp only [withHeader] at e4
  simp only [new_size] at o3 h1 h2 h3 h4 h5 h6 h7
  generalize Mem.addAll ((m.new (newNodeElement sectionNt none)).new (newNodeElement headerNt none)) (m.size + 1) (headerPart s).toks = m3 at *
  have hfree1 : ∀ p, m.size + 1 ∉ F3 p := fun p hp => by
    rcases h4 p _ hp with h | h
    · have := i.ok.lt h; omega
    · omega
  have hfree0 : ∀ p, m.size ∉ F3 p := fun p hp => by
    rcases h4 p _ hp with h | h
    · have := i.ok.lt h; omega
    · omega
  have hlab0 : labels m3.heap m.size = ⟨true, sectionNt, []⟩ := by
    rw [h2 _ (by omega), hl1]; simp [upd]
  have hk0 : F3 m.size = [] := by rw [h3 _ (by omega)]; exact i.ok.kids _ (Nat.le_refl _)
  have o4 := addChild_ok o3 (p := m.size) (el := m.size + 1) ⟨by omega, hfree1, fun h => by simp [h7] at h⟩ (congrArg Label.isNode hlab0) (by omega)
    (a := []) (b := []) hk0 (not_within_top hfree0 (by omega))
  have hsame := same_addChild m3.heap m.size (some (m.size + 1)) none
  have hlab4 : labels m4.heap = labels m3.heap := by rw [e4]; exact same_labels hsame
  simp only [List.head?_nil, List.nil_append] at o4
  rw [← e4] at o4
  have hmem : ∀ p y, y ∈ put F3 m.size [m.size + 1] p → y ∈ F p ∨ m.size < y := fun p y hy => by
    by_cases hp : p = m.size
    · subst hp
      rw [put_self] at hy
      right
      have := List.mem_singleton.1 hy
      omega
    · rw [put_ne _ _ hp] at hy
      rcases h4 p y hy with h | h
      · exact .inl h
      · right; omega
  have hsz : m4.size = m3.size := by rw [e4]
  obtain ⟨i4, d4⟩ := i.loose o4 (by omega) (fun n hn => by
      rw [hlab4, h2 n (by omega), hl1]; simp [upd]; omega)
    (fun n hn => by rw [put_ne _ _ (by omega), h3 n (by omega)]) fun p hp => by
      rcases hmem p _ hp with h | h
      · exact i.top _ h
      · have := i.lt; omega
  refine ⟨_, i4, d4, by omega, fun p hp => ?_, put_self .., ?_, fun y hy => ?_, ?_, ?_⟩
  · rcases hmem p _ hp with h | h
    · have := i.ok.lt h; omega
    · omega
  · rw [hlab4]
    refine Eq.trans (part_congr rfl (put_ne _ _ (by omega)) fun _ _ => rfl) h5
  · rw [put_ne _ _ (by omega)] at hy
    have := h6 y hy
    rw [← this]
    exact congrArg Label.isNode (congrFun hlab4 y)
  · exact (congrArg Label.isNode (congrFun hlab4 m.size)).trans (congrArg Label.isNode hlab0)
  · exact (congrArg (fun l => l.tok.type) (congrFun hlab4 m.size)).trans (congrArg (fun l => l.tok.type) hlab0)

/-- The node of a section becomes a child of the root. -/
theorem attach_adds {trim : Bytes → Bytes} {m0 m : Mem} {F0 F : Forest} {c : Conf} (i : Inv trim m F c) {s : Bytes} {σ : Nat} {A B : List Nat} {h' : Heap}
    (o' : Ok { m with heap := h' } (put F c.root (A ++ σ :: B))) (hsame : Same m.heap h') (e : F c.root = A ++ B) (hfree : ∀ p, σ ∉ F p)
    (hne : σ ≠ c.root) (hn : (m.heap σ).isNode = true) {ps : List Part} {ty : String} (hty : (m.heap σ).typeName = ty)
    (hps : (F σ).map (partAt (labels m.heap) F) = ps) (hg : (Item.node ty ps).Good)
    (hname : (Item.node ty ps).name = some s) (hkey : ∀ p ∈ ps, p.key = none) (hflat : ∀ x ∈ F σ, ∀ y ∈ F x, (m.heap y).isNode = false) (hs : c.sections s = none)
    (hop : Opened s (docAt (labels m0.heap) F0 c.root) (A.map (itemAt (labels m.heap) F)) ty ps (B.map (itemAt (labels m.heap) F))) :
    Adds trim m0 F0 c s { m with heap := h' } σ := by
  have hit : itemAt (labels m.heap) F σ = .node ty ps := by
    rw [itemAt_node (by exact hn), hps, ← hty]; rfl
  have key := fun (c' : Conf) (b : Bool) (hroot : c'.root = c.root) (hc : c'.sections = setKey c.sections s (some ⟨[σ], fun _ => none, b⟩)) =>
    i.attach o' hsame e hfree hne (s := s) (by rw [hit]; exact hg) (by rw [hit]; exact hname) (fun x hx => hkey _ (by rw [← hps]; exact List.mem_map_of_mem hx)) hflat hs hroot hc
  obtain ⟨-, hitem, hpart⟩ := key ⟨c.root, _, true⟩ false rfl rfl
  have hnr : ∀ p x, x ∈ F p → x ≠ c.root := fun p x hx e => i.top p (e ▸ hx)
  refine ⟨put F c.root (A ++ σ :: B), A, B, o', ?_, ?_, ?_, ?_, put_self .., ?_, fun c' b hroot hc => (key c' b hroot hc).1⟩
  · simp only [(hsame.same σ).1, hn]
  · rw [hitem _ hne, hit]; exact hg
  · rw [hitem _ hne, hit]; exact hname
  · intro x hx y hy
    rw [put_ne _ _ hne] at hx
    rw [put_ne _ _ (hnr _ _ hx)] at hy
    simp only [(hsame.same y).1]
    exact hflat x hx y hy
  · have hA : A.map (itemAt (labels h') (put F c.root (A ++ σ :: B))) = A.map (itemAt (labels m.heap) F) :=
      List.map_congr_left fun y hy => hitem y (hnr c.root y (by simp [e, hy]))
    have hB : B.map (itemAt (labels h') (put F c.root (A ++ σ :: B))) = B.map (itemAt (labels m.heap) F) :=
      List.map_congr_left fun y hy => hitem y (hnr c.root y (by simp [e, hy]))
    have hP : (put F c.root (A ++ σ :: B) σ).map (partAt (labels h') (put F c.root (A ++ σ :: B))) = ps := by
      rw [put_ne _ _ hne, ← hps]
      exact List.map_congr_left fun y hy => hpart y (hnr σ y hy)
    simp only [hA, hB, hP, (hsame.same σ).2.1, hty]
    exact hop

theorem addNamed_spec {trim : Bytes → Bytes} {m : Mem} {F : Forest} {c : Conf} (i : Inv trim m F c) {s : Bytes} (hs : c.sections s = none) (hne : s ≠ []) :
    (∃ a ty, docAt (labels m.heap) F c.root = a ++ [.node ty []]) ∧ addNamed m c.root s = .panic ∨
      ∃ m', addNamed m c.root s = .done m' ∧ Adds trim m F c s m' m.size := by
  rw [addNamed_eq]
  obtain ⟨F4, i4, d4, hsz, hfree, hk, hhdr, htok, hn, hty⟩ := header_spec i s rfl
  generalize withHeader m s = m4 at *
  rw [closeLast, i4.ok.rep.last c.root i4.flat.1]
  have hroot : m.size ≠ c.root := by have := i.lt; omega
  have hps : (F4 m.size).map (partAt (labels m4.heap) F4) = [headerPart s] := by rw [hk]; simp [hhdr]
  obtain ⟨g1, g2, g3⟩ := header_good s
  have hg3 : ∀ p ∈ [headerPart s], p.key = none := fun p hp => by obtain rfl := List.mem_singleton.1 hp; exact g3
  have hflat : ∀ x ∈ F4 m.size, ∀ y ∈ F4 x, (m4.heap y).isNode = false := fun x hx => by
    rw [hk] at hx
    obtain rfl := List.mem_singleton.1 hx
    exact htok
  have finish : ∀ (m' : Mem) (F' : Forest), Inv trim m' F' c → m.size < m'.size → (∀ p, m.size ∉ F' p) → (m'.heap m.size).isNode = true →
      (m'.heap m.size).typeName = "section" → (F' m.size).map (partAt (labels m'.heap) F') = [headerPart s] →
      (∀ x ∈ F' m.size, ∀ y ∈ F' x, (m'.heap y).isNode = false) →
      docAt (labels m'.heap) F' c.root = mapLast Item.close (docAt (labels m.heap) F c.root) →
      Adds trim m F c s { m' with heap := addChild m'.heap c.root (some m.size) none } m.size := fun m' F' i' hsz hfree hn hty hps hflat hd => by
    have o5 := addChild_ok i'.ok (p := c.root) (el := m.size) ⟨hsz, hfree, fun h => by simp [hn] at h⟩ i'.flat.1 i'.lt (a := F' c.root) (b := []) (by simp)
      (not_within_top i'.top hroot.symm)
    refine attach_adds (B := []) i' o5 (same_addChild ..) (by simp) hfree hroot hn hty hps g1 g2 hg3 hflat hs ?_
    have h9 : (F' c.root).map (itemAt (labels m'.heap) F') = mapLast Item.close (docAt (labels m.heap) F c.root) := hd
    rw [h9]
    exact .named (s := s) (docAt (labels m.heap) F c.root) hne
  -- nothing is added to the last section
  have plain : mapLast Item.close (docAt (labels m.heap) F c.root) = docAt (labels m.heap) F c.root →
      Adds trim m F c s { m4 with heap := addChild m4.heap c.root (some m.size) none } m.size := fun hd =>
    finish m4 F4 i4 hsz hfree hn hty hps hflat (by rw [d4, hd])
  rcases List.eq_nil_or_concat (F4 c.root) with he | ⟨A, x, he⟩
  · right
    refine ⟨_, by rw [he]; rfl, plain ?_⟩
    rw [← d4]
    simp [docAt, he, mapLast]
  · rw [List.concat_eq_append] at he
    have hlast : (F4 c.root).getLast? = some x := by simp [he]
    have hd0 : docAt (labels m.heap) F c.root = A.map (itemAt (labels m4.heap) F4) ++ [itemAt (labels m4.heap) F4 x] := by
      rw [← d4]; simp [docAt, he]
    rw [hlast]
    dsimp only
    cases hx : (m4.heap x).isNode with
    | false =>
      right
      refine ⟨_, rfl, plain ?_⟩
      have : itemAt (labels m4.heap) F4 x = .token (labels m4.heap x).tok := by simp [itemAt, show (labels m4.heap x).isNode = false from hx]
      rw [hd0, mapLast_append, this]
      rfl
    | true =>
      have hit : itemAt (labels m4.heap) F4 x = .node (m4.heap x).typeName ((F4 x).map (partAt (labels m4.heap) F4)) := by
        rw [itemAt_node (by exact hx)]; rfl
      have hxr : x ∈ F4 c.root := by simp [he]
      simp only [if_true]
      rw [i4.ok.rep.last x hx]
      cases hl : (F4 x).getLast? with
      | none =>
        left
        refine ⟨⟨A.map (itemAt (labels m4.heap) F4), (m4.heap x).typeName, ?_⟩, rfl⟩
        rw [hd0, hit, List.getLast?_eq_none_iff.1 hl]
        rfl
      | some z =>
        right
        have hzm : z ∈ F4 x := List.mem_of_getLast? hl
        have hsepz : (partAt (labels m4.heap) F4 z).isSep = true ↔ (m4.heap z).isNode = true ∧ (m4.heap z).typeName = sepNt := by
          simp only [partAt]
          cases hz : (m4.heap z).isNode with
          | true => 
            simp only [show (labels m4.heap z).isNode = true from hz, if_true, Part.isSep, beq_iff_eq, true_and]
            rfl
          | false => simp [show (labels m4.heap z).isNode = false from hz, Part.isSep]
        simp only [orPanic]
        by_cases hz : (m4.heap z).typeName = sepNt
        · simp only [hz, ne_eq, not_true_eq_false, if_false, bindRun]
          refine ⟨_, rfl, plain ?_⟩
          have hzn : (partAt (labels m4.heap) F4 z).isSep = true := by
            rw [hsepz]
            refine ⟨?_, hz⟩
            have h0 := i4.item_good hxr
            rw [hit] at h0
            have h1 := h0.2 _ (List.mem_map_of_mem hzm)
            by_contra hzn
            have h2 : (labels m4.heap z).isNode = false := Bool.eq_false_iff.2 hzn
            simp only [partAt, h2, Bool.false_eq_true, if_false, Part.Good] at h1
            exact h1.2.1 hz
          rw [hd0, mapLast_append, hit]
          simp only [Item.close, List.getLast?_map, hl, Option.map_some, Option.any_some, hzn, if_true]
        · simp only [hz, ne_eq, not_false_eq_true, if_true, bindRun]
          refine ⟨_, rfl, ?_⟩
          have hzn : (partAt (labels m4.heap) F4 z).isSep = false := by
            rw [← Bool.not_eq_true, hsepz]
            exact fun h => hz h.2
          obtain ⟨F5, o5, k1, k2, k3, k4, k5, k6, k7⟩ := newPart_spec i4.ok sepNt [⟨"nl", [10]⟩] (m1 := m4.sepNode) rfl
          have ht5 : ∀ n < m4.size, ∀ p, n ∉ F4 p → n ∉ F5 p := fun n hn p hnp hp => by
            rcases k4 p _ hp with h | h
            · exact hnp h
            · omega
          obtain ⟨i5, d5⟩ := i4.loose o5 (by omega) k2 k3 fun p => ht5 _ i4.lt p (i4.top p)
          have hlt : x < m4.size := i4.ok.lt hxr
          have ec : F5 c.root = A ++ [x] := by rw [k3 _ i4.lt, he]
          have hx5 : (m4.sepNode.heap x).isNode = true := (congrArg Label.isNode (k2 x hlt)).trans hx
          have hfs : ∀ p, m4.size ∉ F5 p := fun p hp => by
            rcases k4 p _ hp with h | h
            · have := i4.ok.lt h; omega
            · omega
          have hxsep : x ≠ m4.size := by omega
          have hrsep : c.root ≠ m4.size := by have := i4.lt; omega
          have o6 := addChild_ok o5 (p := x) (el := m4.size) ⟨k1, hfs, fun h => by simp [k7] at h⟩ hx5 (by omega) (a := F5 x) (b := []) (by simp)
            (not_within_up o5 (p := c.root) (by simp [ec]) hxsep (not_within_top i5.top hrsep))
          have hsame6 := same_addChild m4.sepNode.heap x (some m4.size) none
          obtain ⟨i6, d6⟩ := i5.close ec hx5 hsame6 o6 hfs hrsep.symm hxsep.symm k5 k6
          have hlab6 : ∀ n < m4.size, labels (addChild m4.sepNode.heap x (some m4.size) none) n = labels m4.heap n := fun n hn =>
            (congrFun (same_labels hsame6) n).trans (k2 n hn)
          have hne0 : m.size ≠ x := fun h => hfree c.root (h ▸ hxr)
          have h1m : m.size + 1 ∈ F4 m.size := by simp [hk]
          have hne1 : m.size + 1 ≠ x := fun h => hroot (i4.ok.rep.unique_parent h1m (h ▸ hxr))
          have hlt1 := i4.ok.lt h1m
          have hF0 : put F5 x (F5 x ++ [m4.size]) m.size = F4 m.size := by rw [put_ne _ _ hne0, k3 _ hsz]
          have hF1 : put F5 x (F5 x ++ [m4.size]) (m.size + 1) = F4 (m.size + 1) := by rw [put_ne _ _ hne1, k3 _ hlt1]
          refine finish _ _ i6 (by simp only; omega) (fun p hp => ?_) ((congrArg Label.isNode (hlab6 m.size hsz)).trans hn)
            ((congrArg (fun l => l.tok.type) (hlab6 m.size hsz)).trans hty) ?_ ?_ ?_
          · by_cases hpx : p = x
            · subst hpx
              rw [put_self] at hp
              rcases List.mem_append.1 hp with hp | hp
              · exact ht5 _ hsz _ (hfree _) hp
              · have := List.mem_singleton.1 hp; omega
            · rw [put_ne _ _ hpx] at hp
              exact ht5 _ hsz _ (hfree _) hp
          · rw [hF0, ← hps]
            refine List.map_congr_left fun y hy => ?_
            rw [hk] at hy
            obtain rfl := List.mem_singleton.1 hy
            exact part_congr (hlab6 _ hlt1) hF1 fun z hz => hlab6 _ (i4.ok.lt hz)
          · intro y hy z hz
            rw [hF0, hk] at hy
            obtain rfl := List.mem_singleton.1 hy
            rw [hF1] at hz
            exact (congrArg Label.isNode (hlab6 z (i4.ok.lt hz))).trans (htok z hz)
          · rw [d6, hd0, mapLast_append, hit]
            simp only [Item.close, List.getLast?_map, hl, Option.map_some, Option.any_some, hzn, Bool.false_eq_true, if_false]
            have hpart5 : ∀ p, ∀ y ∈ F4 p, partAt (labels m4.sepNode.heap) F5 y = partAt (labels m4.heap) F4 y := fun p y hy =>
              part_congr (k2 _ (i4.ok.lt hy)) (k3 _ (i4.ok.lt hy)) fun z hz => k2 _ (i4.ok.lt hz)
            congr 1
            · refine List.map_congr_left fun y hy => ?_
              have hy' : y ∈ F4 c.root := by simp [he, hy]
              exact item_congr (k2 _ (i4.ok.lt hy')) (k3 _ (i4.ok.lt hy')) (hpart5 y)
            · rw [k3 _ hlt, show (m4.sepNode.heap x).typeName = (m4.heap x).typeName from congrArg (fun l => l.tok.type) (k2 x hlt),
                List.map_congr_left (hpart5 x)]

theorem no_nodes {h : Heap} {F : Forest} {l : List Nat} (hl : ∀ y ∈ l, (h y).isNode = false) : (l.map (itemAt (labels h) F)).all (!·.isNode) := by
  simp only [List.all_map, List.all_eq_true]
  intro y hy
  have : itemAt (labels h) F y = .token (labels h y).tok := by simp [itemAt, show (labels h y).isNode = false from hl y hy]
  simp [this, Item.isNode]

theorem addDefault_spec {trim : Bytes → Bytes} {m : Mem} {F : Forest} {c : Conf} (i : Inv trim m F c) (hs : c.sections [] = none) :
    ∃ m', Ev (fun fuel => addDefault fuel m c.root) m' ∧ Adds trim m F c [] m' m.size := by
  have o1 := new_ok i.ok (unlinked_node defSectionNt)
  have hl1 := newNode_labels m defSectionNt
  generalize hm1 : m.new (newNodeElement defSectionNt none) = m1 at *
  have hsz : m1.size = m.size + 1 := by rw [← hm1]; rfl
  have hself : labels m1.heap m.size = ⟨true, "def-section", []⟩ := by rw [hl1]; simp [upd, defSectionNt]
  have hroot : m.size ≠ c.root := by have := i.lt; omega
  have hfree : ∀ p, m.size ∉ F p := fun p => i.ok.free _ p (Nat.le_refl _)
  obtain ⟨i1, d1⟩ := i.loose o1 (by omega) (fun n hn => by rw [hl1]; simp [upd]; omega) (fun _ _ => rfl) i.top
  -- after all items
  have atEnd : (∀ y ∈ F c.root, (m1.heap y).isNode = false) →
      Adds trim m F c [] { m1 with heap := addChild m1.heap c.root (some m.size) none } m.size := fun hno => by
    have hn : (m1.heap m.size).isNode = true := congrArg Label.isNode hself
    have o2 := addChild_ok i1.ok (p := c.root) (el := m.size) ⟨by omega, hfree, fun h => by simp [hn] at h⟩ i1.flat.1 i1.lt (a := F c.root) (b := []) (by simp)
      (not_within_top i1.top hroot.symm)
    have hk : F m.size = [] := i.ok.kids _ (Nat.le_refl _)
    obtain ⟨g1, g2, g3⟩ := default_good [] (.inl rfl)
    refine attach_adds (B := []) (ps := []) i1 o2 (same_addChild ..) (by simp) hfree hroot hn (congrArg (fun l => l.tok.type) hself) (by rw [hk]; rfl) g1 g2 g3
      (by simp [hk]) hs ?_
    have h9 : (F c.root).map (itemAt (labels m1.heap) F) = docAt (labels m.heap) F c.root := d1
    rw [h9]
    refine .default _ rfl ?_
    rw [← h9]
    exact no_nodes hno
  simp only [addDefault, hm1]
  rw [i1.ok.rep.last c.root i1.flat.1]
  cases hlast : (F c.root).getLast? with
  | none =>
    refine ⟨_, ⟨0, fun _ _ => rfl⟩, atEnd ?_⟩
    rw [List.getLast?_eq_none_iff.1 hlast]
    simp
  | some z =>
    have hzm : z ∈ F c.root := List.mem_of_getLast? hlast
    have hzt : (m1.heap z).typeName ≠ defSectionNt := fun h => by
      have hg := i1.item_good hzm
      cases hz : (m1.heap z).isNode with
      | false =>
        have : itemAt (labels m1.heap) F z = .token (labels m1.heap z).tok := by simp [itemAt, show (labels m1.heap z).isNode = false from hz]
        rw [this] at hg
        exact hg h
      | true =>
        obtain ⟨sec, h1, -⟩ := i1.index.all [] z ⟨hzm, by
          rw [itemAt_node (by exact hz), show (labels m1.heap z).tok.type = "def-section" from h]
          simp [Item.name]⟩
        rw [hs] at h1
        simp at h1
    simp only [hzt, ne_eq, not_false_eq_true, if_true]
    obtain ⟨N, hN⟩ := firstNode_spec o1 c.root (F c.root) [] rfl
    rw [i1.ok.rep.first c.root i1.flat.1]
    cases hf : (F c.root).find? fun x => (m1.heap x).isNode with
    | none =>
      refine ⟨_, ⟨N, fun fuel hfu => ?_⟩, atEnd ?_⟩
      · have := hN fuel hfu
        dsimp only at this ⊢
        rw [this, hf]
        rfl
      · rw [List.find?_eq_none] at hf
        intro y hy
        simpa using hf y hy
    | some x =>
      obtain ⟨hx, A, B, e, hA⟩ := List.find?_eq_some_iff_append.1 hf
      have hxm : x ∈ F c.root := by simp [e]
      obtain ⟨F2, o2, k1, k2, k3, k4, k5, k6, k7⟩ := newPart_spec o1 sepNt [⟨"nl", [10]⟩] (m1 := m1.sepNode) rfl
      generalize m1.sepNode = m2 at *
      have hin2 : ∀ n < m1.size, ∀ p, n ∉ F p → n ∉ F2 p := fun n hn p hnp hp => by
        rcases k4 p _ hp with h | h
        · exact hnp h
        · omega
      have hfs : ∀ p, m1.size ∉ F2 p := fun p hp => by
        rcases k4 p _ hp with h | h
        · have := o1.lt h; omega
        · omega
      have hn2 : (m2.heap m.size).isNode = true := (congrArg Label.isNode (k2 m.size (by omega))).trans (congrArg Label.isNode hself)
      have hk2 : F2 m.size = [] := by rw [k3 _ (by omega)]; exact i.ok.kids _ (Nat.le_refl _)
      have o3 := addChild_ok o2 (p := m.size) (el := m1.size) ⟨k1, hfs, fun h => by simp [k7] at h⟩ hn2 (by omega) (a := []) (b := []) hk2
        (not_within_top (fun p => hin2 _ (by omega) p (hfree p)) (by omega))
      have hsame3 := same_addChild m2.heap m.size (some m1.size) none
      simp only [List.head?_nil, List.nil_append] at o3
      have hmem3 : ∀ p y, y < m1.size → y ∉ F p → y ∉ put F2 m.size [m1.size] p := fun p y hy hyp h => by
        by_cases hp : p = m.size
        · subst hp
          rw [put_self] at h
          have := List.mem_singleton.1 h; omega
        · rw [put_ne _ _ hp] at h
          exact hin2 _ hy _ hyp h
      have hlab3 : ∀ n < m1.size, labels (addChild m2.heap m.size (some m1.size) none) n = labels m1.heap n := fun n hn =>
        (congrFun (same_labels hsame3) n).trans (k2 n hn)
      have hF3 : ∀ n < m1.size, n ≠ m.size → put F2 m.size [m1.size] n = F n := fun n hn hne => by rw [put_ne _ _ hne, k3 _ hn]
      obtain ⟨i3, d3⟩ := i.loose (F' := put F2 m.size [m1.size]) o3 (by simp only; omega)
        (fun n hn => by rw [hlab3 n (by omega), hl1]; simp [upd]; omega) (fun n hn => hF3 n (by omega) (by omega))
        (fun p => hmem3 _ _ (by have := i.lt; omega) (i.top p))
      have e3 : put F2 m.size [m1.size] c.root = A ++ x :: B := by rw [hF3 _ (by have := i.lt; omega) hroot.symm, e]
      have hfree3 : ∀ p, m.size ∉ put F2 m.size [m1.size] p := fun p => hmem3 _ _ (by omega) (hfree p)
      have hn3 : (addChild m2.heap m.size (some m1.size) none m.size).isNode = true := by rw [(hsame3.same _).1]; exact hn2
      have o4 := prependSibling_ok o3 (el := m.size) ⟨by simp only; omega, hfree3, fun h => by simp only [hn3] at h; simp at h⟩ e3
        (not_within_up o3 (p := c.root) (by simp [e3]) (by have := i.ok.lt hxm; omega) (not_within_top i3.top hroot.symm))
      refine ⟨{ m2 with heap := prependSibling (addChild m2.heap m.size (some m1.size) none) (some x) (some m.size) }, ⟨N, fun fuel hfu => ?_⟩, ?_⟩
      rotate_left
      · obtain ⟨g1, g2, g3⟩ := default_good [sepPart] (.inr rfl)
        have hsep3 : partAt (labels (addChild m2.heap m.size (some m1.size) none)) (put F2 m.size [m1.size]) m1.size = sepPart :=
          (part_congr (congrFun (same_labels hsame3) _) (put_ne _ _ (by omega)) fun y _ => congrFun (same_labels hsame3) y).trans k5
        refine attach_adds (A := A) (B := x :: B) (ps := [sepPart]) i3 o4 ?_ e3 hfree3 hroot hn3 ?_ ?_ g1 g2 g3 ?_ hs ?_
        · exact same_prependSibling o3.rep (p := c.root) (by simp [e3]) (by have := i.ok.lt hxm; omega)
        · exact congrArg (fun l => l.tok.type) ((hlab3 m.size (by omega)).trans hself)
        · rw [put_self, List.map_singleton, hsep3]
        · intro y hy z hz
          rw [put_self] at hy
          obtain rfl := List.mem_singleton.1 hy
          rw [put_ne _ _ (by omega)] at hz
          simp only [(hsame3.same z).1]
          exact k6 z hz
        · have h9 : A.map (itemAt (labels (addChild m2.heap m.size (some m1.size) none)) (put F2 m.size [m1.size])) ++
              itemAt (labels (addChild m2.heap m.size (some m1.size) none)) (put F2 m.size [m1.size]) x ::
              B.map (itemAt (labels (addChild m2.heap m.size (some m1.size) none)) (put F2 m.size [m1.size])) = docAt (labels m.heap) F c.root := by
            rw [← d3]; simp [docAt, e3]
          rw [← h9, List.map_cons]
          refine .first _ _ _ rfl (no_nodes fun y hy => ?_) ?_
          · have hy' : y ∈ F c.root := by simp [e, hy]
            refine (congrArg Label.isNode (hlab3 y (by have := i.ok.lt hy'; omega))).trans ?_
            have : (m1.heap y).isNode = false := by simpa using hA y hy
            exact this
          · rw [itemAt_node ((congrArg Label.isNode (hlab3 x (by have := i.ok.lt hxm; omega))).trans hx)]
            rfl
      · have := hN fuel hfu
        dsimp only at this ⊢
        rw [this, hf]
        rfl

/-- Adding of a section that does not exist. -/
theorem addSection_spec {trim : Bytes → Bytes} {m : Mem} {F : Forest} {c : Conf} (i : Inv trim m F c) {s : Bytes} (hs : c.sections s = none) :
    (s ≠ [] ∧ ∃ a ty, docAt (labels m.heap) F c.root = a ++ [.node ty []]) ∧ (∀ fuel, addSection fuel m c s = .panic) ∨
      ∃ m', Adds trim m F c s m' m.size ∧ Ev (fun fuel => addSection fuel m c s) (m', ⟨c.root, setKey c.sections s (some ⟨[m.size], fun _ => none, false⟩), true⟩) := by
  have last : ∀ m', Adds trim m F c s m' m.size → Ev (fun fuel => addSectionNode fuel m'.heap { c with updated := true } m.size)
      (⟨c.root, setKey c.sections s (some ⟨[m.size], fun _ => none, false⟩), true⟩, s) := fun m' h => by
    obtain ⟨F', A, B, h1, h2, h3, h4, h5, -⟩ := h
    exact addSectionNode_spec h1 h2 h3 h4 h5 hs
  by_cases hne : s = []
  · subst hne
    right
    obtain ⟨m', ⟨N1, h1⟩, h2⟩ := addDefault_spec i hs
    obtain ⟨N2, h3⟩ := last m' h2
    refine ⟨m', h2, N1 + N2, fun fuel hf => ?_⟩
    have e1 := h1 fuel (by omega)
    have e2 := h3 fuel (by omega)
    dsimp only at e1 e2
    simp only [addSection, hs, if_true, e1, bindRun, e2]
  · rcases addNamed_spec i hs hne with ⟨h1, h2⟩ | ⟨m', h1, h2⟩
    · left
      refine ⟨⟨hne, h1⟩, fun fuel => ?_⟩
      simp only [addSection, hs, hne, if_false, h2, bindRun]
    · right
      obtain ⟨N2, h3⟩ := last m' h2
      refine ⟨m', h2, N2, fun fuel hf => ?_⟩
      have e2 := h3 fuel hf
      dsimp only at e2
      simp only [addSection, hs, hne, if_false, h1, bindRun, e2]

end Verif.Proof.ConfTree
