/-
Changes of the index and of one section of the tree.
-/
import Verif.Proof.ConfIndex

namespace Verif.Proof.ConfTree

open Verif Verif.Model Verif.Model.Tree Verif.Model.ConfEdit Verif.Spec Verif.Spec.Conf Verif.Proof
open Verif.Spec.Trees (Forest Within)

section
variable {S S' : Bytes → Nat → Prop} {E E' : Bytes → Nat → Bytes → Nat → Prop} {V V' : ConfEdit.Entry → Prop} {secs : Bytes → Option Section}

theorem setKey_self {α : Type} (f : List Nat → Option α) (k : List Nat) (v : Option α) : setKey f k v k = v := by simp [setKey]

theorem setKey_ne {α : Type} (f : List Nat → Option α) {k n : List Nat} (v : Option α) (h : n ≠ k) : setKey f k v n = f n := by simp [setKey, h]

theorem index_value (i : Index S E V secs) {s e : Bytes} {sec : Section} {ent ent' : ConfEdit.Entry} (hs : secs s = some sec)
    (he : sec.entries e = some ent) (hn : ent'.node = ent.node) (hS : ∀ s σ, S' s σ ↔ S s σ) (hE : ∀ s σ e x, E' s σ e x ↔ E s σ e x)
    (hone : ∀ s σ e s' σ' e' x, E s σ e x → E s' σ' e' x → s = s' ∧ e = e') (hV' : V' ent')
    (hV : ∀ s σ e x, E s σ e x.node → x.node ≠ ent.node → V x → V' x) {b : Bool} :
    Index S' E' V' (setKey secs s (some { sec with entries := setKey sec.entries e (some ent'), updated := b })) := by
  obtain ⟨σ, hσ, hS0, hent⟩ := i.found s sec hs
  have hE0 := (hent e ent he).1
  refine ⟨?_, ?_, ?_⟩
  · intro s1 sec1 h1
    by_cases hk : s1 = s
    · subst hk
      rw [setKey_self, Option.some.injEq] at h1
      subst h1
      refine ⟨σ, hσ, (hS ..).2 hS0, ?_⟩
      intro e1 x hx
      simp only at hx
      by_cases hk2 : e1 = e
      · subst hk2
        rw [setKey_self, Option.some.injEq] at hx
        subst hx
        rw [hn]
        exact ⟨(hE ..).2 hE0, hV'⟩
      · rw [setKey_ne _ _ hk2] at hx
        obtain ⟨h2, h3⟩ := hent e1 x hx
        refine ⟨(hE ..).2 h2, hV _ _ _ _ h2 (fun e => hk2 ?_) h3⟩
        rw [e] at h2
        exact (hone _ _ _ _ _ _ _ h2 hE0).2
    · rw [setKey_ne _ _ hk] at h1
      obtain ⟨σ1, h2, h3, h4⟩ := i.found s1 sec1 h1
      refine ⟨σ1, h2, (hS ..).2 h3, fun e1 x hx => ?_⟩
      obtain ⟨h5, h6⟩ := h4 e1 x hx
      refine ⟨(hE ..).2 h5, hV _ _ _ _ h5 (fun e => hk ?_) h6⟩
      rw [e] at h5
      exact (hone _ _ _ _ _ _ _ h5 hE0).1
  · intro s1 σ1 h1
    obtain ⟨sec1, h2, h3⟩ := i.all s1 σ1 ((hS ..).1 h1)
    by_cases hk : s1 = s
    · subst hk
      rw [hs, Option.some.injEq] at h2
      subst h2
      exact ⟨_, setKey_self .., h3⟩
    · exact ⟨sec1, by rw [setKey_ne _ _ hk, h2], h3⟩
  · intro s1 σ1 e1 x sec1 h1 h2
    rw [hE] at h1
    by_cases hk : s1 = s
    · subst hk
      rw [setKey_self, Option.some.injEq] at h2
      subst h2
      obtain ⟨y, h3, h4⟩ := i.each s1 σ1 e1 x sec h1 hs
      by_cases hk2 : e1 = e
      · subst hk2
        rw [he, Option.some.injEq] at h3
        subst h3
        exact ⟨ent', setKey_self .., by rw [hn, h4]⟩
      · exact ⟨y, by simp only [setKey_ne _ _ hk2, h3], h4⟩
    · rw [setKey_ne _ _ hk] at h2
      exact i.each s1 σ1 e1 x sec1 h1 h2

theorem index_add (i : Index S E V secs) {s e : Bytes} {sec : Section} {σ : Nat} {ent' : ConfEdit.Entry} (hs : secs s = some sec) (hσ : sec.nodes = [σ])
    (he : sec.entries e = none) (hS : ∀ s σ, S' s σ ↔ S s σ)
    (hE : ∀ s1 σ1 e1 x, E' s1 σ1 e1 x ↔ E s1 σ1 e1 x ∨ s1 = s ∧ σ1 = σ ∧ e1 = e ∧ x = ent'.node) (hV' : V' ent')
    (hV : ∀ s σ e x, E s σ e x.node → V x → V' x) {b : Bool} :
    Index S' E' V' (setKey secs s (some { sec with entries := setKey sec.entries e (some ent'), updated := b })) := by
  obtain ⟨σ0, hσ0, hS0, hent⟩ := i.found s sec hs
  obtain rfl : σ0 = σ := by rw [hσ] at hσ0; simpa using hσ0.symm
  refine ⟨?_, ?_, ?_⟩
  · intro s1 sec1 h1
    by_cases hk : s1 = s
    · subst hk
      rw [setKey_self, Option.some.injEq] at h1
      subst h1
      refine ⟨σ0, hσ, (hS ..).2 hS0, ?_⟩
      intro e1 x hx
      simp only at hx
      by_cases hk2 : e1 = e
      · subst hk2
        rw [setKey_self, Option.some.injEq] at hx
        subst hx
        exact ⟨(hE ..).2 (.inr ⟨rfl, rfl, rfl, rfl⟩), hV'⟩
      · rw [setKey_ne _ _ hk2] at hx
        obtain ⟨h2, h3⟩ := hent e1 x hx
        exact ⟨(hE ..).2 (.inl h2), hV _ _ _ _ h2 h3⟩
    · rw [setKey_ne _ _ hk] at h1
      obtain ⟨σ1, h2, h3, h4⟩ := i.found s1 sec1 h1
      refine ⟨σ1, h2, (hS ..).2 h3, fun e1 x hx => ?_⟩
      obtain ⟨h5, h6⟩ := h4 e1 x hx
      exact ⟨(hE ..).2 (.inl h5), hV _ _ _ _ h5 h6⟩
  · intro s1 σ1 h1
    obtain ⟨sec1, h2, h3⟩ := i.all s1 σ1 ((hS ..).1 h1)
    by_cases hk : s1 = s
    · subst hk
      rw [hs, Option.some.injEq] at h2
      subst h2
      exact ⟨_, setKey_self .., h3⟩
    · exact ⟨sec1, by rw [setKey_ne _ _ hk, h2], h3⟩
  · intro s1 σ1 e1 x sec1 h1 h2
    rw [hE] at h1
    rcases h1 with h1 | ⟨rfl, rfl, rfl, rfl⟩
    · by_cases hk : s1 = s
      · subst hk
        rw [setKey_self, Option.some.injEq] at h2
        subst h2
        obtain ⟨y, h3, h4⟩ := i.each s1 σ1 e1 x sec h1 hs
        by_cases hk2 : e1 = e
        · subst hk2
          rw [he] at h3
          simp at h3
        · exact ⟨y, by simp only [setKey_ne _ _ hk2, h3], h4⟩
      · rw [setKey_ne _ _ hk] at h2
        exact i.each s1 σ1 e1 x sec1 h1 h2
    · rw [setKey_self, Option.some.injEq] at h2
      subst h2
      exact ⟨ent', setKey_self .., rfl⟩

theorem index_remove (i : Index S E V secs) {s e : Bytes} {sec : Section} {ent : ConfEdit.Entry} (hs : secs s = some sec) (he : sec.entries e = some ent)
    (hS : ∀ s σ, S' s σ ↔ S s σ) (hE : ∀ s1 σ1 e1 x, E' s1 σ1 e1 x ↔ E s1 σ1 e1 x ∧ x ≠ ent.node)
    (hone : ∀ s σ e s' σ' e' x, E s σ e x → E s' σ' e' x → s = s' ∧ e = e') (hV : ∀ s σ e x, E s σ e x.node → x.node ≠ ent.node → V x → V' x) {b : Bool} :
    Index S' E' V' (setKey secs s (some { sec with entries := setKey sec.entries e none, updated := b })) := by
  obtain ⟨σ, hσ, hS0, hent⟩ := i.found s sec hs
  have hE0 := (hent e ent he).1
  refine ⟨?_, ?_, ?_⟩
  · intro s1 sec1 h1
    by_cases hk : s1 = s
    · subst hk
      rw [setKey_self, Option.some.injEq] at h1
      subst h1
      refine ⟨σ, hσ, (hS ..).2 hS0, ?_⟩
      intro e1 x hx
      simp only at hx
      by_cases hk2 : e1 = e
      · subst hk2
        simp [setKey_self] at hx
      · rw [setKey_ne _ _ hk2] at hx
        obtain ⟨h2, h3⟩ := hent e1 x hx
        have hne : x.node ≠ ent.node := fun e => hk2 (by rw [e] at h2; exact (hone _ _ _ _ _ _ _ h2 hE0).2)
        exact ⟨(hE ..).2 ⟨h2, hne⟩, hV _ _ _ _ h2 hne h3⟩
    · rw [setKey_ne _ _ hk] at h1
      obtain ⟨σ1, h2, h3, h4⟩ := i.found s1 sec1 h1
      refine ⟨σ1, h2, (hS ..).2 h3, fun e1 x hx => ?_⟩
      obtain ⟨h5, h6⟩ := h4 e1 x hx
      have hne : x.node ≠ ent.node := fun e => hk (by rw [e] at h5; exact (hone _ _ _ _ _ _ _ h5 hE0).1)
      exact ⟨(hE ..).2 ⟨h5, hne⟩, hV _ _ _ _ h5 hne h6⟩
  · intro s1 σ1 h1
    obtain ⟨sec1, h2, h3⟩ := i.all s1 σ1 ((hS ..).1 h1)
    by_cases hk : s1 = s
    · subst hk
      rw [hs, Option.some.injEq] at h2
      subst h2
      exact ⟨_, setKey_self .., h3⟩
    · exact ⟨sec1, by rw [setKey_ne _ _ hk, h2], h3⟩
  · intro s1 σ1 e1 x sec1 h1 h2
    rw [hE] at h1
    by_cases hk : s1 = s
    · subst hk
      rw [setKey_self, Option.some.injEq] at h2
      subst h2
      obtain ⟨y, h3, h4⟩ := i.each s1 σ1 e1 x sec h1.1 hs
      by_cases hk2 : e1 = e
      · subst hk2
        rw [he, Option.some.injEq] at h3
        subst h3
        exact absurd h4.symm h1.2
      · exact ⟨y, by simp only [setKey_ne _ _ hk2, h3], h4⟩
    · rw [setKey_ne _ _ hk] at h2
      exact i.each s1 σ1 e1 x sec1 h1.1 h2

theorem index_section (i : Index S E V secs) {s : Bytes} {σ : Nat} {b : Bool} (hs : secs s = none)
    (hS : ∀ s1 σ1, S' s1 σ1 ↔ S s1 σ1 ∨ s1 = s ∧ σ1 = σ) (hE : ∀ s1 σ1 e1 x, E' s1 σ1 e1 x ↔ E s1 σ1 e1 x)
    (hES : ∀ s1 σ1 e1 x, E s1 σ1 e1 x → S s1 σ1) (hV : ∀ s σ e x, E s σ e x.node → V x → V' x) :
    Index S' E' V' (setKey secs s (some ⟨[σ], fun _ => none, b⟩)) := by
  have hno : ∀ σ1, ¬ S s σ1 := fun σ1 h => by
    obtain ⟨sec, h1, -⟩ := i.all s σ1 h
    simp [hs] at h1
  refine ⟨?_, ?_, ?_⟩
  · intro s1 sec1 h1
    by_cases hk : s1 = s
    · subst hk
      rw [setKey_self, Option.some.injEq] at h1
      subst h1
      exact ⟨σ, rfl, (hS ..).2 (.inr ⟨rfl, rfl⟩), fun e1 x hx => by simp at hx⟩
    · rw [setKey_ne _ _ hk] at h1
      obtain ⟨σ1, h2, h3, h4⟩ := i.found s1 sec1 h1
      refine ⟨σ1, h2, (hS ..).2 (.inl h3), fun e1 x hx => ?_⟩
      obtain ⟨h5, h6⟩ := h4 e1 x hx
      exact ⟨(hE ..).2 h5, hV _ _ _ _ h5 h6⟩
  · intro s1 σ1 h1
    rcases (hS ..).1 h1 with h1 | ⟨rfl, rfl⟩
    · obtain ⟨sec1, h2, h3⟩ := i.all s1 σ1 h1
      exact ⟨sec1, by rw [setKey_ne _ _ (by rintro rfl; exact hno _ h1), h2], h3⟩
    · exact ⟨_, setKey_self .., rfl⟩
  · intro s1 σ1 e1 x sec1 h1 h2
    rw [hE] at h1
    rw [setKey_ne _ _ (by rintro rfl; exact hno _ (hES _ _ _ _ h1))] at h2
    exact i.each s1 σ1 e1 x sec1 h1 h2

theorem index_drop (i : Index S E V secs) {s : Bytes} (hS : ∀ s1 σ1, S' s1 σ1 ↔ S s1 σ1 ∧ s1 ≠ s)
    (hE : ∀ s1 σ1 e1 x, E' s1 σ1 e1 x ↔ E s1 σ1 e1 x ∧ s1 ≠ s) (hV : ∀ s1 σ e x, E s1 σ e x.node → s1 ≠ s → V x → V' x) :
    Index S' E' V' (setKey secs s none) := by
  refine ⟨?_, ?_, ?_⟩
  · intro s1 sec1 h1
    by_cases hk : s1 = s
    · subst hk
      simp [setKey_self] at h1
    · rw [setKey_ne _ _ hk] at h1
      obtain ⟨σ1, h2, h3, h4⟩ := i.found s1 sec1 h1
      refine ⟨σ1, h2, (hS ..).2 ⟨h3, hk⟩, fun e1 x hx => ?_⟩
      obtain ⟨h5, h6⟩ := h4 e1 x hx
      exact ⟨(hE ..).2 ⟨h5, hk⟩, hV _ _ _ _ h5 hk h6⟩
  · intro s1 σ1 h1
    obtain ⟨h1, hk⟩ := (hS ..).1 h1
    obtain ⟨sec1, h2, h3⟩ := i.all s1 σ1 h1
    exact ⟨sec1, by rw [setKey_ne _ _ hk, h2], h3⟩
  · intro s1 σ1 e1 x sec1 h1 h2
    obtain ⟨h1, hk⟩ := (hE ..).1 h1
    rw [setKey_ne _ _ hk] at h2
    exact i.each s1 σ1 e1 x sec1 h1 h2

end

theorem ent_unique {m : Mem} {F : Forest} (o : Ok m F) {root : Nat} (s : Bytes) (σ : Nat) (e s' : Bytes) (σ' : Nat) (e' : Bytes) (x : Nat)
    (h1 : Ent m.heap F root s σ e x) (h2 : Ent m.heap F root s' σ' e' x) : s = s' ∧ e = e' := by
  obtain rfl := o.rep.unique_parent h1.2.1 h2.2.1
  have a := h1.1.2
  have b := h1.2.2
  rw [h2.1.2] at a
  rw [h2.2.2] at b
  exact ⟨(Option.some.inj a).symm, (Option.some.inj b).symm⟩

/-! One section changes -/

/-- Elements on their levels. -/
theorem Inv.levels {trim : Bytes → Bytes} {m : Mem} {F : Forest} {c : Conf} (i : Inv trim m F c) {σ σ' x : Nat} (h1 : σ ∈ F c.root) (h2 : σ' ∈ F c.root) :
    σ ≠ c.root ∧ σ' ∉ F σ ∧ c.root ∉ F σ ∧ (x ∈ F σ → x ≠ σ' ∧ x ≠ c.root ∧ (x ∈ F σ' → σ' = σ)) := by
  have h3 : σ ≠ c.root := fun e => i.top _ (e ▸ h1)
  have h4 : σ' ∉ F σ := fun h => h3 (i.ok.rep.unique_parent h h2)
  exact ⟨h3, h4, i.top _, fun hx => ⟨fun e => h4 (e ▸ hx), fun e => i.top _ (e ▸ hx), fun h => i.ok.rep.unique_parent h hx⟩⟩

theorem Inv.untouched {trim : Bytes → Bytes} {m : Mem} {F : Forest} {c : Conf} (i : Inv trim m F c) {σ : Nat} (hσ : σ ∈ F c.root) {lab' : Nat → Label} {F' : Forest}
    (hlab : ∀ n < m.size, lab' n = labels m.heap n) (hF : ∀ n < m.size, n ≠ σ → n ∉ F σ → F' n = F n) {σ' : Nat} (hσ' : σ' ∈ F c.root) (hne : σ' ≠ σ) :
    F' σ' = F σ' ∧ (∀ x ∈ F σ', F' x = F x ∧ partAt lab' F' x = partAt (labels m.heap) F x) ∧ itemAt lab' F' σ' = itemAt (labels m.heap) F σ' := by
  have h1 := i.levels (x := 0) hσ hσ'
  have hk : F' σ' = F σ' := hF _ (i.ok.lt hσ') hne h1.2.1
  have hp : ∀ x ∈ F σ', F' x = F x ∧ partAt lab' F' x = partAt (labels m.heap) F x := fun x hx => by
    have h2 := (i.levels (x := x) hσ' hσ).2.2.2 hx
    have hx' : F' x = F x := hF _ (i.ok.lt hx) h2.1 fun h => hne (h2.2.2 h).symm
    exact ⟨hx', part_congr (hlab _ (i.ok.lt hx)) hx' fun y hy => hlab _ (i.ok.lt hy)⟩
  exact ⟨hk, hp, item_congr (hlab _ (i.ok.lt hσ')) hk fun x hx => (hp x hx).2⟩

/-- Everything but the index after a change of one section. -/
theorem Inv.change {trim : Bytes → Bytes} {m m' : Mem} {F F' : Forest} {c : Conf} (i : Inv trim m F c) {s : Bytes} {σ : Nat} (hs : Sec m.heap F c.root s σ)
    (hle : m.size ≤ m'.size) (htop : ∀ p, c.root ∉ F' p)
    (hlab : ∀ n < m.size, labels m'.heap n = labels m.heap n) (hF : ∀ n < m.size, n ≠ σ → n ∉ F σ → F' n = F n)
    (hname : (itemAt (labels m'.heap) F' σ).name = some s) (hgood : (itemAt (labels m'.heap) F' σ).Good)
    (hflat : ∀ x ∈ F' σ, ∀ y ∈ F' x, (m'.heap y).isNode = false) :
    F' c.root = F c.root ∧ Flat m'.heap F' c.root ∧ c.root < m'.size ∧ (docAt (labels m'.heap) F' c.root).Good ∧
      (∀ s1 σ1, Sec m'.heap F' c.root s1 σ1 ↔ Sec m.heap F c.root s1 σ1) ∧
      (∀ s1 σ1 e1 x, σ1 ≠ σ → (Ent m'.heap F' c.root s1 σ1 e1 x ↔ Ent m.heap F c.root s1 σ1 e1 x)) ∧
      ∀ a b, F c.root = a ++ σ :: b → docAt (labels m.heap) F c.root = a.map (itemAt (labels m.heap) F) ++ itemAt (labels m.heap) F σ :: b.map (itemAt (labels m.heap) F) ∧
        docAt (labels m'.heap) F' c.root = a.map (itemAt (labels m.heap) F) ++ itemAt (labels m'.heap) F' σ :: b.map (itemAt (labels m.heap) F) := by
  have hl := i.levels (x := 0) hs.1 hs.1
  have hroot : F' c.root = F c.root := hF _ i.lt hl.1.symm hl.2.2.1
  have hun := fun {σ'} h1 h2 => i.untouched hs.1 hlab hF (σ' := σ') h1 h2
  have hnode : ∀ n < m.size, (m'.heap n).isNode = (m.heap n).isNode := fun n hn => congrArg Label.isNode (hlab n hn)
  have hS : ∀ s1 σ1, Sec m'.heap F' c.root s1 σ1 ↔ Sec m.heap F c.root s1 σ1 := by
    intro s1 σ1
    simp only [Sec, hroot]
    refine and_congr_right fun h1 => ?_
    by_cases hne : σ1 = σ
    · subst hne
      rw [hname, hs.2]
    · rw [(hun h1 hne).2.2]
  refine ⟨hroot, ⟨?_, ?_⟩, by have := i.lt; omega, ?_, hS, ?_, ?_⟩
  · rw [hnode _ i.lt]; exact i.flat.1
  · rw [hroot]
    intro σ1 h1
    by_cases hne : σ1 = σ
    · subst hne; exact hflat
    · obtain ⟨h2, h3, -⟩ := hun h1 hne
      rw [h2]
      intro x hx y hy
      rw [(h3 x hx).1] at hy
      rw [hnode _ (i.ok.lt hy)]
      exact i.flat.2 σ1 h1 x hx y hy
  · intro it hit
    simp only [docAt, hroot, List.mem_map] at hit
    obtain ⟨σ1, h1, rfl⟩ := hit
    by_cases hne : σ1 = σ
    · subst hne; exact hgood
    · rw [(hun h1 hne).2.2]
      exact i.item_good h1
  · intro s1 σ1 e1 x hne
    simp only [Ent, hS]
    refine and_congr_right fun h1 => ?_
    obtain ⟨h2, h3, -⟩ := hun h1.1 hne
    rw [h2]
    refine and_congr_right fun h4 => ?_
    rw [(h3 x h4).2]
  · intro a b e
    have hnd := i.ok.nodup e
    refine ⟨by simp [docAt, e], ?_⟩
    simp only [docAt, hroot, e, List.map_append, List.map_cons]
    congr 1
    · exact List.map_congr_left fun y hy => (hun (by simp [e, hy]) (by rintro rfl; exact hnd.1 hy)).2.2
    · congr 1
      exact List.map_congr_left fun y hy => (hun (by simp [e, hy]) (by rintro rfl; exact hnd.2 hy)).2.2

theorem val_congr {trim : Bytes → Bytes} {h h' : Heap} {F F' : Forest} {ent : ConfEdit.Entry} (h1 : F' ent.node = F ent.node)
    (h2 : ∀ y ∈ F ent.node, labels h' y = labels h y) (hv : Val trim h F ent) : Val trim h' F' ent := by
  unfold Val at hv ⊢
  split at hv
  · rw [h1]
    exact ⟨fun y hy => by rw [h2 y hy]; exact hv.1 y hy, hv.2⟩
  · rw [h1, h2 _ hv.1]
    exact hv

end Verif.Proof.ConfTree
