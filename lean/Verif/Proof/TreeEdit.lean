import Verif.Proof.Tree

namespace Verif.Model.Tree

open Verif.Spec Verif.Spec.Trees

theorem removeChild_fields {h : Heap} {n c : Nat} (hp : (h c).parent = some n) (h1 : (h c).prev ≠ some c)
    (h2 : (h c).next ≠ some c) (x : Nat) :
    let h' := removeChild h n (some c)
    (h' x).parent = (if x = c then none else (h x).parent) ∧
    (h' x).prev = (if (h c).next = some x then (h c).prev else if x = c then none else (h x).prev) ∧
    (h' x).next = (if (h c).prev = some x then (h c).next else if x = c then none else (h x).next) ∧
    (h' x).firstChild = (if x = n ∧ (h c).prev = none then (h c).next else (h x).firstChild) ∧
    (h' x).lastChild = (if x = n ∧ (h c).next = none then (h c).prev else (h x).lastChild) ∧
    (h' x).isNode = (h x).isNode := by
  intro h'
  simp only [h', removeChild, hp, ne_eq, not_true_eq_false, if_false]
  cases hpr : (h c).prev with
  | none =>
    cases hnx : (h c).next with
    | none => simp
    | some nx =>
      simp
      by_cases hx : nx = x
      · subst hx; simp
      · simp [hx, Ne.symm hx]
  | some pr =>
    cases hnx : (h c).next with
    | none =>
      simp
      by_cases hx : pr = x
      · subst hx; simp
      · simp [hx, Ne.symm hx]
    | some nx =>
      simp
      refine ⟨?_, ?_⟩
      · by_cases hx : nx = x
        · subst hx; simp
        · simp [hx, Ne.symm hx]
      · by_cases hx : pr = x
        · subst hx; simp
        · simp [hx, Ne.symm hx]

theorem filter_ne_self {l : List Nat} {el : Nat} (h : el ∉ l) : l.filter (· ≠ el) = l := by
  rw [List.filter_eq_self]
  intro x hx
  simp
  rintro rfl
  exact h hx

theorem filter_ne_append {a b : List Nat} {el : Nat} (hd : (a ++ el :: b).Nodup) :
    (a ++ el :: b).filter (· ≠ el) = a ++ b := by
  rw [List.nodup_append] at hd
  have ha : el ∉ a := fun h => hd.2.2 el h el (by simp) rfl
  have hb : el ∉ b := by have := hd.2.1; simp at this; exact this.1
  have h1 := filter_ne_self ha
  have h2 := filter_ne_self hb
  rw [List.filter_append, h1, List.filter_cons_of_neg (by simp), h2]

theorem detach_of_top {F : Forest} {el : Nat} (h : ∀ n, el ∉ F n) : Trees.detach F el = F := by
  funext n
  exact filter_ne_self (h n)

theorem Rep.split {h : Heap} {F : Forest} (r : Rep h F) {n c : Nat} (hc : c ∈ F n) :
    ∃ a b, F n = a ++ c :: b ∧ (h c).prev = a.getLast? ∧ (h c).next = b.head? ∧ c ∉ a ∧ c ∉ b := by
  obtain ⟨a, b, e⟩ := List.append_of_mem hc
  have hd := r.nodup n
  rw [e, List.nodup_append] at hd
  obtain ⟨h1, h2⟩ := r.link n a c b e
  refine ⟨a, b, e, h1, h2, fun h => hd.2.2 c h c (by simp) rfl, ?_⟩
  have := hd.2.1
  simp at this
  exact this.1

theorem detach_rep {h : Heap} {F : Forest} (r : Rep h F) (el : Nat) :
    Rep (detach h (some el)) (Trees.detach F el) ∧ kinds (detach h (some el)) = kinds h ∧
      (detach h (some el) el).parent = none := by
  cases hp : (h el).parent with
  | none =>
    have htop : ∀ n, el ∉ F n := fun n hn => by
      have := (r.parent n el).2 hn
      rw [hp] at this
      simp at this
    have e : detach h (some el) = h := by simp [detach, hp]
    rw [detach_of_top htop, e]
    exact ⟨r, rfl, hp⟩
  | some p =>
    have hmem : el ∈ F p := (r.parent p el).1 hp
    obtain ⟨a, b, e, hpr, hnx, hca, hcb⟩ := r.split hmem
    have hnode := r.isNode hmem
    have hd := r.nodup p
    have hf := removeChild_fields hp (by rw [hpr]; exact getLast?_ne_of_not_mem hca)
      (by rw [hnx]; exact head?_ne_of_not_mem hcb)
    have e' : detach h (some el) = removeChild h p (some el) := by simp [detach, hp]
    rw [e']
    generalize removeChild h p (some el) = h' at hf
    have hFp : Trees.detach F el p = a ++ b := by
      simp only [Trees.detach]
      rw [e] at hd ⊢
      exact filter_ne_append hd
    have hFn : ∀ n, n ≠ p → Trees.detach F el n = F n := fun n hn =>
      filter_ne_self fun h => hn (r.unique_parent h hmem)
    have hsub : ∀ n, ∀ x ∈ Trees.detach F el n, x ∈ F n := fun n x hx => by
      simp only [Trees.detach, List.mem_filter] at hx
      exact hx.1
    refine ⟨⟨?_, ?_, ?_, ?_, ?_, ?_, ?_, ?_, ?_⟩, ?_, ?_⟩
    · intro n x
      rw [(hf x).1]
      by_cases hx : x = el
      · subst hx; simp [Trees.detach]
      · rw [if_neg hx, r.parent]
        simp [Trees.detach, hx]
    · intro n
      by_cases hn : n = p
      · subst hn
        rw [hFp]
        have hl := r.link n
        rw [e] at hd hl
        refine link_remove hl hd ?_ ?_
        · intro x hx
          have hxc : x ≠ el := by
            rintro rfl
            rcases List.mem_append.1 hx with hx | hx
            · exact hca hx
            · exact hcb hx
          rw [(hf x).2.1, if_neg hxc, hnx, hpr]
        · intro x hx
          have hxc : x ≠ el := by
            rintro rfl
            rcases List.mem_append.1 hx with hx | hx
            · exact hca hx
            · exact hcb hx
          rw [(hf x).2.2.1, if_neg hxc, hpr, hnx]
      · rw [hFn n hn]
        have hnot : ∀ x ∈ F n, x ∉ F p := fun x hx hx' => hn (r.unique_parent hx hx')
        refine link_congr (r.link n) ?_ ?_
        · intro x hx
          have hxp := hnot x hx
          rw [e] at hxp
          simp at hxp
          rw [(hf x).2.1, if_neg (by rw [hnx]; exact head?_ne_of_not_mem hxp.2.2), if_neg hxp.2.1]
        · intro x hx
          have hxp := hnot x hx
          rw [e] at hxp
          simp at hxp
          rw [(hf x).2.2.1, if_neg (by rw [hpr]; exact getLast?_ne_of_not_mem hxp.1), if_neg hxp.2.1]
    · intro n
      exact (r.nodup n).filter _
    · intro n hn
      rw [(hf n).2.2.2.2.2] at hn
      rw [(hf n).2.2.2.1]
      by_cases hnp : n = p
      · subst hnp
        rw [hFp, r.first n hn, e, hpr, hnx]
        cases a with
        | nil => simp
        | cons y a => simp
      · rw [if_neg (fun h => hnp h.1), hFn n hnp, r.first n hn]
    · intro n hn
      rw [(hf n).2.2.2.2.2] at hn
      rw [(hf n).2.2.2.2.1]
      by_cases hnp : n = p
      · subst hnp
        rw [hFp, r.last n hn, e, hpr, hnx]
        cases b with
        | nil => simp
        | cons y b =>
          simp [List.getLast?_append, List.getLast?_cons_cons]
      · rw [if_neg (fun h => hnp h.1), hFn n hnp, r.last n hn]
    · intro n hn
      rw [(hf n).2.2.2.2.2] at hn
      simp [Trees.detach, r.token n hn]
    · intro x hx
      rw [(hf x).1] at hx
      rw [(hf x).2.1, (hf x).2.2.1]
      by_cases hxc : x = el
      · subst hxc
        have q1 : (h x).next ≠ some x := by rw [hnx]; exact head?_ne_of_not_mem hcb
        have q2 : (h x).prev ≠ some x := by rw [hpr]; exact getLast?_ne_of_not_mem hca
        simp [q1, q2]
      · rw [if_neg hxc] at hx
        have hxp : x ∉ F p := fun h => by
          have := (r.parent p x).2 h
          rw [hx] at this
          simp at this
        rw [e] at hxp
        simp at hxp
        rw [if_neg (by rw [hnx]; exact head?_ne_of_not_mem hxp.2.2), if_neg hxc,
          if_neg (by rw [hpr]; exact getLast?_ne_of_not_mem hxp.1), if_neg hxc]
        exact r.alone x hx
    · exact (wf_sub hsub).1 r.down
    · exact (wf_sub hsub).2 r.up
    · funext n; exact (hf n).2.2.2.2.2
    · rw [(hf el).1]; simp

theorem addChild_fields {h : Heap} {F : Forest} (r : Rep h F) {n c : Nat} (hc : (h c).parent = none)
    (hn : (h n).isNode = true) {a b : List Nat} (e : F n = a ++ b) (x : Nat) :
    let h' := addChild h n (some c) b.head?
    (h' x).parent = (if x = c then some n else (h x).parent) ∧
    (h' x).prev = (if x = c then a.getLast? else if b.head? = some x then some c else (h x).prev) ∧
    (h' x).next = (if x = c then b.head? else if a.getLast? = some x then some c else (h x).next) ∧
    (h' x).firstChild = (if x = n ∧ a = [] then some c else (h x).firstChild) ∧
    (h' x).lastChild = (if x = n ∧ b = [] then some c else (h x).lastChild) ∧
    (h' x).isNode = (h x).isNode := by
  intro h'
  have hcF : c ∉ F n := fun hm => by
    have := (r.parent n c).2 hm
    rw [hc] at this
    simp at this
  rw [e] at hcF
  simp at hcF
  obtain ⟨ha1, ha2⟩ := r.alone c hc
  cases b with
  | nil =>
    have hlast := r.last n hn
    rw [e] at hlast
    simp only [List.append_nil] at hlast
    simp only [h', addChild, List.head?_nil, setParent_last]
    rw [hlast]
    cases hl : a.getLast? with
    | none =>
      have : a = [] := by simpa using hl
      subst this
      simp
      exact ⟨by rintro rfl; exact ha1, by rintro rfl; exact ha2⟩
    | some l =>
      have hane : a ≠ [] := by rintro rfl; simp at hl
      have hlc : l ≠ c := by
        rintro rfl
        exact hcF.1 (List.mem_of_getLast? hl)
      simp [hane]
      by_cases hx : x = c
      · subst hx; simp [Ne.symm hlc, ha2]
      · simp [hx]
        by_cases hx' : x = l
        · subst hx'; simp
        · simp [hx', Ne.symm hx']
  | cons y b =>
    have hy : y ∈ F n := by rw [e]; simp
    have hyp := (r.parent n y).2 hy
    obtain ⟨hyprev, _⟩ := r.link n a y b e
    simp only at hyprev
    have hyc : y ≠ c := by
      rintro rfl
      simp at hcF
    simp only [h', addChild, List.head?_cons, hyp, ne_eq, not_true_eq_false, if_false, setParent_prev, hyprev]
    cases hl : a.getLast? with
    | none =>
      have : a = [] := by simpa using hl
      subst this
      simp
      by_cases hx : x = c
      · subst hx; simp
      · simp [hx]
        by_cases hx' : x = y
        · subst hx'; simp
        · simp [hx', Ne.symm hx']
    | some l =>
      have hane : a ≠ [] := by rintro rfl; simp at hl
      have hlc : l ≠ c := by
        rintro rfl
        exact hcF.1 (List.mem_of_getLast? hl)
      simp [hane]
      by_cases hx : x = c
      · subst hx; simp [Ne.symm hlc]
      · simp [hx]
        refine ⟨?_, ?_⟩
        · by_cases hx' : x = y
          · subst hx'; simp
          · simp [hx', Ne.symm hx']
        · by_cases hx' : x = l
          · subst hx'; simp
          · simp [hx', Ne.symm hx']

/-- The forest with `c` put between `a` and `b` in the children of `n`. -/
def put (F : Forest) (n : Nat) (l : List Nat) : Forest := fun m => if m = n then l else F m

theorem addChild_rep {h : Heap} {F : Forest} (r : Rep h F) {n c : Nat} (hc : (h c).parent = none)
    (hn : (h n).isNode = true) {a b : List Nat} (e : F n = a ++ b) (hw : ¬ Within F c n) :
    Rep (addChild h n (some c) b.head?) (put F n (a ++ c :: b)) ∧
      kinds (addChild h n (some c) b.head?) = kinds h := by
  have hf := addChild_fields r hc hn e
  generalize addChild h n (some c) b.head? = h' at hf
  simp only at hf
  have hcn : ∀ m, c ∉ F m := fun m hm => by
    have := (r.parent m c).2 hm
    rw [hc] at this
    simp at this
  have hd : (a ++ c :: b).Nodup := by
    have h1 := r.nodup n
    have h2 := hcn n
    rw [e] at h1 h2
    simp at h2
    rw [List.nodup_append] at h1 ⊢
    refine ⟨h1.1, ?_, ?_⟩
    · simp [h1.2.1, h2.2]
    · intro x hx y hy
      rcases List.mem_cons.1 hy with rfl | hy
      · rintro rfl; exact h2.1 hx
      · exact h1.2.2 x hx y hy
  have hadd : ∀ m x, x ∈ put F n (a ++ c :: b) m → x ∈ F m ∨ (m = n ∧ x = c) := by
    intro m x hx
    unfold put at hx
    by_cases hm : m = n
    · subst hm
      rw [if_pos rfl] at hx
      rw [e]
      simp at hx ⊢
      rcases hx with hx | hx | hx
      · exact Or.inl (Or.inl hx)
      · exact Or.inr hx
      · exact Or.inl (Or.inr hx)
    · rw [if_neg hm] at hx
      exact Or.inl hx
  refine ⟨⟨?_, ?_, ?_, ?_, ?_, ?_, ?_, ?_, ?_⟩, ?_⟩
  · intro m x
    rw [(hf x).1]
    unfold put
    by_cases hx : x = c
    · subst hx
      rw [if_pos rfl]
      by_cases hm : m = n
      · subst hm; simp
      · simp [hm, hcn m, Ne.symm hm]
    · rw [if_neg hx, r.parent]
      by_cases hm : m = n
      · subst hm
        rw [if_pos rfl, e]
        simp [hx]
      · rw [if_neg hm]
  · intro m
    unfold put
    by_cases hm : m = n
    · subst hm
      rw [if_pos rfl]
      have hl := r.link m
      have h2 := hcn m
      rw [e] at hl h2
      refine link_insert hl hd ?_ ?_ ?_ ?_
      · rw [(hf c).2.1, if_pos rfl]
      · rw [(hf c).2.2.1, if_pos rfl]
      · intro x hx
        rw [(hf x).2.1, if_neg (by rintro rfl; exact h2 hx)]
      · intro x hx
        rw [(hf x).2.2.1, if_neg (by rintro rfl; exact h2 hx)]
    · rw [if_neg hm]
      have hnot : ∀ x ∈ F m, x ∉ F n := fun x hx hx' => hm (r.unique_parent hx hx')
      refine link_congr (r.link m) ?_ ?_
      · intro x hx
        have hxn := hnot x hx
        rw [e] at hxn
        simp at hxn
        rw [(hf x).2.1, if_neg (by rintro rfl; exact hcn m hx), if_neg (head?_ne_of_not_mem hxn.2)]
      · intro x hx
        have hxn := hnot x hx
        rw [e] at hxn
        simp at hxn
        rw [(hf x).2.2.1, if_neg (by rintro rfl; exact hcn m hx), if_neg (getLast?_ne_of_not_mem hxn.1)]
  · intro m
    unfold put
    by_cases hm : m = n
    · rw [if_pos hm]; exact hd
    · rw [if_neg hm]; exact r.nodup m
  · intro m hm
    rw [(hf m).2.2.2.2.2] at hm
    rw [(hf m).2.2.2.1]
    unfold put
    by_cases hmn : m = n
    · subst hmn
      rw [if_pos rfl, r.first m hm, e]
      cases a <;> simp
    · rw [if_neg (fun h => hmn h.1), if_neg hmn, r.first m hm]
  · intro m hm
    rw [(hf m).2.2.2.2.2] at hm
    rw [(hf m).2.2.2.2.1]
    unfold put
    by_cases hmn : m = n
    · subst hmn
      rw [if_pos rfl, r.last m hm, e]
      cases b with
      | nil => simp
      | cons y b => simp [List.getLast?_append, List.getLast?_cons_cons]
    · rw [if_neg (fun h => hmn h.1), if_neg hmn, r.last m hm]
  · intro m hm
    rw [(hf m).2.2.2.2.2] at hm
    unfold put
    rw [if_neg (by rintro rfl; rw [hn] at hm; simp at hm)]
    exact r.token m hm
  · intro x hx
    rw [(hf x).1] at hx
    by_cases hxc : x = c
    · rw [if_pos hxc] at hx; simp at hx
    · rw [if_neg hxc] at hx
      have hxn : x ∉ F n := fun h => by
        have := (r.parent n x).2 h
        rw [hx] at this
        simp at this
      rw [e] at hxn
      simp at hxn
      rw [(hf x).2.1, (hf x).2.2.1, if_neg hxc, if_neg hxc, if_neg (head?_ne_of_not_mem hxn.2),
        if_neg (getLast?_ne_of_not_mem hxn.1)]
      exact r.alone x hx
  · exact wf_down_add r.down hadd hw
  · exact wf_up_add r.up hadd hw
  · funext m; exact (hf m).2.2.2.2.2

theorem within_detach {F : Forest} {el a x : Nat} (h : Within (Trees.detach F el) a x) : Within F a x := by
  induction h with
  | refl => exact .refl
  | tail _ hx ih =>
    refine ih.tail ?_
    simp only [Trees.detach, List.mem_filter] at hx
    exact hx.1

theorem appendChild_rep {h : Heap} {F : Forest} (r : Rep h F) {p el : Nat} (hn : (h p).isNode = true)
    (hw : ¬ Within F el p) :
    Rep (appendChild h (some p) (some el)) (Trees.appendChild F p el) ∧
      kinds (appendChild h (some p) (some el)) = kinds h := by
  obtain ⟨r1, k1, hp⟩ := detach_rep r el
  have hn1 : (detach h (some el) p).isNode = true := by rw [← hn]; exact congrFun k1 p
  obtain ⟨r2, k2⟩ := addChild_rep r1 hp hn1 (a := Trees.detach F el p) (b := []) (by simp)
    (fun h => hw (within_detach h))
  have e : put (Trees.detach F el) p (Trees.detach F el p ++ [el]) = Trees.appendChild F p el := by
    funext n
    simp only [put, Trees.appendChild]
    by_cases h : n = p
    · subst h; rfl
    · rw [if_neg h, if_neg h]
  rw [e] at r2
  exact ⟨r2, k2.trans k1⟩

theorem after_eq {x el : Nat} {a b : List Nat} (h : x ∉ a) : after x el (a ++ x :: b) = a ++ x :: el :: b := by
  induction a with
  | nil => simp [after]
  | cons y a ih =>
    simp at h
    simp [after, Ne.symm h.1, ih h.2]

theorem after_of_not_mem {x el : Nat} {a : List Nat} (h : x ∉ a) : after x el a = a := by
  induction a with
  | nil => simp [after]
  | cons y a ih =>
    simp at h
    simp [after, Ne.symm h.1, ih h.2]

theorem before_eq {x el : Nat} {a b : List Nat} (h : x ∉ a) : before x el (a ++ x :: b) = a ++ el :: x :: b := by
  induction a with
  | nil => simp [before]
  | cons y a ih =>
    simp at h
    simp [before, Ne.symm h.1, ih h.2]

theorem before_of_not_mem {x el : Nat} {a : List Nat} (h : x ∉ a) : before x el a = a := by
  induction a with
  | nil => simp [before]
  | cons y a ih =>
    simp at h
    simp [before, Ne.symm h.1, ih h.2]

theorem not_within_parent {F : Forest} {el p x : Nat} (hx : x ∈ F p) (hw : ¬ Within F el x) : ¬ Within F el p :=
  fun h => hw (h.tail hx)

theorem appendSibling_rep {h : Heap} {F : Forest} (r : Rep h F) {p x el : Nat} (hx : x ∈ F p)
    (hw : ¬ Within F el x) :
    Rep (appendSibling h (some x) (some el)) (Trees.appendSibling F x el) ∧
      kinds (appendSibling h (some x) (some el)) = kinds h := by
  obtain ⟨r1, k1, hp⟩ := detach_rep r el
  have hne : x ≠ el := by rintro rfl; exact hw .refl
  have hx1 : x ∈ Trees.detach F el p := by simp [Trees.detach, hx, hne]
  obtain ⟨a, b, e, _, hnx, hxa, hxb⟩ := r1.split hx1
  obtain ⟨r2, k2⟩ := addChild_rep r1 hp (r1.isNode hx1) (a := a ++ [x]) (b := b) (by simp [e])
    (fun h => not_within_parent hx hw (within_detach h))
  have e1 : appendSibling h (some x) (some el) = addChild (detach h (some el)) p (some el) b.head? := by
    simp only [appendSibling, (r1.parent p x).2 hx1, hnx]
  have e2 : put (Trees.detach F el) p (a ++ [x] ++ el :: b) = Trees.appendSibling F x el := by
    funext n
    simp only [put, Trees.appendSibling]
    by_cases h : n = p
    · subst h; rw [if_pos rfl, e, after_eq hxa]; simp
    · rw [if_neg h, after_of_not_mem fun h' => h (r1.unique_parent h' hx1)]
  rw [e1]
  rw [e2] at r2
  exact ⟨r2, k2.trans k1⟩

theorem prependSibling_rep {h : Heap} {F : Forest} (r : Rep h F) {p x el : Nat} (hx : x ∈ F p)
    (hw : ¬ Within F el x) :
    Rep (prependSibling h (some x) (some el)) (Trees.prependSibling F x el) ∧
      kinds (prependSibling h (some x) (some el)) = kinds h := by
  obtain ⟨r1, k1, hp⟩ := detach_rep r el
  have hne : x ≠ el := by rintro rfl; exact hw .refl
  have hx1 : x ∈ Trees.detach F el p := by simp [Trees.detach, hx, hne]
  obtain ⟨a, b, e, _, _, hxa, hxb⟩ := r1.split hx1
  obtain ⟨r2, k2⟩ := addChild_rep r1 hp (r1.isNode hx1) (a := a) (b := x :: b) e
    (fun h => not_within_parent hx hw (within_detach h))
  have e1 : prependSibling h (some x) (some el) = addChild (detach h (some el)) p (some el) (some x) := by
    simp only [prependSibling, (r1.parent p x).2 hx1]
  have e2 : put (Trees.detach F el) p (a ++ el :: x :: b) = Trees.prependSibling F x el := by
    funext n
    simp only [put, Trees.prependSibling]
    by_cases h : n = p
    · subst h; rw [if_pos rfl, e, before_eq hxa]
    · rw [if_neg h, before_of_not_mem fun h' => h (r1.unique_parent h' hx1)]
  rw [e1]
  rw [e2] at r2
  exact ⟨r2, k2.trans k1⟩

theorem replace_rep {h : Heap} {F : Forest} (r : Rep h F) {p old n : Nat} (hold : old ∈ F p)
    (hw : n = old ∨ ¬ Within F n old) (hnx : (h old).next ≠ some n) :
    ∃ h', replace h (some old) (some n) = some h' ∧ Rep h' (Trees.replace F old n) ∧ kinds h' = kinds h := by
  obtain ⟨a, b, e, _, hnext, hca, hcb⟩ := r.split hold
  have hpar := (r.parent p old).2 hold
  have hnode := r.isNode hold
  obtain ⟨r1, k1, hp1⟩ := detach_rep r old
  have hd := r.nodup p
  rcases hw with rfl | hw
  · -- the same element is put back
    have e1 : detach (detach h (some n)) (some n) = detach h (some n) := by
      generalize detach h (some n) = g at hp1
      simp [detach, hp1]
    have eF : Trees.detach F n p = a ++ b := by
      simp only [Trees.detach]; rw [e] at hd ⊢; exact filter_ne_append hd
    have hn1 : (detach h (some n) p).isNode = true := by rw [← hnode]; exact congrFun k1 p
    obtain ⟨r2, k2⟩ := addChild_rep r1 hp1 hn1 eF (by
      intro hwn
      have : Within F n p := within_detach hwn
      have hcyc : Relation.TransGen (fun p c => c ∈ F p) n n := Relation.TransGen.tail' this hold
      exact (WellFounded.transGen r.up).asymmetric _ _ hcyc hcyc)
    refine ⟨_, ?_, ?_, k2.trans k1⟩
    · simp only [replace, hpar, e1, hnext]
    · have e2 : put (Trees.detach F n) p (a ++ n :: b) = Trees.replace F n n := by
        funext m
        simp only [put, Trees.replace, if_true]
        by_cases h : m = p
        · subst h; rw [if_pos rfl, e]
        · rw [if_neg h]; exact filter_ne_self fun h' => h (r.unique_parent h' hold)
      rw [← e2]
      exact r2
  · have hne : old ≠ n := by rintro rfl; exact hw .refl
    obtain ⟨r2, k2, hp2⟩ := detach_rep r1 n
    have eF : Trees.detach (Trees.detach F old) n p = a.filter (· ≠ n) ++ b.filter (· ≠ n) := by
      simp only [Trees.detach]
      rw [e] at hd ⊢
      rw [filter_ne_append hd, List.filter_append]
    have eh : (b.filter (· ≠ n)).head? = b.head? := by
      rw [hnext] at hnx
      cases b with
      | nil => rfl
      | cons y b =>
        simp at hnx
        simp [hnx]
    have hn2 : (detach (detach h (some old)) (some n) p).isNode = true := by
      rw [← hnode]; exact congrFun (k2.trans k1) p
    obtain ⟨r3, k3⟩ := addChild_rep r2 hp2 hn2 eF (fun hwn =>
      not_within_parent hold hw (within_detach (within_detach hwn)))
    refine ⟨_, ?_, ?_, (k3.trans k2).trans k1⟩
    · simp only [replace, hpar, hnext, eh]
    · rw [← eh] at *
      have e2 : put (Trees.detach (Trees.detach F old) n) p (a.filter (· ≠ n) ++ n :: b.filter (· ≠ n)) =
          Trees.replace F old n := by
        have hid : ∀ l : List Nat, old ∉ l → l.map (fun x => if x = old then n else x) = l := by
          intro l hl
          have : l.map (fun x => if x = old then n else x) = l.map id := by
            apply List.map_congr_left
            intro x hx
            simp
            rintro rfl
            exact absurd hx hl
          simpa using this
        funext m
        simp only [put, Trees.replace]
        rw [if_neg hne]
        by_cases h : m = p
        · subst h
          rw [if_pos rfl]
          simp only [Trees.detach]
          rw [e, List.filter_append, List.map_append, List.filter_cons_of_pos (by simpa using hne), List.map_cons,
            if_pos rfl, hid _ (fun h => hca (List.mem_filter.1 h).1), hid _ (fun h => hcb (List.mem_filter.1 h).1)]
        · have ho : old ∉ F m := fun h' => h (r.unique_parent h' hold)
          rw [if_neg h]
          have e3 : Trees.detach (Trees.detach F old) n m = Trees.detach F n m := by
            have : Trees.detach F old m = F m := filter_ne_self ho
            simp only [Trees.detach] at this ⊢
            rw [this]
          rw [e3]
          exact (hid _ fun h => ho (List.mem_filter.1 h).1).symm
      rw [← e2]
      exact r3

/-- When the replacement is the next sibling, both elements are dropped. -/
theorem replace_next {h : Heap} {F : Forest} (r : Rep h F) {p old n : Nat} (hold : old ∈ F p)
    (hnx : (h old).next = some n) :
    ∃ h', replace h (some old) (some n) = some h' ∧ Rep h' (Trees.detach (Trees.detach F old) n) ∧
      kinds h' = kinds h := by
  have hpar := (r.parent p old).2 hold
  obtain ⟨r1, k1, hp1⟩ := detach_rep r old
  obtain ⟨r2, k2, hp2⟩ := detach_rep r1 n
  refine ⟨_, ?_, r2, k2.trans k1⟩
  simp [replace, hpar, hnx, addChild, hp2]

theorem appendSibling_chain {h : Heap} {a b : List Nat} {x el : Nat}
    (hl : Link (fun x => (h x).prev) (fun x => (h x).next) (a ++ x :: b)) (hd : (a ++ x :: el :: b).Nodup)
    (hx : (h x).parent = none) (hel : (h el).parent = none) :
    let h' := appendSibling h (some x) (some el)
    Link (fun x => (h' x).prev) (fun x => (h' x).next) (a ++ x :: el :: b) ∧
      (∀ y, y ∉ a ++ x :: el :: b → h' y = h y) ∧ ∀ y, (h' y).parent = (h y).parent := by
  intro h'
  obtain ⟨_, hnx⟩ := hl a x b rfl
  simp only at hnx
  have hxel : x ≠ el := by
    rw [List.nodup_append] at hd
    have := hd.2.1
    simp at this
    exact this.1.1
  have hnb : b.head? ≠ some el := by
    apply head?_ne_of_not_mem
    rw [List.nodup_append] at hd
    have := hd.2.1
    simp at this
    exact this.2.1
  have hfld : ∀ y, (h' y).prev = (if y = el then some x else if b.head? = some y then some el else (h y).prev) ∧
      (h' y).next = (if y = el then b.head? else if x = y then some el else (h y).next) ∧
      (h' y).parent = (h y).parent ∧ (y ≠ x → y ≠ el → b.head? ≠ some y → h' y = h y) := by
    intro y
    simp only [h', appendSibling, detach, hel, hx, hnx]
    cases hb : b.head? with
    | none =>
      simp
      by_cases h1 : y = el
      · subst h1; simp [Ne.symm hxel]
      · by_cases h2 : y = x
        · subst h2; simp [h1]
        · simp [h1, h2, Ne.symm h2, Heap.setNext, Heap.setPrev, Heap.set]
    | some z =>
      rw [hb] at hnb
      simp at hnb
      simp
      by_cases h1 : y = el
      · subst h1; simp [Ne.symm hxel, Ne.symm hnb]
      · by_cases h2 : y = x
        · subst h2
          simp [h1]
          by_cases h3 : y = z
          · subst h3; simp
          · simp [h3, Ne.symm h3]
        · simp [h1, h2, Ne.symm h2]
          by_cases h3 : y = z
          · subst h3; simp
          · simp [h3, Ne.symm h3, Heap.setNext, Heap.setPrev, Heap.set, h1, h2]
  refine ⟨?_, ?_, fun y => (hfld y).2.2.1⟩
  · have hl' : Link (fun x => (h x).prev) (fun x => (h x).next) ((a ++ [x]) ++ b) := by simpa using hl
    have hd' : ((a ++ [x]) ++ el :: b).Nodup := by simpa using hd
    have := link_insert hl' hd' (pr' := fun x => (h' x).prev) (nx' := fun x => (h' x).next)
      (by simp [(hfld el).1]) (by simp [(hfld el).2.1]) ?_ ?_
    · simpa using this
    · intro y hy
      have hye : y ≠ el := by
        rintro rfl
        rw [List.nodup_append] at hd'
        rcases List.mem_append.1 hy with hy | hy
        · exact hd'.2.2 y hy y (by simp) rfl
        · have := hd'.2.1
          simp at this
          exact this.1 hy
      simp only [(hfld y).1, if_neg hye]
    · intro y hy
      have hye : y ≠ el := by
        rintro rfl
        rw [List.nodup_append] at hd'
        rcases List.mem_append.1 hy with hy | hy
        · exact hd'.2.2 y hy y (by simp) rfl
        · have := hd'.2.1
          simp at this
          exact this.1 hy
      simp only [(hfld y).2.1, if_neg hye]
      simp
  · intro y hy
    simp at hy
    exact (hfld y).2.2.2 hy.2.1 hy.2.2.1 (head?_ne_of_not_mem hy.2.2.2)

end Verif.Model.Tree
