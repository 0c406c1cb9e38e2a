/-
Reachability and recursion checks on nodes.
-/
import Verif.Model.NodeGraph
import Mathlib.Logic.Relation
import Mathlib.Algebra.Order.BigOperators.Group.Finset

namespace Verif.Model

open Relation

/-- Node `j` is mentioned in the definition of node `i`. -/
def Mentions (deps : Nat → Finset Nat) (i j : Nat) : Prop := j ∈ deps i

theorem reachLoop_done {deps : Nat → Finset Nat} {n : Nat} (fuel : Nat) {q : List Nat} {un : Finset Nat}
    (hun : un ⊆ Finset.range n)
    (hq : ∀ i ∈ q, ReflTransGen (Mentions deps) 0 i)
    (hr : ∀ i < n, i ∉ un → ReflTransGen (Mentions deps) 0 i)
    (hcl : ∀ i < n, i ∉ un → ∀ j ∈ deps i, j ∉ un ∨ j ∈ q)
    (h0 : 0 ∉ un ∨ 0 ∈ q)
    (hb : ∀ i < n, ∀ j ∈ deps i, j < n)
    (hf : q.length + ∑ i ∈ un, (deps i).card < fuel) :
    ∃ un', reachLoop deps fuel q un = .done un' ∧
      ∀ i, i ∈ un' ↔ i < n ∧ ¬ ReflTransGen (Mentions deps) 0 i := by
  induction fuel generalizing q un with
  | zero => omega
  | succ fuel ih =>
    cases q with
    | nil =>
      refine ⟨un, by rw [reachLoop], fun i => ⟨fun hi => ?_, fun ⟨hi, hn⟩ => ?_⟩⟩
      · have hin : i < n := by simpa using hun hi
        refine ⟨hin, fun hre => ?_⟩
        have key : ∀ x, ReflTransGen (Mentions deps) 0 x → x < n ∨ n = 0 → x ∉ un := by
          intro x hx
          induction hx with
          | refl => intro _; simpa using h0
          | tail hxy hyz ih' =>
            rename_i y z
            intro hz
            by_cases hyn : y < n
            · have hy := ih' (Or.inl hyn)
              simpa using hcl y hyn hy z hyz
            · intro hzu
              rcases hz with hz | hz
              · -- y is out of range, but reachable: every step from a node in range stays in range
                have : ∀ w, ReflTransGen (Mentions deps) 0 w → w < n := by
                  intro w hw
                  induction hw with
                  | refl => omega
                  | tail _ h2 ih2 => exact hb _ ih2 _ h2
                exact hyn (this y hxy)
              · subst hz
                have := hun hzu
                simp at this
        exact key i hre (Or.inl hin) hi
      · by_contra hc
        exact hn (hr i hi hc)
    | cons x q =>
      rw [reachLoop]
      by_cases hx : x ∈ un
      · rw [if_pos hx]
        have hxn : x < n := by simpa using hun hx
        have hxr := hq x (by simp)
        refine ih ((Finset.erase_subset _ _).trans hun) ?_ ?_ ?_ ?_ ?_
        · intro i hi
          rw [List.mem_append] at hi
          rcases hi with hi | hi
          · exact hq i (by simp [hi])
          · exact hxr.tail (show i ∈ deps x by simpa using hi)
        · intro i hi hiu
          by_cases hix : i = x
          · subst hix; exact hxr
          · exact hr i hi (fun hh => hiu (by simp [hh, hix]))
        · intro i hi hiu j hj
          by_cases hix : i = x
          · subst hix
            exact Or.inr (by simp [hj])
          · rcases hcl i hi (fun hh => hiu (by simp [hh, hix])) j hj with h1 | h1
            · exact Or.inl (fun hh => h1 (Finset.mem_of_mem_erase hh))
            · rw [List.mem_cons] at h1
              rcases h1 with rfl | h1
              · exact Or.inl (by simp)
              · exact Or.inr (by simp [h1])
        · rcases h0 with h1 | h1
          · exact Or.inl (fun hh => h1 (Finset.mem_of_mem_erase hh))
          · rw [List.mem_cons] at h1
            rcases h1 with rfl | h1
            · exact Or.inl (by simp)
            · exact Or.inr (by simp [h1])
        · have hsum : (deps x).card + ∑ i ∈ un.erase x, (deps i).card = ∑ i ∈ un, (deps i).card :=
            Finset.add_sum_erase un (fun i => (deps i).card) hx
          simp only [List.length_append, List.length_cons, length_sorted] at hf ⊢
          omega
      · rw [if_neg hx]
        refine ih hun (fun i hi => hq i (by simp [hi])) hr ?_ ?_ ?_
        · intro i hi hiu j hj
          rcases hcl i hi hiu j hj with h1 | h1
          · exact Or.inl h1
          · rw [List.mem_cons] at h1
            rcases h1 with rfl | h1
            · exact Or.inl hx
            · exact Or.inr h1
        · rcases h0 with h1 | h1
          · exact Or.inl h1
          · rw [List.mem_cons] at h1
            rcases h1 with rfl | h1
            · exact Or.inl hx
            · exact Or.inr h1
        · simp only [List.length_cons] at hf
          omega

/-! Recursion. -/

/-- An infinite chain of nested nodes starting at `i`. -/
def Endless (next : Nat → List Nat) (i : Nat) : Prop :=
  ∃ f : Nat → Nat, f 0 = i ∧ ∀ t, f (t + 1) ∈ next (f t)

theorem endless_cons {next : Nat → List Nat} {i j : Nat} (hj : j ∈ next i) (h : Endless next j) : Endless next i := by
  obtain ⟨f, h0, hs⟩ := h
  refine ⟨fun t => match t with | 0 => i | t + 1 => f t, rfl, fun t => ?_⟩
  cases t with
  | zero => simpa [h0] using hj
  | succ t => exact hs t

theorem endless_uncons {next : Nat → List Nat} {i : Nat} (h : Endless next i) : ∃ j ∈ next i, Endless next j := by
  obtain ⟨f, h0, hs⟩ := h
  exact ⟨f 1, by rw [← h0]; exact hs 0, fun t => f (t + 1), rfl, fun t => hs (t + 1)⟩

/-- A node that leads back to itself starts an infinite chain. -/
theorem endless_cycle {next : Nat → List Nat} {i : Nat} (h : TransGen (fun a b => b ∈ next a) i i) :
    Endless next i := by
  -- every node on the way leads back to `i`
  have step : ∀ x : {x // TransGen (fun a b => b ∈ next a) x i}, ∃ y : {y // TransGen (fun a b => b ∈ next a) y i},
      y.1 ∈ next x.1 := by
    rintro ⟨x, hx⟩
    rcases TransGen.head'_iff.mp hx with ⟨y, hxy, hyi⟩
    rcases ReflTransGen.cases_head hyi with rfl | ⟨z, hyz, hzi⟩
    · exact ⟨⟨y, h⟩, hxy⟩
    · exact ⟨⟨y, TransGen.head' hyz hzi⟩, hxy⟩
  choose g hg using step
  refine ⟨fun t => ((g^[t]) ⟨i, h⟩).1, rfl, fun t => ?_⟩
  show ((g^[t + 1]) ⟨i, h⟩).1 ∈ next ((g^[t]) ⟨i, h⟩).1
  rw [Function.iterate_succ_apply']
  exact hg _

theorem anyRun_true {f : Nat → Run Bool} {l : List Nat} (h : anyRun f l = .done true) : ∃ j ∈ l, f j = .done true := by
  induction l with
  | nil => simp [anyRun] at h
  | cons j js ih =>
    rw [anyRun] at h
    cases hj : f j with
    | panic => simp [hj] at h
    | timeout => simp [hj] at h
    | done b =>
      cases b with
      | true => exact ⟨j, by simp, hj⟩
      | false =>
        simp only [hj] at h
        obtain ⟨x, hx, hfx⟩ := ih h
        exact ⟨x, by simp [hx], hfx⟩

theorem anyRun_false {f : Nat → Run Bool} {l : List Nat} (h : anyRun f l = .done false) :
    ∀ j ∈ l, f j = .done false := by
  induction l with
  | nil => simp
  | cons j js ih =>
    rw [anyRun] at h
    cases hj : f j with
    | panic => simp [hj] at h
    | timeout => simp [hj] at h
    | done b =>
      cases b with
      | true => simp [hj] at h
      | false =>
        simp only [hj] at h
        intro x hx
        rw [List.mem_cons] at hx
        rcases hx with rfl | hx
        · exact hj
        · exact ih h x hx

theorem anyRun_done {f : Nat → Run Bool} {l : List Nat} (h : ∀ j ∈ l, ∃ b, f j = .done b) :
    ∃ b, anyRun f l = .done b := by
  induction l with
  | nil => exact ⟨false, rfl⟩
  | cons j js ih =>
    obtain ⟨b, hb⟩ := h j (by simp)
    obtain ⟨b', hb'⟩ := ih (fun x hx => h x (by simp [hx]))
    rw [anyRun, hb]
    cases b with
    | true => exact ⟨true, rfl⟩
    | false => exact ⟨b', hb'⟩

theorem ntIsRecursive_true {next : Nat → List Nat} (fuel : Nat) {i : Nat} {vis : Finset Nat}
    (hv : ∀ v ∈ vis, TransGen (fun a b => b ∈ next a) v i) (h : ntIsRecursive next fuel i vis = .done true) :
    Endless next i := by
  induction fuel generalizing i vis with
  | zero => simp [ntIsRecursive] at h
  | succ fuel ih =>
    rw [ntIsRecursive] at h
    obtain ⟨j, hj, hf⟩ := anyRun_true h
    by_cases hjv : j ∈ insert i vis
    · have : TransGen (fun a b => b ∈ next a) i i := by
        rw [Finset.mem_insert] at hjv
        rcases hjv with rfl | hjv
        · exact TransGen.single hj
        · exact TransGen.head hj (hv j hjv)
      exact endless_cycle this
    · rw [if_neg hjv] at hf
      refine endless_cons hj (ih (fun v hvv => ?_) hf)
      rw [Finset.mem_insert] at hvv
      rcases hvv with rfl | hvv
      · exact TransGen.single hj
      · exact (hv v hvv).tail hj

theorem ntIsRecursive_false {next : Nat → List Nat} (fuel : Nat) {i : Nat} {vis : Finset Nat}
    (h : ntIsRecursive next fuel i vis = .done false) : ¬ Endless next i := by
  induction fuel generalizing i vis with
  | zero => simp [ntIsRecursive] at h
  | succ fuel ih =>
    rw [ntIsRecursive] at h
    intro he
    obtain ⟨j, hj, hej⟩ := endless_uncons he
    have hf := anyRun_false h j hj
    by_cases hjv : j ∈ insert i vis
    · rw [if_pos hjv] at hf; simp at hf
    · rw [if_neg hjv] at hf
      exact ih hf hej

theorem ntIsRecursive_done {next : Nat → List Nat} {n : Nat} (hb : ∀ i < n, ∀ j ∈ next i, j < n) (fuel : Nat) {i : Nat}
    {vis : Finset Nat} (hvis : vis ⊆ Finset.range n) (hi : i < n) (hiv : i ∉ vis) (hf : n < fuel + vis.card) :
    ∃ b, ntIsRecursive next fuel i vis = .done b := by
  have hcard : vis.card ≤ n := by simpa using Finset.card_le_card hvis
  induction fuel generalizing i vis with
  | zero => omega
  | succ fuel ih =>
    rw [ntIsRecursive]
    refine anyRun_done (fun j hj => ?_)
    by_cases hjv : j ∈ insert i vis
    · exact ⟨true, by rw [if_pos hjv]⟩
    · simp only [if_neg hjv]
      have hsub : insert i vis ⊆ Finset.range n := Finset.insert_subset (by simpa using hi) hvis
      refine ih hsub (hb i hi j hj) hjv ?_ (by simpa using Finset.card_le_card hsub)
      rw [Finset.card_insert_of_notMem hiv]
      omega

theorem recursionLoop_done {next : Nat → List Nat} {n : Nat} (hb : ∀ i < n, ∀ j ∈ next i, j < n) {fuel : Nat}
    (hf : n < fuel) (is : List Nat) (his : ∀ i ∈ is, i < n) (acc : Finset Nat) :
    ∃ r, recursionLoop next fuel is acc = .done r ∧ ∀ i, i ∈ r ↔ i ∈ acc ∨ (i ∈ is ∧ Endless next i) := by
  induction is generalizing acc with
  | nil => exact ⟨acc, rfl, by simp⟩
  | cons x is ih =>
    obtain ⟨b, hx⟩ := ntIsRecursive_done hb fuel (vis := ∅) (by simp) (his x (by simp)) (by simp) (by simpa using hf)
    rw [recursionLoop, hx]
    obtain ⟨r, hr, hri⟩ := ih (fun i hi => his i (by simp [hi])) (if b then insert x acc else acc)
    refine ⟨r, hr, fun i => ?_⟩
    rw [hri]
    cases b with
    | true =>
      have := ntIsRecursive_true fuel (by simp) hx
      simp only [if_true, Finset.mem_insert, List.mem_cons]
      constructor
      · rintro ((rfl | h) | h)
        · exact Or.inr ⟨Or.inl rfl, this⟩
        · exact Or.inl h
        · exact Or.inr ⟨Or.inr h.1, h.2⟩
      · rintro (h | ⟨rfl | h, h'⟩)
        · exact Or.inl (Or.inr h)
        · exact Or.inl (Or.inl rfl)
        · exact Or.inr ⟨h, h'⟩
    | false =>
      have := ntIsRecursive_false fuel hx
      simp only [Bool.false_eq_true, if_false, List.mem_cons]
      constructor
      · rintro (h | h)
        · exact Or.inl h
        · exact Or.inr ⟨Or.inr h.1, h.2⟩
      · rintro (h | ⟨rfl | h, h'⟩)
        · exact Or.inl h
        · exact absurd h' this
        · exact Or.inr ⟨h, h'⟩

end Verif.Model
