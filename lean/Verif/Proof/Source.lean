import Verif.Model.Source
import Verif.Proof.Go
import Verif.Proof.Utf8
import Verif.Spec.Text

namespace Verif.Model.Source

open Verif.Spec.Text

/-! ### Line starts -/

/-- Offsets following newlines, `o` is the offset of the first byte. -/
def nls : List Nat → Nat → List Nat
  | [], _ => []
  | b :: t, o => if b = 10 then (o + 1) :: nls t (o + 1) else nls t (o + 1)

/-- Offsets of first bytes of all lines. -/
def startsOf (c : List Nat) : List Nat := 0 :: nls c 0

theorem nls_length (c : List Nat) (o : Nat) : (nls c o).length = c.count 10 := by
  induction c generalizing o with
  | nil => rfl
  | cons b t ih =>
    by_cases h : b = 10
    · simp [nls, h, ih]
    · simp [nls, h, ih]

theorem startsOf_length (c : List Nat) : (startsOf c).length = c.count 10 + 1 := by
  simp [startsOf, nls_length]

theorem nls_get (c : List Nat) (o j s : Nat) :
    (nls c o)[j]? = some s ↔
      o < s ∧ s ≤ o + c.length ∧ c[s - o - 1]? = some 10 ∧ (c.take (s - o)).count 10 = j + 1 := by
  induction c generalizing o j with
  | nil => simp [nls]
  | cons b t ih =>
    by_cases hs : s = o + 1
    · subst hs
      by_cases h : b = 10
      · subst h
        cases j with
        | zero => simp [nls]
        | succ j =>
          simp only [nls, if_true, List.getElem?_cons_succ, ih]
          simp
      · have := ih (o + 1) j
        simp only [nls, h, if_false, this]
        simp [h]
    · by_cases hlt : s ≤ o
      · have h1 : ¬ (o < s) := by omega
        have h2 : ¬ (o + 1 < s) := by omega
        by_cases h : b = 10
        · cases j with
          | zero => simp [nls, h, h1]; omega
          | succ j => simp [nls, h, ih, h1, h2]
        · simp [nls, h, ih, h1, h2]
      · obtain ⟨d, rfl⟩ : ∃ d, s = o + 2 + d := ⟨s - (o + 2), by omega⟩
        have e1 : o + 2 + d - o - 1 = d + 1 := by omega
        have e2 : o + 2 + d - o = (d + 1) + 1 := by omega
        have e3 : o + 2 + d - (o + 1) - 1 = d := by omega
        have e4 : o + 2 + d - (o + 1) = d + 1 := by omega
        by_cases h : b = 10
        · subst h
          cases j with
          | zero =>
            simp only [nls, if_true, List.getElem?_cons_zero, e1, e2, List.getElem?_cons_succ,
              List.take_succ_cons, List.count_cons_self]
            constructor
            · intro h; simp at h; omega
            · rintro ⟨_, _, h3, h4⟩
              exfalso
              rw [show d + 1 + 1 - 1 = d + 1 by omega, List.getElem?_cons_succ] at h3
              have : 10 ∈ t.take (d + 1) := by
                rw [List.mem_take_iff_getElem]
                obtain ⟨hlt, h3⟩ := List.getElem?_eq_some_iff.1 h3
                exact ⟨d, by omega, h3⟩
              have := List.count_pos_iff.2 this
              omega
          | succ j =>
            simp only [nls, if_true, List.getElem?_cons_succ, ih, e1, e2, e3, e4,
              List.take_succ_cons, List.count_cons_self, List.length_cons]
            constructor <;> rintro ⟨h1, h2, h3, h4⟩ <;> refine ⟨by omega, by omega, h3, by omega⟩
        · simp only [nls, h, if_false, ih, e1, e2, e3, e4, List.getElem?_cons_succ,
            List.take_succ_cons, List.length_cons, List.count_cons_of_ne h]
          constructor <;> rintro ⟨h1, h2, h3, h4⟩ <;> refine ⟨by omega, by omega, h3, by omega⟩

/-- Line number `k` of text `c` starts at offset `s`. -/
theorem starts_get (c : List Nat) (k s : Nat) :
    (startsOf c)[k]? = some s ↔
      (s = 0 ∧ k = 0) ∨ (0 < s ∧ s ≤ c.length ∧ c[s - 1]? = some 10 ∧ (c.take s).count 10 = k ∧ 0 < k) := by
  cases k with
  | zero => simp [startsOf]; omega
  | succ k =>
    simp only [startsOf, List.getElem?_cons_succ, nls_get]
    simp

theorem starts_le {c : List Nat} {k s : Nat} (h : (startsOf c)[k]? = some s) : s ≤ c.length := by
  rcases (starts_get c k s).1 h with h | h <;> omega

theorem starts_count {c : List Nat} {k s : Nat} (h : (startsOf c)[k]? = some s) : (c.take s).count 10 = k := by
  rcases (starts_get c k s).1 h with ⟨rfl, rfl⟩ | h
  · simp
  · exact h.2.2.2.1

theorem count_take_mono (c : List Nat) {a b : Nat} (h : a ≤ b) : (c.take a).count 10 ≤ (c.take b).count 10 :=
  List.Sublist.count_le 10 (List.take_sublist_take_left h)

theorem starts_lt {c : List Nat} {j k s t : Nat} (hs : (startsOf c)[j]? = some s)
    (ht : (startsOf c)[k]? = some t) (h : j < k) : s < t := by
  have h1 := starts_count hs
  have h2 := starts_count ht
  by_contra hc
  have := count_take_mono c (a := t) (b := s) (by omega)
  omega

theorem exists_newline (c : List Nat) (p j : Nat) (h : j + 1 ≤ (c.take p).count 10) :
    ∃ s, 0 < s ∧ s ≤ p ∧ s ≤ c.length ∧ c[s - 1]? = some 10 ∧ (c.take s).count 10 = j + 1 := by
  induction p with
  | zero => simp at h
  | succ p ih =>
    by_cases h' : j + 1 ≤ (c.take p).count 10
    · obtain ⟨s, h1, h2, h3⟩ := ih h'
      exact ⟨s, h1, by omega, h3⟩
    · by_cases hp : p < c.length
      · rw [List.take_succ_eq_append_getElem hp, List.count_append] at h
        by_cases he : c[p] = 10
        · refine ⟨p + 1, by omega, by omega, by omega, by simp [List.getElem?_eq_getElem hp, he], ?_⟩
          rw [List.take_succ_eq_append_getElem hp, List.count_append, he]
          simp [he] at h ⊢
          omega
        · simp [he] at h; omega
      · rw [List.take_of_length_le (by omega)] at h h'
        omega

/-- `k` is the (0-based) number of the line containing offset `p`. -/
def IsIdx (starts : List Nat) (p k : Nat) : Prop :=
  ∃ s, starts[k]? = some s ∧ s ≤ p ∧ ∀ t, starts[k + 1]? = some t → p < t

theorem IsIdx.count {c : List Nat} {p k : Nat} (h : IsIdx (startsOf c) p k) : (c.take p).count 10 = k := by
  obtain ⟨s, h1, h2, h3⟩ := h
  have hc := starts_count h1
  have := count_take_mono c h2
  by_contra hne
  obtain ⟨t, ht1, ht2, ht3, ht4, ht5⟩ := exists_newline c p k (by omega)
  have := h3 t ((starts_get c (k + 1) t).2 (Or.inr ⟨ht1, ht3, ht4, ht5, by omega⟩))
  omega

theorem lastLine_no_nl {b : List Nat} (h : 10 ∉ b) : lastLine b = b := by
  have := List.takeWhile_append_of_pos (p := fun x => decide (x ≠ 10)) (l₁ := b.reverse) (l₂ := [])
    (by
      intro x hx
      have : x ≠ 10 := fun e => h (by rw [← e]; exact List.mem_reverse.1 hx)
      simpa using this)
  rw [List.append_nil, List.takeWhile_nil, List.append_nil] at this
  rw [lastLine, this, List.reverse_reverse]

theorem lastLine_append_nl {a b : List Nat} (h : 10 ∉ b) : lastLine (a ++ 10 :: b) = b := by
  unfold lastLine
  have : (a ++ 10 :: b).reverse = b.reverse ++ (10 :: a.reverse) := by simp
  rw [this, List.takeWhile_append_of_pos]
  · simp
  · intro x hx
    have : x ≠ 10 := fun e => h (by rw [← e]; exact List.mem_reverse.1 hx)
    simpa using this

theorem IsIdx.no_nl {c : List Nat} {p k s : Nat} (h : IsIdx (startsOf c) p k)
    (hs : (startsOf c)[k]? = some s) : 10 ∉ (c.take p).drop s := by
  have hc := h.count
  obtain ⟨s', h1, h2, h3⟩ := h
  have he : s' = s := by rw [hs] at h1; exact (Option.some.inj h1).symm
  subst he
  have hc' := starts_count hs
  have e : c.take p = c.take s' ++ (c.take p).drop s' := by
    conv_lhs => rw [← List.take_append_drop s' (c.take p)]
    rw [List.take_take, Nat.min_eq_left h2]
  rw [e, List.count_append] at hc
  exact List.count_eq_zero.1 (by omega)

theorem IsIdx.lastLine {c : List Nat} {p k s : Nat} (h : IsIdx (startsOf c) p k)
    (hs : (startsOf c)[k]? = some s) : lastLine (c.take p) = (c.take p).drop s := by
  have hn := h.no_nl hs
  obtain ⟨s', h1, h2, h3⟩ := h
  have he : s' = s := by rw [hs] at h1; exact (Option.some.inj h1).symm
  subst he
  rcases (starts_get c k s').1 hs with ⟨rfl, _⟩ | ⟨h0, hl, hnl, _⟩
  · rw [List.drop_zero] at hn ⊢
    exact lastLine_no_nl hn
  · have e : c.take p = c.take (s' - 1) ++ 10 :: (c.take p).drop s' := by
      conv_lhs => rw [← List.take_append_drop s' (c.take p)]
      rw [List.take_take, Nat.min_eq_left h2]
      obtain ⟨m, rfl⟩ : ∃ m, s' = m + 1 := ⟨s' - 1, by omega⟩
      have hm : m < c.length := by omega
      rw [List.take_succ_eq_append_getElem hm]
      have : c[m] = 10 := by
        have := hnl; simp [List.getElem?_eq_getElem hm] at this; exact this
      rw [this]; simp
    rw [e, lastLine_append_nl hn, ← e]

theorem newLoop_eq (n : Nat) (rest : List Nat) (i j : Nat) (st : List Nat)
    (h1 : st.length = n) (h2 : j + rest.count 10 = n) :
    newLoop n rest i j st = some (st.take j ++ nls rest i) := by
  induction rest generalizing i j st with
  | nil =>
    simp only [List.count_nil, Nat.add_zero] at h2
    simp [newLoop, nls, List.take_of_length_le (show st.length ≤ j by omega)]
  | cons b t ih =>
    unfold newLoop
    by_cases hj : j < n
    · rw [if_pos hj]
      by_cases hb : b = 10
      · subst hb
        rw [if_pos rfl, Go.setIndex_nat (by omega)]
        simp only [Option.bind_eq_bind, Option.bind_some]
        rw [ih _ _ _ (by simp [h1]) (by simp at h2; omega)]
        simp only [nls, if_true]
        congr 1
        rw [List.take_succ_eq_append_getElem (by simp; omega)]
        simp [List.take_set_of_le]
      · rw [if_neg (by simpa using hb)]
        rw [ih _ _ _ h1 (by rw [List.count_cons_of_ne (by simpa using hb)] at h2; exact h2)]
        simp [nls, hb]
    · rw [if_neg hj]
      have : (b :: t).count 10 = 0 := by omega
      have hn : nls (b :: t) i = [] := by
        apply List.eq_nil_of_length_eq_zero; rw [nls_length, this]
      rw [hn, List.append_nil, List.take_of_length_le (by omega)]

/-- Well-formed source: line index is right, cached line exists. -/
structure Wf (s : Source) : Prop where
  starts : s.lineStarts = startsOf s.content
  prev_ge : -1 ≤ s.prevLineIndex
  prev_lt : s.prevLineIndex < s.lineStarts.length

theorem new_eq (name : String) (c : List Nat) :
    new name c = some { name := name, content := c, lineStarts := startsOf c, prevLineIndex := -1 } := by
  unfold new
  have h1 : Go.make (α := Nat) ((c.count LF + 1 : Nat) : Int) = some (List.replicate (c.count LF + 1) 0) :=
    Go.make_nat _
  have h2 : Go.setIndex (List.replicate (c.count LF + 1) 0) 0 0 = some (List.replicate (c.count LF + 1) 0) := by
    have := Go.setIndex_nat (a := List.replicate (c.count LF + 1) 0) (n := 0) (by simp) 0
    rw [Int.ofNat_zero] at this
    rw [this]; simp [List.replicate_succ]
  simp only [Option.bind_eq_bind, Option.pure_def]
  rw [h1, Option.bind_some, h2, Option.bind_some,
    newLoop_eq _ _ _ _ _ (by simp) (by simp [LF]; omega), Option.bind_some]
  simp [startsOf, List.replicate_succ]

theorem new_wf (name : String) (c : List Nat) : ∃ s, new name c = some s ∧ Wf s ∧ s.content = c ∧ s.name = name :=
  ⟨_, new_eq name c, ⟨rfl, by simp, by simp [startsOf]; omega⟩, rfl, rfl⟩

/-! ### Search for a line -/

theorem scanUp_spec (starts : List Nat) (p n i : Nat) (hn : i + n = starts.length) (hi : 0 < i)
    (hs : ∃ s, starts[i - 1]? = some s ∧ s ≤ p) :
    ∃ k, scanUp starts p n i = some (k + 1) ∧ IsIdx starts p k := by
  induction n generalizing i with
  | zero =>
    obtain ⟨s, h1, h2⟩ := hs
    refine ⟨i - 1, by simp [scanUp]; omega, s, h1, h2, ?_⟩
    intro t ht
    rw [List.getElem?_eq_none (by omega)] at ht
    cases ht
  | succ n ih =>
    have hlt : i < starts.length := by omega
    unfold scanUp
    rw [List.getElem?_eq_getElem hlt]
    simp only [Option.bind_eq_bind, Option.bind_some]
    by_cases h : starts[i] ≤ p
    · rw [if_pos h]
      exact ih (i + 1) (by omega) (by omega) ⟨starts[i], by simp [List.getElem?_eq_getElem hlt], h⟩
    · rw [if_neg h]
      obtain ⟨s, h1, h2⟩ := hs
      refine ⟨i - 1, by congr 1; omega, s, h1, h2, ?_⟩
      intro t ht
      rw [show i - 1 + 1 = i by omega, List.getElem?_eq_getElem hlt] at ht
      have := Option.some.inj ht
      omega

theorem bsearch_spec (c : List Nat) (p : Nat) (d left right index : Nat) (hd : right - left = d)
    (hlr : left ≤ right) (hr : right < (startsOf c).length) (hidx : left = right → index = left)
    (hleft : ∃ s, (startsOf c)[left]? = some s ∧ s ≤ p)
    (hright : ∀ t, (startsOf c)[right + 1]? = some t → p < t) :
    ∃ k u, bsearch (startsOf c) p left right index = some (k, u) ∧ IsIdx (startsOf c) p k := by
  induction d using Nat.strong_induction_on generalizing left right index with
  | _ d ih =>
    unfold bsearch
    by_cases h : left < right
    · rw [dif_pos h]
      have hm : (left + right + 1) / 2 < (startsOf c).length := by omega
      dsimp only
      rw [List.getElem?_eq_getElem hm]
      simp only [Option.bind_eq_bind, Option.bind_some]
      have hg : (startsOf c)[(left + right + 1) / 2]? = some (startsOf c)[(left + right + 1) / 2] :=
        List.getElem?_eq_getElem hm
      by_cases he : (startsOf c)[(left + right + 1) / 2] = p
      · rw [if_pos he]
        refine ⟨_, _, rfl, p, by rw [hg, he], Nat.le_refl _, ?_⟩
        intro t ht
        exact starts_lt (by rw [hg, he]) ht (by omega)
      · rw [if_neg he]
        by_cases hlt : (startsOf c)[(left + right + 1) / 2] < p
        · rw [if_pos hlt]
          exact ih (right - (left + right + 1) / 2) (by omega) _ _ _ rfl (by omega) hr (by omega)
            ⟨_, hg, by omega⟩ hright
        · rw [if_neg hlt]
          refine ih ((left + right + 1) / 2 - 1 - left) (by omega) _ _ _ rfl (by omega) (by omega) (by omega)
            hleft ?_
          intro t ht
          rw [show (left + right + 1) / 2 - 1 + 1 = (left + right + 1) / 2 by omega, hg] at ht
          have := Option.some.inj ht
          omega
    · rw [dif_neg h]
      have : left = right := by omega
      rw [hidx this]
      obtain ⟨s, h1, h2⟩ := hleft
      exact ⟨_, _, rfl, s, h1, h2, this ▸ hright⟩

theorem IsIdx.lt {starts : List Nat} {p k : Nat} (h : IsIdx starts p k) : k < starts.length := by
  obtain ⟨s, h1, _⟩ := h
  exact (List.getElem?_eq_some_iff.1 h1).1

theorem findLineIndex_spec {s : Source} (h : Wf s) (p : Nat) :
    ∃ prev k, s.findLineIndex p = some ({ s with prevLineIndex := prev }, k) ∧
      -1 ≤ prev ∧ prev < s.lineStarts.length ∧ IsIdx s.lineStarts p k := by
  have h0 : ∃ t, (startsOf s.content)[0]? = some t ∧ t ≤ p := ⟨0, rfl, by omega⟩
  have hst := h.starts
  have hlen : 0 < s.lineStarts.length := by rw [hst]; simp [startsOf]
  unfold findLineIndex
  by_cases hp : s.prevLineIndex ≥ 0
  · rw [if_pos hp]
    obtain ⟨m, hm⟩ : ∃ m : Nat, s.prevLineIndex = m := ⟨s.prevLineIndex.toNat, by omega⟩
    have hml : m < s.lineStarts.length := by have := h.prev_lt; omega
    have hg : s.lineStarts[m]? = some s.lineStarts[m] := List.getElem?_eq_getElem hml
    rw [hm, Go.index_nat, hg]
    simp only [Option.map_some, Option.bind_eq_bind, Option.bind_some, Int.toNat_natCast]
    by_cases hle : s.lineStarts[m] ≤ p
    · rw [if_pos hle]
      obtain ⟨k, e, hk⟩ : ∃ k, scanUp s.lineStarts p (s.lineStarts.length - 1 + 1 - m) m = some (k + 1) ∧
          IsIdx s.lineStarts p k := by
        rw [show s.lineStarts.length - 1 + 1 - m = (s.lineStarts.length - 1 - m) + 1 by omega]
        unfold scanUp
        rw [hg]
        simp only [Option.bind_eq_bind, Option.bind_some, if_pos hle]
        exact scanUp_spec _ _ _ _ (by omega) (by omega) ⟨_, by simpa using hg, hle⟩
      rw [e]
      simp only [Option.bind_some, Option.pure_def, Nat.add_sub_cancel]
      have := hk.lt
      exact ⟨k, k, rfl, by omega, by omega, hk⟩
    · rw [if_neg hle]
      obtain ⟨k, u, e, hk⟩ := bsearch_spec s.content p m 0 m 0 (by omega) (by omega) (hst ▸ hml) (by omega) h0
        (by
          intro t ht
          have := starts_lt (s := s.lineStarts[m]) (by rw [← hst]; exact hg) ht (by omega)
          omega)
      rw [hst, e]
      rw [← hst] at hk ⊢
      have := hk.lt
      simp only [Option.bind_some, Option.pure_def]
      cases u
      · refine ⟨s.prevLineIndex, k, by simp, by omega, by omega, hk⟩
      · exact ⟨k, k, by simp, by omega, by omega, hk⟩
  · rw [if_neg hp]
    simp only [Option.bind_eq_bind, Option.bind_some]
    obtain ⟨k, u, e, hk⟩ := bsearch_spec s.content p (s.lineStarts.length - 1) 0 (s.lineStarts.length - 1) 0
      (by omega) (by omega) (by rw [← hst]; omega) (by omega) h0
      (by
        intro t ht
        rw [List.getElem?_eq_none (by rw [← hst]; omega)] at ht
        cases ht)
    rw [← hst] at e
    rw [e]
    rw [← hst] at hk
    have := hk.lt
    simp only [Option.bind_some, Option.pure_def]
    cases u
    · refine ⟨s.prevLineIndex, k, by simp, h.prev_ge, h.prev_lt, hk⟩
    · exact ⟨k, k, by simp, by omega, by omega, hk⟩

/-- Offset treated as valid: negative is 0, too big is the length. -/
def clamp (c : List Nat) (p : Int) : Nat := min p.toNat c.length

theorem isIdx_zero (c : List Nat) : IsIdx (startsOf c) 0 0 := by
  refine ⟨0, rfl, Nat.le_refl _, ?_⟩
  intro t ht
  rcases (starts_get c _ t).1 ht with h | h <;> omega

theorem isIdx_last (c : List Nat) : IsIdx (startsOf c) c.length ((startsOf c).length - 1) := by
  have hl : (startsOf c).length - 1 < (startsOf c).length := by simp [startsOf]
  refine ⟨_, List.getElem?_eq_getElem hl, starts_le (List.getElem?_eq_getElem hl), ?_⟩
  intro t ht
  rw [List.getElem?_eq_none (by omega)] at ht
  cases ht

theorem exists_idx (c : List Nat) (p : Nat) : ∃ k, IsIdx (startsOf c) p k := by
  obtain ⟨k, u, _, h⟩ := bsearch_spec c p ((startsOf c).length - 1) 0 ((startsOf c).length - 1) 0
    (by omega) (by omega) (by simp [startsOf]) (by omega) ⟨0, rfl, by omega⟩
    (by intro t ht; rw [List.getElem?_eq_none (by omega)] at ht; cases ht)
  exact ⟨k, h⟩

theorem lineCol_spec {s : Source} (h : Wf s) (p : Int) :
    ∃ prev, s.lineCol p = some ({ s with prevLineIndex := prev },
        ((s.content.take (clamp s.content p)).count 10 : Int) + 1,
        (Utf8.runeCount (Verif.Spec.Text.lastLine (s.content.take (clamp s.content p))) : Int) + 1) ∧
      -1 ≤ prev ∧ prev < s.lineStarts.length := by
  have hst := h.starts
  have key : ∀ (s' : Source) (q k : Nat), s'.content = s.content → s'.lineStarts = s.lineStarts →
      q ≤ s.content.length →
      IsIdx s.lineStarts q k →
      (do
        let lineStart ← s'.lineStarts[k]?
        let part ← Go.slice s'.content lineStart q
        return (s', (k : Int) + 1, (Utf8.runeCount part : Int) + 1)) =
      some (s', ((s.content.take q).count 10 : Int) + 1,
        (Utf8.runeCount (Verif.Spec.Text.lastLine (s.content.take q)) : Int) + 1) := by
    intro s' q k h1 h2 hq hk
    rw [hst] at hk
    have hc := hk.count
    obtain ⟨st, e, hle, _⟩ := id hk
    have hl := hk.lastLine e
    rw [h1, h2, hst, e]
    simp only [Option.bind_eq_bind, Option.bind_some]
    rw [Go.slice_nat hle hq]
    simp only [Option.bind_some, Option.pure_def, hc, hl, List.drop_take]
  unfold lineCol
  by_cases h1 : p < 0
  · rw [if_pos h1]
    have e : clamp s.content p = 0 := by simp [clamp]; omega
    rw [e]
    simp only [Option.bind_eq_bind, Option.bind_some]
    refine ⟨s.prevLineIndex, ?_, h.prev_ge, h.prev_lt⟩
    exact key s 0 0 rfl rfl (by omega) (hst ▸ isIdx_zero _)
  · rw [if_neg h1]
    by_cases h2 : p ≥ s.content.length
    · rw [if_pos h2]
      have e : clamp s.content p = s.content.length := by simp [clamp]; omega
      rw [e]
      simp only [Option.bind_eq_bind, Option.bind_some]
      refine ⟨s.prevLineIndex, ?_, h.prev_ge, h.prev_lt⟩
      exact key s s.content.length _ rfl rfl (by omega) (hst ▸ isIdx_last _)
    · rw [if_neg h2]
      have e : clamp s.content p = p.toNat := by simp [clamp]; omega
      rw [e]
      obtain ⟨prev, k, e1, h3, h4, hk⟩ := findLineIndex_spec h p.toNat
      rw [e1]
      simp only [Option.map_some, Option.bind_eq_bind, Option.bind_some]
      exact ⟨prev, key { s with prevLineIndex := prev } _ _ rfl rfl (by omega) hk, h3, h4⟩

end Verif.Model.Source
