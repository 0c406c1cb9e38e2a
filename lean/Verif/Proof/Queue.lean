import Verif.Model.Queue
import Verif.Proof.Go

set_option linter.unusedSectionVars false

namespace Verif.Model.Queue

variable {α : Type} [Inhabited α]

/-! ### computeSize -/

theorem smear_step {a n m : Nat}
    (h : ∀ i, a.testBit i = true ↔ ∃ j, j < m ∧ n.testBit (i + j) = true) (i : Nat) :
    (a ||| a >>> m).testBit i = true ↔ ∃ j, j < m + m ∧ n.testBit (i + j) = true := by
  rw [Nat.testBit_or, Bool.or_eq_true, Nat.testBit_shiftRight, h, h]
  constructor
  · rintro (⟨j, hj, hb⟩ | ⟨j, hj, hb⟩)
    · exact ⟨j, by omega, hb⟩
    · exact ⟨m + j, by omega, by rw [← hb]; congr 1; omega⟩
  · rintro ⟨j, hj, hb⟩
    by_cases hjm : j < m
    · exact Or.inl ⟨j, hjm, hb⟩
    · exact Or.inr ⟨j - m, by omega, by rw [← hb]; congr 1; omega⟩

theorem computeSize_testBit {n : Nat} (h : ¬ n ≤ minSize) (i : Nat) :
    (computeSize n).testBit i = true ↔ ∃ j, j < 32 ∧ n.testBit (i + j) = true := by
  have h0 : ∀ i, n.testBit i = true ↔ ∃ j, j < 1 ∧ n.testBit (i + j) = true := by
    intro i
    constructor
    · intro h; exact ⟨0, by omega, h⟩
    · rintro ⟨j, hj, hb⟩
      obtain rfl : j = 0 := by omega
      exact hb
  have h1 := smear_step h0
  have h2 := smear_step h1
  have h3 := smear_step h2
  have h4 := smear_step h3
  have h5 := smear_step h4
  have := h5 i
  simpa [computeSize, h] using this

theorem computeSize_spec {n : Nat} (h : n < 2 ^ 32) :
    ∃ k, 2 ≤ k ∧ computeSize n = 2 ^ k - 1 ∧ n < 2 ^ k := by
  by_cases hn : n ≤ minSize
  · refine ⟨2, le_refl _, by rw [computeSize, if_pos hn]; rfl, ?_⟩
    simp [minSize] at hn; omega
  · have hn0 : n ≠ 0 := by rintro rfl; simp [minSize] at hn
    have hlog : n.log2 < 32 := (Nat.log2_lt hn0).2 h
    have hlt : n < 2 ^ (n.log2 + 1) := Nat.lt_log2_self
    refine ⟨n.log2 + 1, ?_, ?_, hlt⟩
    · by_contra hc
      have : 2 ^ (n.log2 + 1) ≤ 2 ^ 1 := Nat.pow_le_pow_right (by omega) (by omega)
      simp [minSize] at hn
      omega
    · apply Nat.eq_of_testBit_eq
      intro i
      rw [Nat.testBit_two_pow_sub_one, Bool.eq_iff_iff, computeSize_testBit hn, decide_eq_true_iff]
      constructor
      · rintro ⟨j, _, hb⟩
        have := Nat.ge_two_pow_of_testBit hb
        by_contra hc
        have h2 : 2 ^ (n.log2 + 1) ≤ 2 ^ (i + j) := Nat.pow_le_pow_right (by omega) (by omega)
        omega
      · intro hi
        refine ⟨n.log2 - i, by omega, ?_⟩
        have : i + (n.log2 - i) = n.log2 := by omega
        rw [this]
        exact Nat.testBit_log2 hn0

theorem mod_add_cancel {N h i j : Nat} (hh : h < N) (hi : i < N) (hj : j < N)
    (hc : (h + i) % N = (h + j) % N) : i = j := by
  have key : ∀ x, x < N → (h + x) % N = if h + x < N then h + x else h + x - N := by
    intro x hx
    split
    · exact Nat.mod_eq_of_lt (by assumption)
    · rw [Nat.mod_eq_sub_mod (by omega), Nat.mod_eq_of_lt (by omega)]
  rw [key i hi, key j hj] at hc
  split at hc <;> split at hc <;> omega

/-! ### Representation -/

/-- The ring buffer `q` holds the list `l`. -/
structure Rep (q : Queue α) (l : List α) : Prop where
  ex : ∃ k h : Nat, 2 ≤ k ∧ q.size = (2 ^ k : Nat) - 1 ∧ q.head = h ∧ h < 2 ^ k ∧
    q.items.length = 2 ^ k ∧ l.length < 2 ^ k ∧ q.tail = ((h + l.length) % 2 ^ k : Nat) ∧
    ∀ i, i < l.length → q.items[(h + i) % 2 ^ k]? = l[i]?

theorem fill_rep (l : List α) (hl : l.length < 2 ^ 32) : ∃ q, fill l = some q ∧ Rep q l := by
  obtain ⟨k, hk, hs, hlt⟩ := computeSize_spec hl
  have hpos : 0 < 2 ^ k := Nat.two_pow_pos k
  have hs1 : ((computeSize l.length : Nat) : Int) + 1 = (2 ^ k : Nat) := by omega
  have e : fill l = some ⟨Go.copy (List.replicate (2 ^ k) default) l, computeSize l.length, 0, l.length⟩ := by
    simp only [fill, hs1, Go.make_nat]; rfl
  refine ⟨_, e, ?_⟩
  · constructor
    refine ⟨k, 0, hk, ?_, rfl, hpos, ?_, hlt, ?_, ?_⟩
    · simp only; omega
    · simp [Go.copy_length]
    · simp [Nat.mod_eq_of_lt hlt]
    · intro i hi
      rw [Nat.mod_eq_of_lt (by omega)]
      simp only [Go.copy, List.length_replicate]
      rw [List.take_of_length_le (by omega), List.getElem?_append_left (by omega)]
      simp

theorem Rep.len_eq {q : Queue α} {l : List α} (h : Rep q l) : q.len = l.length := by
  obtain ⟨k, hd, hk, hs, hh, hhlt, hil, hll, ht, hel⟩ := h.ex
  have hpos : 0 < 2 ^ k := Nat.two_pow_pos k
  rw [len, hs, Go.and_mask, hh, ht]
  by_cases hw : hd + l.length < 2 ^ k
  · rw [Nat.mod_eq_of_lt hw]
    have : (((hd + l.length : Nat) : Int) + ((2 ^ k : Nat) - 1) + 1 - hd) = l.length + (2 ^ k : Nat) := by
      omega
    rw [this, Int.add_emod_right]; exact_mod_cast Nat.mod_eq_of_lt hll
  · rw [Nat.mod_eq_sub_mod (by omega), Nat.mod_eq_of_lt (by omega)]
    have : (((hd + l.length - 2 ^ k : Nat) : Int) + ((2 ^ k : Nat) - 1) + 1 - hd) = l.length := by
      omega
    rw [this]; exact_mod_cast Nat.mod_eq_of_lt hll

theorem Rep.head_eq_tail {q : Queue α} {l : List α} (h : Rep q l) : q.head = q.tail ↔ l = [] := by
  obtain ⟨k, hd, hk, hs, hh, hhlt, hil, hll, ht, hel⟩ := h.ex
  have hpos : 0 < 2 ^ k := Nat.two_pow_pos k
  rw [hh, ht, ← List.length_eq_zero_iff]
  by_cases hw : hd + l.length < 2 ^ k
  · rw [Nat.mod_eq_of_lt hw]; omega
  · rw [Nat.mod_eq_sub_mod (by omega), Nat.mod_eq_of_lt (by omega)]; omega

theorem Rep.isEmpty_eq {q : Queue α} {l : List α} (h : Rep q l) : q.isEmpty = l.isEmpty := by
  rw [Bool.eq_iff_iff, isEmpty, beq_iff_eq, h.head_eq_tail, List.isEmpty_iff]

theorem Rep.getItems_eq {q : Queue α} {l : List α} (h : Rep q l) : q.getItems = some l := by
  have hlen := h.len_eq
  obtain ⟨k, hd, hk, hs, hh, hhlt, hil, hll, ht, hel⟩ := h.ex
  have hpos : 0 < 2 ^ k := Nat.two_pow_pos k
  simp only [getItems, hlen, Go.make_nat, hh, ht, hs, Option.bind_eq_bind, Option.bind_some,
    Option.pure_def]
  by_cases hw : hd + l.length < 2 ^ k
  · rw [Nat.mod_eq_of_lt hw, if_pos (by omega), Go.slice_nat (by omega) (by omega)]
    simp only [Option.bind_some, Option.some.injEq]
    apply List.ext_getElem?
    intro i
    simp only [Go.copy, List.length_replicate, List.drop_replicate]
    have hlen2 : (List.take (hd + l.length - hd) (List.drop hd q.items)).length = l.length := by
      simp; omega
    rw [List.take_of_length_le (by omega), hlen2]
    simp only [Nat.sub_self, List.replicate_zero, List.append_nil, List.getElem?_take,
      List.getElem?_drop]
    by_cases hi : i < l.length
    · rw [if_pos (by omega)]
      have := hel i hi
      rwa [Nat.mod_eq_of_lt (by omega)] at this
    · rw [if_neg (by omega), List.getElem?_eq_none (by omega)]
  · have hm : (hd + l.length) % 2 ^ k = hd + l.length - 2 ^ k := by
      rw [Nat.mod_eq_sub_mod (by omega), Nat.mod_eq_of_lt (by omega)]
    rw [hm, if_neg (by omega)]
    have e1 : ((2 ^ k : Nat) - 1 + 1 : Int) = (2 ^ k : Nat) := by omega
    have e2 : ((2 ^ k : Nat) - 1 - (hd : Int) + 1 : Int) = (2 ^ k - hd : Nat) := by omega
    rw [e1, e2, Go.slice_nat (by omega) (by omega)]
    have e3 : Go.slice q.items 0 ((hd + l.length - 2 ^ k : Nat) : Int) =
        some (q.items.take (hd + l.length - 2 ^ k)) := by
      have := Go.slice_nat (a := q.items) (lo := 0) (hi := hd + l.length - 2 ^ k) (by omega) (by omega)
      simpa using this
    rw [e3]
    simp only [Option.bind_some]
    rw [Go.copyAt_nat (by rw [Go.copy_length]; simp; omega)]
    congr 1
    apply List.ext_getElem?
    intro i
    simp only [Go.copy, List.length_replicate]
    have hl1 : (List.take (2 ^ k - hd) (List.drop hd q.items)).length = 2 ^ k - hd := by
      simp; omega
    rw [List.take_of_length_le (l := List.take (2 ^ k - hd) (List.drop hd q.items)) (by omega)]
    rw [List.take_left' hl1, List.drop_left' hl1, hl1]
    simp only [List.drop_replicate, List.length_replicate]
    have hl2 : (List.take (hd + l.length - 2 ^ k) q.items).length = hd + l.length - 2 ^ k := by
      simp; omega
    rw [List.take_of_length_le (l := List.take (hd + l.length - 2 ^ k) q.items) (by omega), hl2]
    have e4 : l.length - (2 ^ k - hd) - (hd + l.length - 2 ^ k) = 0 := by omega
    rw [e4, List.replicate_zero, List.append_nil, List.getElem?_append, hl1]
    by_cases hi : i < 2 ^ k - hd
    · rw [if_pos hi, List.getElem?_take, if_pos hi, List.getElem?_drop]
      have := hel i (by omega)
      rwa [Nat.mod_eq_of_lt (by omega)] at this
    · rw [if_neg hi, List.getElem?_take]
      by_cases hi2 : i < l.length
      · rw [if_pos (by omega)]
        have := hel i (by omega)
        rw [Nat.mod_eq_sub_mod (by omega), Nat.mod_eq_of_lt (by omega)] at this
        rw [← this]; congr 1; omega
      · rw [if_neg (by omega), List.getElem?_eq_none (by omega)]

/-- Full buffer: `N` elements starting at `h`, `head = tail`. -/
theorem grow_rep {q : Queue α} {l : List α} {k hd : Nat} (hk : 2 ≤ k)
    (hs : q.size = (2 ^ k : Nat) - 1) (hh : q.head = hd) (hhlt : hd < 2 ^ k)
    (hil : q.items.length = 2 ^ k) (hll : l.length = 2 ^ k)
    (hel : ∀ i, i < l.length → q.items[(hd + i) % 2 ^ k]? = l[i]?) :
    ∃ q', q.grow = some q' ∧ Rep q' l := by
  have hpos : 0 < 2 ^ k := Nat.two_pow_pos k
  have e1 : Go.shl (q.size + 1) 1 = (2 ^ (k + 1) : Nat) := by
    rw [Go.shl, hs, Nat.pow_succ]; push_cast; ring
  have e2 : (q.size + 1 - q.head : Int) = (2 ^ k - hd : Nat) := by omega
  have e3 : Go.slice q.items 0 (hd : Int) = some (q.items.take hd) := by
    have := Go.slice_nat (a := q.items) (lo := 0) (hi := hd) (by omega) (by omega)
    simpa using this
  have e5 : 2 ^ (k + 1) = 2 ^ k + 2 ^ k := by rw [Nat.pow_succ]; omega
  -- the new buffer
  have hbuf : ∃ buf : List α, buf.length = 2 ^ (k + 1) ∧ (∀ i, i < l.length → buf[i]? = l[i]?) ∧
      q.grow = some { items := buf, head := 0, tail := q.size + 1, size := q.size + (q.size + 1) } := by
    simp only [grow, e1, e2, Go.make_nat]
    simp only [hh]
    rw [Go.slice_nat (by omega) (by omega)]
    simp only [Option.bind_eq_bind, Option.bind_some, Option.pure_def]
    have hl1 : (List.take (q.items.length - hd) (List.drop hd q.items)) = List.drop hd q.items := by
      rw [List.take_of_length_le]; simp
    rw [hl1]
    have hl2 : (List.drop hd q.items).length = 2 ^ k - hd := by simp; omega
    have hc : Go.copy (List.replicate (2 ^ (k + 1)) default) (List.drop hd q.items) =
        List.drop hd q.items ++ List.replicate (2 ^ (k + 1) - (2 ^ k - hd)) default := by
      simp only [Go.copy, List.length_replicate, hl2, List.drop_replicate]
      rw [List.take_of_length_le (by omega)]
    rw [hc]
    by_cases h0 : 0 < hd
    · rw [if_pos (by omega)]
      rw [e3, Option.bind_some]
      rw [Go.copyAt_nat (by simp [hl2]), Option.bind_some]
      refine ⟨_, ?_, ?_, rfl⟩
      · simp [Go.copy_length, hl2]; omega
      · intro i hi
        rw [List.take_left' hl2, List.drop_left' hl2]
        rw [List.getElem?_append, hl2]
        have := hel i hi
        by_cases hi2 : i < 2 ^ k - hd
        · rw [if_pos hi2, List.getElem?_drop]
          rwa [Nat.mod_eq_of_lt (by omega)] at this
        · rw [if_neg hi2]
          simp only [Go.copy, List.length_replicate]
          rw [List.take_of_length_le (by simp; omega), List.getElem?_append_left (by simp; omega),
            List.getElem?_take, if_pos (by omega)]
          rw [Nat.mod_eq_sub_mod (by omega), Nat.mod_eq_of_lt (by omega)] at this
          rw [← this]; congr 1; omega
    · rw [if_neg (by omega)]
      obtain rfl : hd = 0 := by omega
      refine ⟨_, ?_, ?_, rfl⟩
      · simp; omega
      · intro i hi
        have := hel i hi
        rw [Nat.mod_eq_of_lt (by omega)] at this
        rw [List.getElem?_append_left (by omega)]
        simpa using this
  obtain ⟨buf, hb1, hb2, hb3⟩ := hbuf
  refine ⟨_, hb3, ⟨k + 1, 0, by omega, ?_, rfl, Nat.two_pow_pos _, hb1, ?_, ?_, ?_⟩⟩
  · simp only [hs]; omega
  · omega
  · simp only [hs]; rw [Nat.mod_eq_of_lt (by omega)]; omega
  · intro i hi
    rw [Nat.mod_eq_of_lt (by omega), Nat.zero_add]; exact hb2 i hi

theorem Rep.append_rep {q : Queue α} {l : List α} (h : Rep q l) (x : α) :
    ∃ q', q.append x = some q' ∧ Rep q' (l ++ [x]) := by
  obtain ⟨k, hd, hk, hs, hh, hhlt, hil, hll, ht, hel⟩ := h.ex
  have hpos : 0 < 2 ^ k := Nat.two_pow_pos k
  have htlt : (hd + l.length) % 2 ^ k < q.items.length := by rw [hil]; exact Nat.mod_lt _ hpos
  have e1 : Go.and (((hd + l.length) % 2 ^ k : Nat) + 1 : Int) q.size =
      ((hd + (l.length + 1)) % 2 ^ k : Nat) := by
    rw [hs, Go.and_mask]
    have : ((hd + (l.length + 1)) % 2 ^ k) = ((hd + l.length) % 2 ^ k + 1) % 2 ^ k := by
      rw [Nat.mod_add_mod]; congr 1
    rw [this]; push_cast; rfl
  have hel' : ∀ i, i < (l ++ [x]).length →
      (q.items.set ((hd + l.length) % 2 ^ k) x)[(hd + i) % 2 ^ k]? = (l ++ [x])[i]? := by
    intro i hi
    simp only [List.length_append, List.length_singleton] at hi
    by_cases hil2 : i = l.length
    · subst hil2
      rw [List.getElem?_set_self htlt]; simp
    · have hi' : i < l.length := by omega
      rw [List.getElem?_append_left hi', ← hel i hi', List.getElem?_set_ne]
      intro hc
      have := mod_add_cancel (by assumption) (by omega) (by omega) hc
      omega
  simp only [append, ht, Go.setIndex_nat htlt, bind, Option.bind, e1]
  by_cases hfull : l.length + 1 = 2 ^ k
  · have hwrap : (hd + (l.length + 1)) % 2 ^ k = hd := by
      rw [hfull, Nat.add_mod_right, Nat.mod_eq_of_lt hhlt]
    rw [if_pos (by rw [hwrap, hh])]
    apply grow_rep (k := k) (hd := hd) hk
    · exact hs
    · exact hh
    · exact hhlt
    · simp [hil]
    · simp [hfull]
    · exact hel'
  · rw [if_neg]
    · refine ⟨_, rfl, ⟨k, hd, hk, hs, hh, hhlt, by simp [hil], by simp; omega, by simp, hel'⟩⟩
    · rw [hh]
      intro hc
      have hc : (hd + (l.length + 1)) % 2 ^ k = hd := by exact_mod_cast hc
      by_cases hw : hd + (l.length + 1) < 2 ^ k
      · rw [Nat.mod_eq_of_lt hw] at hc; omega
      · rw [Nat.mod_eq_sub_mod (by omega), Nat.mod_eq_of_lt (by omega)] at hc; omega

theorem sub_one_mask {k n : Nat} {s : Int} (hs : s = (2 ^ k : Nat) - 1) (hn : n < 2 ^ k) :
    Go.and ((n : Int) - 1) s = ((n + (2 ^ k - 1)) % 2 ^ k : Nat) := by
  have hpos : 0 < 2 ^ k := Nat.two_pow_pos k
  rw [hs, Go.and_mask]
  have : ((n : Int) - 1) = ((n + (2 ^ k - 1) : Nat) : Int) - (2 ^ k : Nat) := by omega
  rw [this, Int.sub_emod_right]
  push_cast; rfl

theorem Rep.prepend_rep {q : Queue α} {l : List α} (h : Rep q l) (x : α) :
    ∃ q', q.prepend x = some q' ∧ Rep q' (x :: l) := by
  obtain ⟨k, hd, hk, hs, hh, hhlt, hil, hll, ht, hel⟩ := h.ex
  have hpos : 0 < 2 ^ k := Nat.two_pow_pos k
  obtain ⟨nh, hnh⟩ : ∃ nh, nh = (hd + (2 ^ k - 1)) % 2 ^ k := ⟨_, rfl⟩
  have hnlt : nh < 2 ^ k := by rw [hnh]; exact Nat.mod_lt _ hpos
  have hnlt' : nh < q.items.length := by omega
  have e1 : Go.and (q.head - 1) q.size = (nh : Int) := by
    rw [hh, sub_one_mask hs hhlt, hnh]
  have hnext : ∀ i, (nh + (i + 1)) % 2 ^ k = (hd + i) % 2 ^ k := by
    intro i
    rw [hnh, Nat.mod_add_mod]
    have : hd + (2 ^ k - 1) + (i + 1) = hd + i + 2 ^ k := by omega
    rw [this, Nat.add_mod_right]
  have hel' : ∀ i, i < (x :: l).length → (q.items.set nh x)[(nh + i) % 2 ^ k]? = (x :: l)[i]? := by
    intro i hi
    cases i with
    | zero =>
      rw [Nat.add_zero, Nat.mod_eq_of_lt hnlt, List.getElem?_set_self hnlt']; rfl
    | succ i =>
      simp only [List.length_cons] at hi
      rw [List.getElem?_cons_succ, ← hel i (by omega), List.getElem?_set_ne, hnext]
      intro hc
      have hc : (nh + 0) % 2 ^ k = (nh + (i + 1)) % 2 ^ k := by
        rw [Nat.add_zero, Nat.mod_eq_of_lt hnlt]; exact hc
      have := mod_add_cancel (by assumption) (by omega) (by omega) hc
      omega
  simp only [prepend, e1, Go.setIndex_nat hnlt', bind, Option.bind]
  have htail : q.tail = ((nh + (x :: l).length) % 2 ^ k : Nat) := by
    rw [ht, List.length_cons, hnext]
  by_cases hfull : l.length + 1 = 2 ^ k
  · rw [if_pos (by rw [htail, List.length_cons, hfull, Nat.add_mod_right, Nat.mod_eq_of_lt hnlt])]
    apply grow_rep (k := k) (hd := nh) hk
    · exact hs
    · rfl
    · exact hnlt
    · simp [hil]
    · simp [hfull]
    · exact hel'
  · rw [if_neg]
    · refine ⟨_, rfl, ⟨k, nh, hk, hs, rfl, hnlt, by simp [hil], by simp; omega, htail, hel'⟩⟩
    · rw [htail]
      intro hc
      have hc : nh = (nh + (l.length + 1)) % 2 ^ k := by exact_mod_cast hc
      by_cases hw : nh + (l.length + 1) < 2 ^ k
      · rw [Nat.mod_eq_of_lt hw] at hc; omega
      · rw [Nat.mod_eq_sub_mod (by omega), Nat.mod_eq_of_lt (by omega)] at hc; omega

theorem Rep.first_nil {q : Queue α} (h : Rep q []) : q.first = some (q, default, false) := by
  simp [first, h.head_eq_tail.2 rfl]

theorem Rep.first_cons {q : Queue α} {x : α} {l : List α} (h : Rep q (x :: l))
    (hl : l.length < 2 ^ 31) : ∃ q', q.first = some (q', x, true) ∧ Rep q' l := by
  have hne : q.head ≠ q.tail := by
    intro hc; have := h.head_eq_tail.1 hc; simp at this
  obtain ⟨k, hd, hk, hs, hh, hhlt, hil, hll, ht, hel⟩ := h.ex
  simp only [List.length_cons] at hll ht hel
  have hpos : 0 < 2 ^ k := Nat.two_pow_pos k
  obtain ⟨nh, hnh⟩ : ∃ nh, nh = (hd + 1) % 2 ^ k := ⟨_, rfl⟩
  have hnlt : nh < 2 ^ k := by rw [hnh]; exact Nat.mod_lt _ hpos
  have e1 : Go.and (q.head + 1) q.size = (nh : Int) := by
    rw [hh, hs, Go.and_mask, hnh]; push_cast; rfl
  have hnext : ∀ i, (nh + i) % 2 ^ k = (hd + (i + 1)) % 2 ^ k := by
    intro i; rw [hnh, Nat.mod_add_mod]; congr 1; omega
  have htail : q.tail = ((nh + l.length) % 2 ^ k : Nat) := by rw [ht, hnext]
  have hx : Go.index q.items (hd : Int) = some x := by
    have := hel 0 (by omega)
    rw [Nat.add_zero, Nat.mod_eq_of_lt hhlt] at this
    simpa [Go.index_nat] using this
  have hel' : ∀ i, i < l.length → (q.items.set hd default)[(nh + i) % 2 ^ k]? = l[i]? := by
    intro i hi
    have := hel (i + 1) (by omega)
    rw [List.getElem?_cons_succ] at this
    rw [← this, List.getElem?_set_ne, hnext]
    intro hc
    rw [hnext] at hc
    have hc : (hd + 0) % 2 ^ k = (hd + (i + 1)) % 2 ^ k := by
      rw [Nat.add_zero, Nat.mod_eq_of_lt hhlt]; exact hc
    have := mod_add_cancel (by assumption) (by omega) (by omega) hc
    omega
  simp only [first, if_neg hne, e1, bind, Option.bind, pure]
  rw [hh, hx, Go.setIndex_nat (by omega)]
  simp only
  by_cases hsh : ((nh : Int) = 0 ∧ q.size > (minSize : Int) ∧ Go.shl q.tail 2 ≤ q.size)
  · rw [if_pos hsh]
    obtain ⟨h0, _, h4⟩ := hsh
    have h0 : nh = 0 := by exact_mod_cast h0
    subst h0
    have htl : q.tail = (l.length : Nat) := by
      rw [htail, Nat.zero_add, Nat.mod_eq_of_lt (by omega)]
    have e2 : (Go.shl q.tail 1).toNat = l.length * 2 := by
      rw [htl, Go.shl]; omega
    rw [e2]
    obtain ⟨k', hk', hs', hlt'⟩ := computeSize_spec (n := l.length * 2) (by omega)
    have hpos' : 0 < 2 ^ k' := Nat.two_pow_pos k'
    have hs1 : ((computeSize (l.length * 2) : Nat) : Int) + 1 = (2 ^ k' : Nat) := by omega
    rw [hs1, Go.make_nat, htl]
    have e3 : Go.slice (q.items.set hd default) 0 (l.length : Int) =
        some ((q.items.set hd default).take l.length) := by
      have := Go.slice_nat (a := q.items.set hd default) (lo := 0) (hi := l.length) (by omega)
        (by simp; omega)
      simpa using this
    simp only [e3]
    refine ⟨_, rfl, ⟨k', 0, hk', ?_, rfl, hpos', ?_, by omega, ?_, ?_⟩⟩
    · simp only; omega
    · simp [Go.copy_length]
    · simp only []; rw [Nat.zero_add, Nat.mod_eq_of_lt (by omega)]
    · intro i hi
      rw [Nat.mod_eq_of_lt (by omega), Nat.zero_add]
      have := hel' i hi
      rw [Nat.mod_eq_of_lt (by omega), Nat.zero_add] at this
      simp only [Go.copy, List.length_replicate]
      rw [List.take_of_length_le (by simp; omega), List.getElem?_append_left (by simp; omega),
        List.getElem?_take, if_pos hi, this]
  · rw [if_neg hsh]
    exact ⟨_, rfl, ⟨k, nh, hk, hs, rfl, hnlt, by simp [hil], by omega, htail, hel'⟩⟩

theorem Rep.last_nil {q : Queue α} (h : Rep q []) : q.last = some (q, default, false) := by
  simp [last, h.head_eq_tail.2 rfl]

theorem Rep.last_append {q : Queue α} {x : α} {l : List α} (h : Rep q (l ++ [x])) :
    ∃ q', q.last = some (q', x, true) ∧ Rep q' l := by
  have hne : q.head ≠ q.tail := by
    intro hc; have := h.head_eq_tail.1 hc; simp at this
  obtain ⟨k, hd, hk, hs, hh, hhlt, hil, hll, ht, hel⟩ := h.ex
  simp only [List.length_append, List.length_singleton] at hll ht hel
  have hpos : 0 < 2 ^ k := Nat.two_pow_pos k
  obtain ⟨nt, hnt⟩ : ∃ nt, nt = (hd + l.length) % 2 ^ k := ⟨_, rfl⟩
  have hnlt : nt < 2 ^ k := by rw [hnt]; exact Nat.mod_lt _ hpos
  have e1 : Go.and (q.tail - 1) q.size = (nt : Int) := by
    rw [ht, sub_one_mask hs (Nat.mod_lt _ hpos), hnt, Nat.mod_add_mod]
    have : hd + (l.length + 1) + (2 ^ k - 1) = hd + l.length + 2 ^ k := by omega
    rw [this, Nat.add_mod_right]
  have hx : Go.index q.items (nt : Int) = some x := by
    have := hel l.length (by omega)
    rw [← hnt] at this
    simpa [Go.index_nat] using this
  simp only [last, if_neg hne, e1, bind, Option.bind, pure]
  rw [hx, Go.setIndex_nat (by omega)]
  refine ⟨_, rfl, ⟨k, hd, hk, hs, hh, hhlt, by simp [hil], by omega, by simp [hnt], ?_⟩⟩
  intro i hi
  have := hel i (by omega)
  rw [List.getElem?_append_left hi] at this
  rw [← this, List.getElem?_set_ne]
  intro hc
  rw [hnt] at hc
  have := mod_add_cancel (by assumption) (by omega) (by omega) hc
  omega

theorem Rep.peek_eq {q : Queue α} {l : List α} (h : Rep q l) (i : Int) :
    q.peek i = some (match (if i < 0 then (if i + l.length < 0 then none else l[(i + l.length).toNat]?)
      else l[i.toNat]?) with | some x => (x, true) | none => (default, false)) := by
  have hlen := h.len_eq
  obtain ⟨k, hd, hk, hs, hh, hhlt, hil, hll, ht, hel⟩ := h.ex
  have hpos : 0 < 2 ^ k := Nat.two_pow_pos k
  have key : ∀ n : Nat, n < l.length → Go.index q.items (Go.and (q.head + n) q.size) = l[n]? := by
    intro n hn
    have e1 : Go.and (q.head + n) q.size = ((hd + n) % 2 ^ k : Nat) := by
      rw [hh, hs, Go.and_mask]; push_cast; rfl
    rw [e1, Go.index_nat, hel n hn]
  simp only [peek, hlen, bind, pure]
  have main : ∀ j : Int, (if j < 0 ∨ j ≥ l.length then some (default, false)
      else (Go.index q.items (Go.and (q.head + j) q.size)).bind fun a => some (a, true)) =
      some (match (if j < 0 then none else l[j.toNat]?) with
        | some x => (x, true) | none => ((default : α), false)) := by
    intro j
    by_cases hj : j < 0
    · simp [hj]
    · by_cases hj2 : j ≥ l.length
      · rw [if_pos (Or.inr hj2), if_neg hj, List.getElem?_eq_none (by omega)]
      · rw [if_neg (by omega), if_neg hj]
        obtain ⟨n, rfl⟩ : ∃ n : Nat, j = n := ⟨j.toNat, by omega⟩
        have hn : n < l.length := by omega
        rw [key n hn]
        simp [hn]
  by_cases hi : i < 0
  · simp only [if_pos hi]; exact main _
  · simp only [if_neg hi]
    have := main i
    simp only [if_neg hi] at this
    exact this

end Verif.Model.Queue
