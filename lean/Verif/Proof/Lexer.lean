import Verif.Model.Lexer
import Verif.Proof.SrcQueue
import Verif.Spec.Lex

namespace Verif.Model.Lexer

open Verif.Spec Verif.Spec.Lex

theorem and_bit_eq_zero (tts : TokenTypeSet) {n : Nat} (hn : n < 64) :
    (tts &&& (1#64 <<< n) = 0) ↔ ¬ Requested tts n := by
  unfold Requested
  constructor
  · intro h hr
    have := congrArg (fun v => BitVec.getLsbD v n) h
    simp only [BitVec.getLsbD_and, hr, BitVec.getLsbD_shiftLeft] at this
    simp [hn] at this
  · intro h
    apply BitVec.eq_of_getLsbD_eq
    intro i hi
    rw [BitVec.getLsbD_and, BitVec.getLsbD_shiftLeft]
    by_cases hin : i = n
    · subst hin
      have : tts.getLsbD i = false := by simpa using h
      simp [this]
    · have : (1#64).getLsbD (i - n) = false ∨ i < n := by
        by_cases hlt : i < n
        · exact Or.inr hlt
        · left; simp; omega
      rcases this with h' | h'
      · simp [h']
      · simp [h']

theorem new_types (re : Regexp) (types : List TokenType) (k : Nat) :
    (match groupType types k with
      | some (t, name) => t < 64 ∧ (new re types).types[k]? = some ⟨(t : Int), name⟩
      | none => (new re types).types[k]? = none ∨ ∃ name, (new re types).types[k]? = some ⟨errorTokenType, name⟩) := by
  unfold groupType new
  cases h : types[k]? with
  | none => simp [h]
  | some t =>
    by_cases ht : 0 ≤ t.type ∧ t.type < 64
    · simp only [ht, List.getElem?_map, h, Option.map_some, and_self, if_true]
      refine ⟨by omega, ?_⟩
      congr 1
      cases t
      simp at ht ⊢
      omega
    · simp only [List.getElem?_map, h, Option.map_some]
      rw [if_neg ht, if_neg ht]
      exact Or.inr ⟨_, rfl⟩

theorem fold_or_getLsbD (types : List TokenType) (m : TokenTypeSet) (n : Nat) :
    (types.foldl (fun tm t => tm ||| typeBit t.type) m).getLsbD n = true ↔
      m.getLsbD n = true ∨ ∃ t ∈ types, t.type = n ∧ n < 64 := by
  induction types generalizing m with
  | nil => simp
  | cons t ts ih =>
    rw [List.foldl_cons, ih, BitVec.getLsbD_or, Bool.or_eq_true]
    have : (typeBit t.type).getLsbD n = true ↔ t.type = n ∧ n < 64 := by
      unfold typeBit
      by_cases ht : 0 ≤ t.type ∧ t.type < 64
      · rw [if_pos ht]
        simp
        omega
      · rw [if_neg ht]
        simp
        omega
    rw [this]
    simp [or_assoc]

theorem typeMask_iff (re : Regexp) (types : List TokenType) (n : Nat) :
    (new re types).typeMask.getLsbD n = true ↔ ∃ t ∈ types, t.type = n ∧ n < 64 := by
  unfold new
  rw [fold_or_getLsbD]
  simp

/-- No token type of the lexer is requested. -/
theorem mask_zero_iff (re : Regexp) (types : List TokenType) (tts : TokenTypeSet) :
    tts &&& (new re types).typeMask = 0 ↔ ∀ k t, groupType types k = some t → ¬ Requested tts t.1 := by
  constructor
  · intro h k t hk hr
    have h1 : (new re types).typeMask.getLsbD t.1 = true := by
      rw [typeMask_iff]
      unfold groupType at hk
      cases hg : types[k]? with
      | none => rw [hg] at hk; simp at hk
      | some x =>
        rw [hg] at hk
        simp only at hk
        by_cases hx : 0 ≤ x.type ∧ x.type < 64
        · rw [if_pos hx] at hk
          have := Option.some.inj hk
          subst this
          exact ⟨x, List.mem_of_getElem? hg, by simp; omega, by simp; omega⟩
        · rw [if_neg hx] at hk; simp at hk
    have := congrArg (fun v => BitVec.getLsbD v t.1) h
    unfold Requested at hr
    simp [h1, hr] at this
  · intro h
    apply BitVec.eq_of_getLsbD_eq
    intro i hi
    rw [BitVec.getLsbD_and]
    by_cases hm : (new re types).typeMask.getLsbD i = true
    · obtain ⟨x, hx, hxt, _⟩ := (typeMask_iff re types i).1 hm
      obtain ⟨k, hk, hkx⟩ := List.getElem_of_mem hx
      have := h k (i, x.typeName) (by
        unfold groupType
        rw [List.getElem?_eq_getElem hk, hkx]
        simp only
        rw [if_pos (by omega)]
        simp [hxt])
      unfold Requested at this
      simp at this
      simp [this]
    · simp at hm
      simp [hm]

open Classical in
/-- Analysis of captured groups. -/
theorem groupLoop_spec (re : Regexp) (types : List TokenType) (src : Src) (c : List Nat) (p : Nat)
    (tts : TokenTypeSet) (e : Nat) (he : e ≤ c.length) (gs : List (Int × Int)) (g : Nat) (matched : Bool)
    (hgs : ∀ x ∈ gs, (x.1 = -1 ∧ x.2 = -1) ∨ (0 ≤ x.1 ∧ x.1 ≤ x.2 ∧ x.2 ≤ e)) :
    ((∀ j x, gs[j]? = some x → Captured x → ∃ t, groupType types (g + j) = some t ∧ ¬ Requested tts t.1) ∧
      groupLoop (new re types) src c p tts e gs g matched =
        some (.ok (none, if matched = true ∨ ∃ x ∈ gs, Captured x then 0 else (e : Int)))) ∨
    ∃ k a b : Nat, gs[k]? = some ((a : Int), (b : Int)) ∧ a ≤ b ∧ b ≤ e ∧
      (∀ j, j < k → ∀ x, gs[j]? = some x → Captured x → ∃ t, groupType types (g + j) = some t ∧ ¬ Requested tts t.1) ∧
      ((groupType types (g + k) = none ∧ ∃ text name,
          groupLoop (new re types) src c p tts e gs g matched =
            some (.error (wrongTokenError ⟨errorTokenType, name, text, ⟨some src, (p + a : Nat)⟩⟩))) ∨
       (∃ t name, groupType types (g + k) = some (t, name) ∧ Requested tts t ∧
          groupLoop (new re types) src c p tts e gs g matched =
            some (.ok (some ⟨t, name, (c.drop a).take (b - a), ⟨some src, (p + a : Nat)⟩⟩, e)))) := by
  induction gs generalizing g matched with
  | nil =>
    left
    refine ⟨by simp, ?_⟩
    unfold groupLoop
    simp
  | cons x gs ih =>
    obtain ⟨xa, xb⟩ := x
    have hx := hgs (xa, xb) (by simp)
    have hgs' : ∀ x ∈ gs, (x.1 = -1 ∧ x.2 = -1) ∨ (0 ≤ x.1 ∧ x.1 ≤ x.2 ∧ x.2 ≤ e) :=
      fun y hy => hgs y (by simp [hy])
    unfold groupLoop
    by_cases hc : xa ≥ 0 ∧ xb ≥ 0
    · rw [if_pos hc]
      obtain ⟨a, rfl⟩ : ∃ a : Nat, xa = a := ⟨xa.toNat, by omega⟩
      obtain ⟨b, rfl⟩ : ∃ b : Nat, xb = b := ⟨xb.toNat, by omega⟩
      have hab : a ≤ b ∧ b ≤ e := by simp only at hx; omega
      have hslice : Go.slice c (a : Int) (b : Int) = some ((c.drop a).take (b - a)) :=
        Go.slice_nat hab.1 (by omega)
      have hpos : SrcPos.new (some src) ((p : Int) + a) = ⟨some src, ((p + a : Nat) : Int)⟩ := by
        simp [SrcPos.new]
      have hnt := new_types re types g
      cases hg : groupType types g with
      | none =>
        right
        refine ⟨0, a, b, by simp, hab.1, hab.2, by omega, Or.inl ⟨hg, ?_⟩⟩
        rw [hg] at hnt
        rcases hnt with hnt | ⟨name, hnt⟩
        · rw [hnt]
          simp only [errorTokenType]
          rw [if_neg (by omega), hslice, hpos]
          exact ⟨_, _, rfl⟩
        · rw [hnt]
          simp only [errorTokenType]
          rw [if_neg (by omega), hslice, hpos]
          exact ⟨_, _, rfl⟩
      | some tn =>
        obtain ⟨t, name⟩ := tn
        rw [hg] at hnt
        obtain ⟨htlt, hnt⟩ := hnt
        rw [hnt]
        simp only
        by_cases hr : Requested tts t
        · right
          refine ⟨0, a, b, by simp, hab.1, hab.2, by omega, Or.inr ⟨t, name, hg, hr, ?_⟩⟩
          have hne : ¬ (tts &&& (1#64 <<< t) = 0) := fun h => (and_bit_eq_zero tts htlt).1 h hr
          rw [if_neg (by simp only [Int.toNat_natCast]; exact fun h => hne h.2), hslice, hpos]
          simp only [Option.bind_eq_bind, Option.bind_some]
          rw [if_neg (by simp [errorTokenType])]
          rfl
        · have hz : tts &&& (1#64 <<< t) = 0 := (and_bit_eq_zero tts htlt).2 hr
          rw [if_pos (by simp only [Int.toNat_natCast]; exact ⟨by omega, hz⟩)]
          rcases ih (g + 1) true hgs' with ⟨h1, h2⟩ | ⟨k, a', b', h1, h2, h3, h4, h5⟩
          · left
            refine ⟨?_, ?_⟩
            · intro j x hj hx'
              cases j with
              | zero => exact ⟨_, hg, hr⟩
              | succ j => rw [show g + (j + 1) = g + 1 + j by omega]; exact h1 j x (by simpa using hj) hx'
            · rw [h2]
              rw [if_pos (Or.inl rfl), if_pos (Or.inr ⟨_, List.mem_cons_self, by simp [Captured]⟩)]
          · right
            refine ⟨k + 1, a', b', by simpa using h1, h2, h3, ?_, ?_⟩
            · intro j hj x hjx hx'
              cases j with
              | zero => exact ⟨_, hg, hr⟩
              | succ j => rw [show g + (j + 1) = g + 1 + j by omega]; exact h4 j (by omega) x (by simpa using hjx) hx'
            · rw [show g + (k + 1) = g + 1 + k by omega]; exact h5
    · rw [if_neg hc]
      rcases ih (g + 1) matched hgs' with ⟨h1, h2⟩ | ⟨k, a', b', h1, h2, h3, h4, h5⟩
      · left
        refine ⟨?_, ?_⟩
        · intro j x hj hx'
          cases j with
          | zero =>
            simp at hj; subst hj
            exact absurd hx' hc
          | succ j => rw [show g + (j + 1) = g + 1 + j by omega]; exact h1 j x (by simpa using hj) hx'
        · rw [h2]
          have : (∃ x ∈ (xa, xb) :: gs, Captured x) ↔ ∃ x ∈ gs, Captured x := by
            constructor
            · rintro ⟨x, hx, hx'⟩
              rcases List.mem_cons.1 hx with rfl | hx
              · exact absurd hx' hc
              · exact ⟨x, hx, hx'⟩
            · rintro ⟨x, hx, hx'⟩; exact ⟨x, by simp [hx], hx'⟩
          simp only [this]
      · right
        refine ⟨k + 1, a', b', by simpa using h1, h2, h3, ?_, ?_⟩
        · intro j hj x hjx hx'
          cases j with
          | zero =>
            simp at hjx; subst hjx
            exact absurd hx' hc
          | succ j => rw [show g + (j + 1) = g + 1 + j by omega]; exact h4 j (by omega) x (by simpa using hjx) hx'
        · rw [show g + (k + 1) = g + 1 + k by omega]; exact h5

theorem newError_fields (code : Nat) (msg name : String) (lc : Int × Int) :
    (newError code msg name lc.1 lc.2).code = code ∧ (newError code msg name lc.1 lc.2).sourceName = name ∧
      ((newError code msg name lc.1 lc.2).line, (newError code msg name lc.1 lc.2).col) = lc := by
  unfold newError
  exact ⟨rfl, rfl, rfl⟩

/-- One match: either an insignificant lexeme, or a result. -/
theorem matchToken_spec {re : Regexp} (hre : ReOk re) (types : List TokenType) (tts : TokenTypeSet) (src : Src) (p : Nat)
    (hp : p < src.content.length) :
    (∃ e gs, MatchAt re src.content p e gs ∧ (∀ g ∈ gs, ¬ Captured g) ∧ p + e ≤ src.content.length ∧
      matchToken (new re types) src src.content p tts = some (.ok (none, (e : Int)))) ∨
    (∃ err, matchToken (new re types) src src.content p tts = some (.error err) ∧
      Lexeme re types tts src p p (.error err)) ∨
    (∃ tok, ∃ adv : Nat, matchToken (new re types) src src.content p tts = some (.ok (tok, (adv : Int))) ∧
      (tok = none → adv = 0) ∧ (tok ≠ none → 0 < adv) ∧ p + adv ≤ src.content.length ∧
      Lexeme re types tts src p (p + adv) (.ok tok)) := by
  unfold matchToken
  rw [Go.slice_nat (by omega) (Nat.le_refl _), List.take_of_length_le (by simp)]
  simp only [Option.bind_eq_bind, Option.bind_some]
  have hre' : (new re types).re = re := rfl
  rw [hre']
  obtain ⟨f1, f2, f3⟩ := newError_fields wrongCharCode "wrong char" src.name (src.lineCol p)
  have hwrong : (∀ e gs, ¬ MatchAt re src.content p e gs) →
      Lexeme re types tts src p p (.error (wrongCharError src (src.lineCol p))) :=
    fun h => Lexeme.wrongChar h _ f1 f2 f3
  cases hm : re (src.content.drop p) with
  | none =>
    right; left
    exact ⟨_, rfl, hwrong fun e gs h => by have := h.1; rw [hm] at this; simp at this⟩
  | some m =>
    cases m with
    | nil =>
      right; left
      exact ⟨_, rfl, hwrong fun e gs h => by have := h.1; rw [hm] at this; simp at this⟩
    | cons se gs =>
      obtain ⟨s, e⟩ := se
      simp only
      by_cases hse : s ≠ 0 ∨ e ≤ s
      · rw [if_pos hse]
        right; left
        refine ⟨_, rfl, hwrong fun e' gs' h => ?_⟩
        have h1 := h.1
        have h2 := h.2
        rw [hm] at h1
        simp at h1
        omega
      · rw [if_neg hse]
        have hs : s = 0 := by omega
        subst hs
        obtain ⟨n, rfl⟩ : ∃ n : Nat, e = n := ⟨e.toNat, by omega⟩
        have hn : 0 < n := by omega
        obtain ⟨_, _, hle, hgs⟩ := hre _ _ _ _ hm
        have hle' : n ≤ (src.content.drop p).length := by omega
        have hpn : p + n ≤ src.content.length := by rw [List.length_drop] at hle'; omega
        have hmatch : MatchAt re src.content p n gs := ⟨hm, hn⟩
        rcases groupLoop_spec re types src (src.content.drop p) p tts n hle' gs 0 false hgs with
          ⟨h1, h2⟩ | ⟨k, a, b, h1, h2, h3, h4, h5⟩
        · rw [h2]
          simp only [Nat.zero_add] at h1
          by_cases hcap : ∃ x ∈ gs, Captured x
          · right; right
            refine ⟨none, 0, by rw [if_pos (Or.inr hcap)]; rfl, fun _ => rfl, fun h => absurd rfl h, by omega, ?_⟩
            exact Lexeme.nothing n gs hmatch hcap fun j _ g hg hc => h1 j g hg hc
          · left
            refine ⟨n, gs, hmatch, fun g hg hc => hcap ⟨g, hg, hc⟩, hpn, ?_⟩
            rw [if_neg (by simp only [Bool.false_eq_true, false_or]; exact hcap)]
        · simp only [Nat.zero_add] at h4 h5
          have hdec : Decides types tts gs k := h4
          rcases h5 with ⟨h5, text, name, h6⟩ | ⟨t, name, h5, hr, h6⟩
          · right; left
            refine ⟨_, h6, ?_⟩
            obtain ⟨f1, f2, f3⟩ := newError_fields badTokenCode "bad token" src.name (src.lineCol ((p + a : Nat)))
            exact Lexeme.badToken n gs k a b hmatch h1 hdec h5 _ f1 f2 f3
          · right; right
            refine ⟨_, n, h6, by simp, fun _ => hn, hpn, ?_⟩
            rw [List.drop_drop]
            exact Lexeme.token n gs k a b t name hmatch h1 h2 h3 hpn hdec h5 hr

theorem rep_skip {q : SrcQueue} {src : Src} {p : Nat} {rest : SrcList.State Src}
    (h : SrcQueue.Rep q ((src, p) :: rest)) (n : Nat) (hn : p + n ≤ src.content.length) :
    SrcQueue.Rep (q.skip n) ((src, p + n) :: rest) := by
  have := h.skip n
  simp only [SrcList.move] at this
  have hl : src.len = src.content.length := rfl
  by_cases h0 : n = 0
  · subst h0; simpa using this
  · rw [if_neg (by omega), hl, Int.toNat_natCast, Nat.min_eq_left hn] at this
    exact this

theorem Rep.source_cons {q : SrcQueue} {src : Src} {p : Nat} {rest : SrcList.State Src}
    (h : SrcQueue.Rep q ((src, p) :: rest)) : q.source = some src ∧ q.contentPos = (src.content, (p : Int)) := by
  have h1 := h.source
  have h2 := h.pos
  simp at h1 h2
  exact ⟨h1, by simp [SrcQueue.contentPos, h1, h2]⟩

/-- One fetch from a source that is not at its end. -/
theorem fetch_inside {re : Regexp} (hre : ReOk re) (types : List TokenType) (tts : TokenTypeSet) {q : SrcQueue}
    {src : Src} {p : Nat} {rest : SrcList.State Src} (h : SrcQueue.Rep q ((src, p) :: rest))
    (hp : p < src.content.length) :
    ∃ q', (∃ e gs, MatchAt re src.content p e gs ∧ (∀ g ∈ gs, ¬ Captured g) ∧ p + e ≤ src.content.length ∧
        SrcQueue.Rep q' ((src, p + e) :: rest) ∧
        (new re types).fetch q tts = some ((q', .ok none), true)) ∨
      ∃ p' r, (new re types).fetch q tts = some ((q', r), decide (p < p')) ∧ p ≤ p' ∧ p' ≤ src.content.length ∧
        (r = .ok none → p' = p) ∧
        SrcQueue.Rep q' ((src, p') :: rest) ∧ Lexeme re types tts src p p' r := by
  obtain ⟨h1, h2⟩ := Rep.source_cons h
  unfold fetch
  rw [h2, h1]
  simp only
  rw [if_neg (by omega)]
  rcases matchToken_spec hre types tts src p hp with ⟨e, gs, hm, hg, hle, hr⟩ | ⟨err, hr, hl⟩ | ⟨tok, adv, hr, hn, hs, hle, hl⟩
  · refine ⟨q.skip e, Or.inl ⟨e, gs, hm, hg, hle, rep_skip h e hle, ?_⟩⟩
    rw [hr]
    have := hm.2
    simp only [Option.bind_eq_bind, Option.bind_some, Option.pure_def]
    simp; omega
  · refine ⟨q.skip 0, Or.inr ⟨p, _, ?_, Nat.le_refl _, by omega, by simp, ?_, hl⟩⟩
    · rw [hr]; simp
    · simpa using rep_skip h 0 (by omega)
  · refine ⟨q.skip adv, Or.inr ⟨p + adv, _, ?_, by omega, hle, ?_, rep_skip h adv hle, hl⟩⟩
    · rw [hr]
      simp
    · intro he
      have := hn (by simpa using he)
      omega

/-- One fetch at the end of a source. -/
theorem fetch_eof (l : Lexer) (tts : TokenTypeSet) {q : SrcQueue}
    {src : Src} {rest : SrcList.State Src} (h : SrcQueue.Rep q ((src, src.content.length) :: rest))
    (hlen : rest.length < 2 ^ 31) :
    ∃ q', l.fetch q tts = some ((q', .ok (some ⟨eofTokenType, "-eof-", [], ⟨some src, src.content.length⟩⟩)), false) ∧
      SrcQueue.Rep q' rest := by
  obtain ⟨h1, h2⟩ := Rep.source_cons h
  obtain ⟨q', e, r⟩ := h.next (by simp; omega)
  refine ⟨q', ?_, r⟩
  unfold fetch
  rw [h2, h1]
  simp only
  rw [if_pos (by omega), e]
  rfl

/-- One fetch from an empty queue. -/
theorem fetch_eoi (l : Lexer) (tts : TokenTypeSet) {q : SrcQueue} (h : SrcQueue.Rep q []) :
    l.fetch q tts = some ((q, .ok (some eoiToken)), false) := by
  have h1 := h.source
  simp at h1
  have h2 : q.contentPos = ([], 0) := by simp [SrcQueue.contentPos, h1]
  unfold fetch
  rw [h2, h1]
  simp

theorem Lexeme.not_nothing {re : Regexp} {types : List TokenType} {src : Src} {p p' : Nat}
    (h : Lexeme re types allTokenTypes src p p' (.ok none)) : False := by
  cases h with
  | nothing e gs hm hc hd =>
    obtain ⟨g, hg, hcap⟩ := hc
    obtain ⟨j, hj, hjx⟩ := List.getElem_of_mem hg
    obtain ⟨t, ht, hr⟩ := hd j hj g (by rw [List.getElem?_eq_getElem hj, hjx]) hcap
    apply hr
    unfold groupType at ht
    unfold Requested allTokenTypes
    cases hx : types[j]? with
    | none => rw [hx] at ht; simp at ht
    | some x =>
      rw [hx] at ht
      simp only at ht
      by_cases hv : 0 ≤ x.type ∧ x.type < 64
      · rw [if_pos hv] at ht
        have := Option.some.inj ht
        subst this
        rw [BitVec.getLsbD_allOnes]
        exact decide_eq_true (by show x.type.toNat < 64; omega)
      · rw [if_neg hv] at ht; simp at ht

/-- Meaning of the result `r` of a lexer call for a source `src` at offset `p`. -/
def CallSpec (re : Regexp) (types : List TokenType) (tts : TokenTypeSet) (src : Src) (p : Nat)
    (rest : SrcList.State Src) (l' : SrcList.State Src) (r : Except LlxError (Option Token)) : Prop :=
  ∃ p0, Skips re src.content p p0 ∧ p ≤ p0 ∧
    ((p0 = src.content.length ∧ l' = rest ∧
        r = .ok (some ⟨eofTokenType, "-eof-", [], ⟨some src, src.content.length⟩⟩)) ∨
      (p0 < src.content.length ∧ ∃ p', p' ≤ src.content.length ∧ p0 ≤ p' ∧ (r = .ok none → p' = p0) ∧
        l' = (src, p') :: rest ∧ Lexeme re types tts src p0 p' r))

theorem nextOfLoop_spec {re : Regexp} (hre : ReOk re) (types : List TokenType) (tts : TokenTypeSet) (fuel : Nat)
    {q : SrcQueue} {src : Src} {p : Nat} {rest : SrcList.State Src} (h : SrcQueue.Rep q ((src, p) :: rest))
    (hp : p ≤ src.content.length) (hlen : rest.length < 2 ^ 31) :
    (∃ q' l' r, (new re types).nextOfLoop tts fuel q = .done (q', r) ∧ SrcQueue.Rep q' l' ∧
      CallSpec re types tts src p rest l' r) ∨
    ((new re types).nextOfLoop tts fuel q = .timeout ∧ fuel ≤ src.content.length - p) := by
  induction fuel generalizing q p with
  | zero => right; exact ⟨rfl, by omega⟩
  | succ fuel ih =>
    unfold nextOfLoop
    by_cases hlt : p < src.content.length
    · obtain ⟨q', ⟨e, gs, hm, hg, hle, hrep, hf⟩ | ⟨p', r, hf, hpp, hle, hnone, hrep, hl⟩⟩ := fetch_inside hre types tts h hlt
      · rw [hf]
        simp only [if_true]
        have he := hm.2
        rcases ih hrep hle with ⟨q'', l', r, h1, h2, p0, h3, h3', h4⟩ | ⟨h1, h2⟩
        · left
          exact ⟨q'', l', r, h1, h2, p0, Skips.step hm hg h3, by omega, h4⟩
        · right
          exact ⟨h1, by omega⟩
      · rw [hf]
        left
        refine ⟨q', (src, p') :: rest, r, ?_, hrep, p, Skips.refl p, Nat.le_refl _, Or.inr ⟨hlt, p', hle, hpp, hnone, rfl, hl⟩⟩
        cases r with
        | error e => rfl
        | ok t =>
          cases t with
          | some t => rfl
          | none =>
            have := hnone rfl
            simp [this]
    · have hpe : p = src.content.length := by omega
      subst hpe
      obtain ⟨q', hf, hrep⟩ := fetch_eof (new re types) tts h hlen
      rw [hf]
      left
      exact ⟨q', rest, _, rfl, hrep, _, Skips.refl _, Nat.le_refl _, Or.inl ⟨rfl, rfl, rfl⟩⟩

theorem next_eq_loop {re : Regexp} (hre : ReOk re) (types : List TokenType) (fuel : Nat)
    {q : SrcQueue} {l : SrcList.State Src} (h : SrcQueue.Rep q l) (ok : SrcQueue.Ok l) (hlen : l.length ≤ 2 ^ 31) :
    (new re types).next fuel q = (new re types).nextOfLoop allTokenTypes fuel q := by
  induction fuel generalizing q l with
  | zero => rfl
  | succ fuel ih =>
    unfold next nextOfLoop
    cases l with
    | nil => rw [fetch_eoi _ _ h]
    | cons x rest =>
      obtain ⟨src, p⟩ := x
      have hp : p ≤ src.content.length := ok.pos (src, p) (by simp)
      by_cases hlt : p < src.content.length
      · obtain ⟨q', ⟨e, gs, hm, hg, hle, hrep, hf⟩ | ⟨p', r, hf, hpp, hle, hnone, hrep, hl⟩⟩ :=
          fetch_inside hre types allTokenTypes h hlt
        · rw [hf]
          simp only [if_true]
          refine ih hrep ?_ (by simpa using hlen)
          refine ⟨?_, ?_, ok.tail⟩
          · intro y hy
            rcases List.mem_cons.1 hy with rfl | hy
            · exact hle
            · exact ok.pos y (by simp [hy])
          · intro y r he h0
            simp at he
            obtain ⟨rfl, rfl⟩ := he
            exact ok.empty _ _ rfl h0
        · rw [hf]
          cases r with
          | error e => rfl
          | ok t =>
            cases t with
            | some t => rfl
            | none => exact absurd hl (Lexeme.not_nothing)
      · have hpe : p = src.content.length := by omega
        subst hpe
        obtain ⟨q', hf, hrep⟩ := fetch_eof (new re types) allTokenTypes h (by simp at hlen; omega)
        rw [hf]

end Verif.Model.Lexer
