import Verif.Proof.Lexer

namespace Verif.Model.Lexer

open Verif.Spec Verif.Spec.Lex

/-- A reachable queue holding the list of sources (see C09), there are at most `2^31` sources. -/
structure Holds (q : SrcQueue) (l : SrcList.State Src) : Prop where
  rep : SrcQueue.Rep q l
  ok : SrcQueue.Ok l
  size : l.length ≤ 2 ^ 31

theorem Holds.pos_le {q : SrcQueue} {src : Src} {p : Nat} {rest : SrcList.State Src} (h : Holds q ((src, p) :: rest)) :
    p ≤ src.content.length := h.ok.pos (src, p) (by simp)

theorem ok_moved {src : Src} {p p' : Nat} {rest : SrcList.State Src} (ok : SrcQueue.Ok ((src, p) :: rest))
    (h : p' ≤ src.content.length) : SrcQueue.Ok ((src, p') :: rest) := by
  refine ⟨?_, ?_, ok.tail⟩
  · intro y hy
    rcases List.mem_cons.1 hy with rfl | hy
    · exact h
    · exact ok.pos y (by simp [hy])
  · intro y r he h0
    simp at he
    obtain ⟨rfl, rfl⟩ := he
    exact ok.empty _ _ rfl h0

theorem CallSpec.ok {re : Regexp} {types : List TokenType} {tts : TokenTypeSet} {src : Src} {p : Nat}
    {rest l' : SrcList.State Src} {r : Except LlxError (Option Token)}
    (h : CallSpec re types tts src p rest l' r) (ok : SrcQueue.Ok ((src, p) :: rest)) : SrcQueue.Ok l' := by
  obtain ⟨p0, _, _, ⟨_, rfl, _⟩ | ⟨_, p', hle, _, _, rfl, _⟩⟩ := h
  · exact ok.next
  · exact ok_moved ok hle

theorem CallSpec.length {re : Regexp} {types : List TokenType} {tts : TokenTypeSet} {src : Src} {p : Nat}
    {rest l' : SrcList.State Src} {r : Except LlxError (Option Token)}
    (h : CallSpec re types tts src p rest l' r) : l'.length ≤ rest.length + 1 := by
  obtain ⟨p0, _, _, ⟨_, rfl, _⟩ | ⟨_, p', hle, _, _, rfl, _⟩⟩ := h
  · omega
  · simp

theorem nextOfLoop_mono (l : Lexer) (tts : TokenTypeSet) {fuel : Nat} {q : SrcQueue} {r : FetchResult}
    (h : l.nextOfLoop tts fuel q = .done r) (fuel' : Nat) (hf : fuel ≤ fuel') :
    l.nextOfLoop tts fuel' q = .done r := by
  induction fuel generalizing q fuel' with
  | zero => simp [nextOfLoop] at h
  | succ fuel ih =>
    obtain ⟨fuel', rfl⟩ : ∃ k, fuel' = k + 1 := ⟨fuel' - 1, by omega⟩
    unfold nextOfLoop at h ⊢
    cases hq : l.fetch q tts with
    | none => rw [hq] at h; simp at h
    | some x =>
      rw [hq] at h
      obtain ⟨⟨q', r'⟩, adv⟩ := x
      cases r' with
      | error e => simpa using h
      | ok t =>
        cases t with
        | some t => simpa using h
        | none =>
          cases adv with
          | false => simpa using h
          | true =>
            simp only [if_true] at h ⊢
            exact ih h fuel' (by omega)

theorem nextOfLoop_eoi (l : Lexer) (tts : TokenTypeSet) {q : SrcQueue} (h : SrcQueue.Rep q []) (fuel : Nat) :
    l.nextOfLoop tts (fuel + 1) q = .done (q, .ok (some eoiToken)) := by
  unfold nextOfLoop
  rw [fetch_eoi l tts h]

/-- Bound of the number of iterations of a call. -/
def bound : SrcList.State Src → Nat
  | [] => 1
  | (src, p) :: _ => src.content.length - p + 1

/-- Meaning of a call for any queue. -/
def Spec (re : Regexp) (types : List TokenType) (tts : TokenTypeSet) (q : SrcQueue) (l : SrcList.State Src)
    (q' : SrcQueue) (l' : SrcList.State Src) (r : Except LlxError (Option Token)) : Prop :=
  match l with
  | [] => q' = q ∧ l' = [] ∧ r = .ok (some eoiToken)
  | (src, p) :: rest => CallSpec re types tts src p rest l' r

theorem loop_total {re : Regexp} (hre : ReOk re) (types : List TokenType) (tts : TokenTypeSet) {q : SrcQueue}
    {l : SrcList.State Src} (h : Holds q l) :
    ∃ q' l' r, (∀ fuel, bound l ≤ fuel → (new re types).nextOfLoop tts fuel q = .done (q', r)) ∧ Holds q' l' ∧
      Spec re types tts q l q' l' r := by
  cases l with
  | nil =>
    refine ⟨q, [], _, fun fuel hf => ?_, h, rfl, rfl, rfl⟩
    obtain ⟨k, rfl⟩ : ∃ k, fuel = k + 1 := ⟨fuel - 1, by simp [bound] at hf; omega⟩
    exact nextOfLoop_eoi _ _ h.rep k
  | cons x rest =>
    obtain ⟨src, p⟩ := x
    have hsz := h.size
    simp only [List.length_cons] at hsz
    rcases nextOfLoop_spec hre types tts (bound ((src, p) :: rest)) h.rep h.pos_le (by omega) with
      ⟨q', l', r, h1, h2, h3⟩ | ⟨_, h2⟩
    · refine ⟨q', l', r, fun fuel hf => nextOfLoop_mono _ _ h1 fuel hf, ⟨h2, h3.ok h.ok, ?_⟩, h3⟩
      have := h3.length
      omega
    · simp [bound] at h2

theorem run_done_inj {α : Type} {a b : α} (h : Run.done a = Run.done b) : a = b := by injection h

theorem loop_spec {re : Regexp} (hre : ReOk re) {types : List TokenType} {tts : TokenTypeSet} {q : SrcQueue}
    {l : SrcList.State Src} (h : Holds q l) {fuel : Nat} {q' : SrcQueue} {r : Except LlxError (Option Token)}
    (hd : (new re types).nextOfLoop tts fuel q = .done (q', r)) :
    ∃ l', Holds q' l' ∧ Spec re types tts q l q' l' r := by
  obtain ⟨q1, l1, r1, h1, h2, h3⟩ := loop_total hre types tts h
  have e1 := h1 (max fuel (bound l)) (by omega)
  rw [nextOfLoop_mono _ _ hd _ (by omega)] at e1
  have := run_done_inj e1
  obtain ⟨rfl, rfl⟩ := Prod.mk.inj this
  exact ⟨l1, h2, h3⟩

theorem next_spec {re : Regexp} (hre : ReOk re) {types : List TokenType} {q : SrcQueue}
    {l : SrcList.State Src} (h : Holds q l) {fuel : Nat} {q' : SrcQueue} {r : Except LlxError (Option Token)}
    (hd : (new re types).next fuel q = .done (q', r)) :
    ∃ l', Holds q' l' ∧ Spec re types allTokenTypes q l q' l' r := by
  rw [next_eq_loop hre types fuel h.rep h.ok h.size] at hd
  exact loop_spec hre h hd

theorem next_total {re : Regexp} (hre : ReOk re) (types : List TokenType) {q : SrcQueue}
    {l : SrcList.State Src} (h : Holds q l) :
    ∃ q' l' r, (∀ fuel, bound l ≤ fuel → (new re types).next fuel q = .done (q', r)) ∧ Holds q' l' ∧
      Spec re types allTokenTypes q l q' l' r := by
  obtain ⟨q', l', r, h1, h2⟩ := loop_total hre types allTokenTypes h
  exact ⟨q', l', r, fun fuel hf => by rw [next_eq_loop hre types fuel h.rep h.ok h.size]; exact h1 fuel hf, h2⟩

/-- Meaning of `NextOf`. -/
theorem nextOf_spec {re : Regexp} (hre : ReOk re) {types : List TokenType} {tts : TokenTypeSet} {q : SrcQueue}
    {l : SrcList.State Src} (h : Holds q l) {fuel : Nat} {q' : SrcQueue} {r : Except LlxError (Option Token)}
    (hd : (new re types).nextOf fuel q tts = .done (q', r)) :
    (q' = q ∧ r = .ok none ∧ ∀ k t, groupType types k = some t → ¬ Requested tts t.1) ∨
    ∃ l', Holds q' l' ∧ Spec re types tts q l q' l' r := by
  unfold nextOf at hd
  by_cases hz : tts &&& (new re types).typeMask = 0
  · rw [if_pos hz] at hd
    have := run_done_inj hd
    obtain ⟨rfl, rfl⟩ := Prod.mk.inj this
    exact Or.inl ⟨rfl, rfl, (mask_zero_iff re types tts).1 hz⟩
  · rw [if_neg hz] at hd
    exact Or.inr (loop_spec hre h hd)

theorem groupType_lt {types : List TokenType} {k t : Nat} {name : String} (h : groupType types k = some (t, name)) :
    t < 64 ∧ (⟨(t : Int), name⟩ : TokenType) ∈ types := by
  unfold groupType at h
  cases hx : types[k]? with
  | none => rw [hx] at h; simp at h
  | some x =>
    rw [hx] at h
    simp only at h
    by_cases hv : 0 ≤ x.type ∧ x.type < 64
    · rw [if_pos hv] at h
      have := Option.some.inj h
      obtain ⟨rfl, rfl⟩ := Prod.mk.inj this
      refine ⟨by omega, ?_⟩
      have hm := List.mem_of_getElem? hx
      have : ((x.type.toNat : Nat) : Int) = x.type := by omega
      rw [this]
      exact hm
    · rw [if_neg hv] at h; simp at h

theorem skips_le {re : Regexp} {c : List Nat} {p p' : Nat} (h : Skips re c p p') : p ≤ p' := by
  induction h with
  | refl => omega
  | step hm _ _ ih => omega

/-- No skipping when there is no insignificant lexeme. -/
theorem skips_eq {re : Regexp} {c : List Nat} {p p' : Nat} (h : Skips re c p p')
    (hn : ∀ e gs, MatchAt re c p e gs → ∃ g ∈ gs, Captured g) : p' = p := by
  cases h with
  | refl => rfl
  | step hm hg _ =>
    obtain ⟨g, hg1, hg2⟩ := hn _ _ hm
    exact absurd hg2 (hg g hg1)

theorem matchAt_inj {re : Regexp} {c : List Nat} {p e e' : Nat} {gs gs' : List (Int × Int)}
    (h : MatchAt re c p e gs) (h' : MatchAt re c p e' gs') : e' = e ∧ gs' = gs := by
  have := h.1.symm.trans h'.1
  simp at this
  exact ⟨this.1.symm, this.2.symm⟩

theorem skips_unique {re : Regexp} {c : List Nat} {p a b : Nat} (ha : Skips re c p a) (hb : Skips re c p b)
    (hae : ∀ e gs, MatchAt re c a e gs → ∃ g ∈ gs, Captured g)
    (hbe : ∀ e gs, MatchAt re c b e gs → ∃ g ∈ gs, Captured g) : a = b := by
  induction ha with
  | refl => exact (skips_eq hb hae).symm
  | step hm hg hs ih =>
    cases hb with
    | refl =>
      obtain ⟨g, hg1, hg2⟩ := hbe _ _ hm
      exact absurd hg2 (hg g hg1)
    | step hm' hg' hs' =>
      obtain ⟨rfl, rfl⟩ := matchAt_inj hm hm'
      exact ih hs' hae

theorem skip_of_not_pos (q : SrcQueue) {n : Int} (h : ¬ n > 0) : q.skip n = q := by
  unfold SrcQueue.skip
  cases q.source with
  | none => rfl
  | some s => simp only; rw [if_pos (by omega)]

/-- A failed fetch without advance changes nothing. -/
theorem fetch_failed (l : Lexer) (tts : TokenTypeSet) {q q' : SrcQueue} {r : Except LlxError (Option Token)}
    (h : l.fetch q tts = some ((q', r), false)) (hf : ∀ t, r ≠ .ok (some t)) : q' = q := by
  unfold fetch at h
  cases hs : q.source with
  | none =>
    simp only [hs] at h
    by_cases hc : ((q.contentPos.1.length : Int) - q.contentPos.2 ≤ 0)
    · rw [if_pos hc] at h
      simp at h
      exact h.1.symm
    · rw [if_neg hc] at h
      simp at h
  | some src =>
    simp only [hs] at h
    by_cases hc : ((q.contentPos.1.length : Int) - q.contentPos.2 ≤ 0)
    · rw [if_pos hc] at h
      cases hn : q.nextSource with
      | none => rw [hn] at h; simp at h
      | some x =>
        rw [hn] at h
        simp [eofToken] at h
        exact absurd h.2.symm (hf _)
    · rw [if_neg hc] at h
      cases hm : l.matchToken src q.contentPos.1 q.contentPos.2 tts with
      | none => rw [hm] at h; simp at h
      | some m =>
        rw [hm] at h
        cases m with
        | error e =>
          simp at h
          rw [← h.1]
          exact skip_of_not_pos q (by omega)
        | ok x =>
          obtain ⟨tok, adv⟩ := x
          simp at h
          rw [← h.1.1]
          exact skip_of_not_pos q (by omega)

theorem nextOfLoop_retry (l : Lexer) (tts : TokenTypeSet) {q q' : SrcQueue} {fuel : Nat}
    {r : Except LlxError (Option Token)} (hd : l.nextOfLoop tts fuel q = .done (q', r)) (hf : ∀ t, r ≠ .ok (some t))
    (k : Nat) : l.nextOfLoop tts (k + 1) q' = .done (q', r) := by
  induction fuel generalizing q with
  | zero => simp [nextOfLoop] at hd
  | succ fuel ih =>
    unfold nextOfLoop at hd
    cases hq : l.fetch q tts with
    | none => rw [hq] at hd; simp at hd
    | some x =>
      rw [hq] at hd
      obtain ⟨⟨q1, r1⟩, adv⟩ := x
      cases r1 with
      | error e =>
        have hd := run_done_inj hd
        obtain ⟨rfl, rfl⟩ := Prod.mk.inj hd
        have hadv : adv = false := by
          unfold fetch at hq
          cases hs : q.source with
          | none => simp only [hs] at hq; split at hq <;> simp at hq
          | some src =>
            simp only [hs] at hq
            split at hq
            · cases hn : q.nextSource with
              | none => rw [hn] at hq; simp at hq
              | some x => rw [hn] at hq; simp [eofToken] at hq
            · cases hm : l.matchToken src q.contentPos.1 q.contentPos.2 tts with
              | none => rw [hm] at hq; simp at hq
              | some m =>
                rw [hm] at hq
                cases m with
                | error e => simp at hq; exact hq.2
                | ok x => simp at hq
        subst hadv
        have := fetch_failed l tts hq hf
        subst this
        unfold nextOfLoop
        rw [hq]
      | ok t =>
        cases t with
        | some t =>
          have hd := run_done_inj hd
          obtain ⟨rfl, rfl⟩ := Prod.mk.inj hd
          exact absurd rfl (hf t)
        | none =>
          cases adv with
          | true =>
            simp only [if_true] at hd
            exact ih hd
          | false =>
            simp only [Bool.false_eq_true, if_false] at hd
            have hd := run_done_inj hd
            obtain ⟨rfl, rfl⟩ := Prod.mk.inj hd
            have := fetch_failed l tts hq hf
            subst this
            unfold nextOfLoop
            rw [hq]
            rfl

end Verif.Model.Lexer
