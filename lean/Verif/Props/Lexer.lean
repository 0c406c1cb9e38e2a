/-
C12-C16: lexical analysis.

`Holds q l` means that `q` is a queue holding the list `l` of sources with positions; C09 shows that queues after any
history of calls are such. The matcher obeys `ReOk`, a contract of `regexp.FindSubmatchIndex`.
-/
import Verif.Proof.LexerCalls
import Verif.Props.SrcQueue

namespace Verif.Props

open Verif.Model Verif.Model.Lexer Verif.Spec Verif.Spec.Lex

/-- Queues after any history are covered by the theorems below. -/
theorem holds_of_history (ops : List (SrcList.Op Src)) (hn : ops.length < 2 ^ 31) :
    ∃ q0 q snaps os, SrcQueue.new = some q0 ∧ srcRun (q0, []) ops = some ((q, snaps), os) ∧
      Holds q (SrcList.run Src.len ([], []) ops).1 := by
  obtain ⟨q0, e, r⟩ := SrcQueue.new_rep
  obtain ⟨⟨q, snaps⟩, e', r'⟩ := srcRun_rep (n := 0) (l := ([], [])) (st := (q0, []))
    ⟨r, rfl, SrcQueue.ok_nil, by simp, by simp⟩ ops (by omega)
  exact ⟨q0, q, snaps, _, e, e', ⟨r'.rep, r'.ok, by have := r'.size; omega⟩⟩

/-! A sample lexer: spaces are insignificant, `1` is a name token, `2` is a broken token, other bytes are errors. -/

/-- Sample matcher. -/
def sampleRe : Regexp
  | 32 :: _ => some [(0, 1), (-1, -1), (-1, -1)]
  | 1 :: 1 :: _ => some [(0, 2), (0, 2), (-1, -1)]
  | 1 :: _ => some [(0, 1), (0, 1), (-1, -1)]
  | 2 :: _ => some [(0, 1), (-1, -1), (0, 1)]
  | _ => none

/-- Sample token types, there is no description for the second group. -/
def sampleTypes : List TokenType := [⟨5, "name"⟩]

theorem sampleRe_ok : ReOk sampleRe := by
  intro c s e gs h
  unfold sampleRe at h
  split at h <;> simp at h <;> obtain ⟨⟨rfl, rfl⟩, rfl⟩ := h <;> simp <;> omega

/-- Ring buffer of a new queue. -/
def emptyRing : Queue QItem := ⟨[⟨none, 0⟩, ⟨none, 0⟩, ⟨none, 0⟩, ⟨none, 0⟩], 3, 0, 0⟩

/-- A queue with one source. -/
def sampleQueue (content : List Nat) (pos : Int) : SrcQueue :=
  { q := emptyRing, source := some ⟨1, "s", content⟩, pos := pos }

/-- **C12**. `Next` and `NextOf` return (without panics) for every matcher obeying the contract, type table, queue and
requested types: the number of iterations is at most the number of remaining bytes of the current source plus one. -/
theorem C12_terminates {re : Regexp} (hre : ReOk re) (types : List TokenType) (tts : TokenTypeSet) {q : SrcQueue}
    {l : SrcList.State Src} (h : Holds q l) :
    (∃ res, ∀ fuel, bound l ≤ fuel → (new re types).next fuel q = .done res) ∧
    (∃ res, ∀ fuel, bound l ≤ fuel → (new re types).nextOf fuel q tts = .done res) := by
  constructor
  · obtain ⟨q', l', r, h1, _⟩ := next_total hre types h
    exact ⟨_, h1⟩
  · unfold nextOf
    by_cases hz : tts &&& (new re types).typeMask = 0
    · simp only [hz, if_true]
      exact ⟨_, fun _ _ => rfl⟩
    · simp only [hz, if_false]
      obtain ⟨q', l', r, h1, _⟩ := loop_total hre types tts h
      exact ⟨_, h1⟩

example : ((new sampleRe sampleTypes).next 4 (sampleQueue [32, 32, 1] 0)) =
    .done (sampleQueue [32, 32, 1] 3, .ok (some ⟨5, "name", [1], ⟨some ⟨1, "s", [32, 32, 1]⟩, 2⟩⟩)) := by
  decide +kernel

/-- **C13**. A token (not EoF/EoI) returned by `NextOf` is a piece of the current source between the old and the new
position, of a requested type with a name from the table, never of the error type. -/
theorem C13_token_faithful {re : Regexp} (hre : ReOk re) {types : List TokenType} {tts : TokenTypeSet} {q q' : SrcQueue}
    {l : SrcList.State Src} (h : Holds q l) {fuel : Nat} {t : Token}
    (hd : (new re types).nextOf fuel q tts = .done (q', .ok (some t))) (he : t.type ≠ -2) (hi : t.type ≠ -3) :
    ∃ src p rest p' a, l = (src, p) :: rest ∧ Holds q' ((src, p') :: rest) ∧ p < p' ∧ p' ≤ src.content.length ∧
      p ≤ a ∧ a + t.content.length ≤ p' ∧ t.pos = ⟨some src, (a : Nat)⟩ ∧
      t.content = (src.content.drop a).take t.content.length ∧
      (∃ n : Nat, t.type = n ∧ n < 64 ∧ Requested tts n) ∧ ⟨t.type, t.typeName⟩ ∈ types := by
  rcases nextOf_spec hre h hd with ⟨_, hr, _⟩ | ⟨l', hl', hs⟩
  · simp at hr
  · cases l with
    | nil =>
      simp only [Lexer.Spec] at hs
      have := hs.2.2
      simp at this
      subst this
      exact absurd rfl hi
    | cons x rest =>
      obtain ⟨src, p⟩ := x
      obtain ⟨p0, hsk, hle0, ⟨_, _, hr⟩ | ⟨hlt, p', hle, hpp, _, rfl, hlex⟩⟩ := hs
      · simp at hr
        subst hr
        exact absurd rfl he
      · cases hlex with
        | token e gs k a b t name hm hg hab hbe hpe hdec hgt hreq =>
          obtain ⟨hlt64, hmem⟩ := groupType_lt hgt
          have hlen : ((src.content.drop (p0 + a)).take (b - a)).length = b - a := by
            rw [List.length_take, List.length_drop]; omega
          have := hm.2
          refine ⟨src, p, rest, p0 + e, p0 + a, rfl, hl', by omega, hpe, by omega, ?_, rfl, ?_, ⟨t, rfl, hlt64, hreq⟩, hmem⟩
          · simp only [hlen]; omega
          · simp only [hlen]

/-- **C13** for `Next`: the same with all types requested. -/
theorem C13_next_faithful {re : Regexp} (hre : ReOk re) {types : List TokenType} {q q' : SrcQueue}
    {l : SrcList.State Src} (h : Holds q l) {fuel : Nat} {t : Token}
    (hd : (new re types).next fuel q = .done (q', .ok (some t))) (he : t.type ≠ -2) (hi : t.type ≠ -3) :
    ∃ src p rest p' a, l = (src, p) :: rest ∧ Holds q' ((src, p') :: rest) ∧ p < p' ∧ p' ≤ src.content.length ∧
      p ≤ a ∧ a + t.content.length ≤ p' ∧ t.pos = ⟨some src, (a : Nat)⟩ ∧
      t.content = (src.content.drop a).take t.content.length ∧
      (∃ n : Nat, t.type = n ∧ n < 64) ∧ ⟨t.type, t.typeName⟩ ∈ types := by
  by_cases hz : allTokenTypes &&& (new re types).typeMask = 0
  · obtain ⟨l', hl', hs⟩ := next_spec hre h hd
    cases l with
    | nil =>
      simp only [Lexer.Spec] at hs
      have := hs.2.2
      simp at this
      subst this
      exact absurd rfl hi
    | cons x rest =>
      obtain ⟨src, p⟩ := x
      obtain ⟨p0, hsk, hle0, ⟨_, _, hr⟩ | ⟨hlt, p', hle, hpp, _, rfl, hlex⟩⟩ := hs
      · simp at hr
        subst hr
        exact absurd rfl he
      · cases hlex with
        | token e gs k a b t name hm hg hab hbe hpe hdec hgt hreq =>
          exact absurd hreq ((mask_zero_iff re types allTokenTypes).1 hz k _ hgt)
  · have hd' : (new re types).nextOf fuel q allTokenTypes = .done (q', .ok (some t)) := by
      unfold nextOf
      rw [if_neg hz, ← next_eq_loop hre types fuel h.rep h.ok h.size]
      exact hd
    obtain ⟨src, p, rest, p', a, h1, h2, h3, h4, h5, h6, h7, h8, ⟨n, h9, h10, _⟩, h11⟩ :=
      C13_token_faithful hre h hd' he hi
    exact ⟨src, p, rest, p', a, h1, h2, h3, h4, h5, h6, h7, h8, ⟨n, h9, h10⟩, h11⟩

/-- **C13**, which token is returned: if insignificant lexemes lead from the current position to `p0`, and the match
at `p0` captures a group of a requested type (and no earlier group of a requested or an erroneous type), then `NextOf`
returns the text of this group and moves the queue to the end of the match. -/
theorem C13_token_complete {re : Regexp} (hre : ReOk re) {types : List TokenType} {tts : TokenTypeSet} {q : SrcQueue}
    {src : Src} {p p0 : Nat} {rest : SrcList.State Src} (h : Holds q ((src, p) :: rest))
    (hsk : Skips re src.content p p0) (hp0 : p0 < src.content.length)
    {e k a b t : Nat} {gs : List (Int × Int)} {name : String} (hm : MatchAt re src.content p0 e gs)
    (hg : gs[k]? = some ((a : Int), (b : Int))) (hdec : Decides types tts gs k)
    (hgt : groupType types k = some (t, name)) (hreq : Requested tts t) :
    ∃ q', (∀ fuel, src.content.length - p < fuel → (new re types).nextOf fuel q tts =
        .done (q', .ok (some ⟨t, name, (src.content.drop (p0 + a)).take (b - a), ⟨some src, (p0 + a : Nat)⟩⟩))) ∧
      Holds q' ((src, p0 + e) :: rest) := by
  have hz : ¬ tts &&& (new re types).typeMask = 0 := fun hz => (mask_zero_iff re types tts).1 hz k _ hgt hreq
  unfold nextOf
  simp only [if_neg hz]
  obtain ⟨q', l', r, h1, h2, p1, hsk1, _, hs⟩ := loop_total hre types tts h
  have hcap0 : ∀ e gs, MatchAt re src.content p0 e gs → ∃ g ∈ gs, Captured g := by
    intro e' gs' hm'
    obtain ⟨rfl, rfl⟩ := matchAt_inj hm hm'
    exact ⟨_, List.mem_of_getElem? hg, by simp [Captured]⟩
  have hkey : p1 < src.content.length → (∀ e gs, MatchAt re src.content p1 e gs → ∃ g ∈ gs, Captured g) → p0 = p1 :=
    fun _ hc => skips_unique hsk hsk1 hcap0 hc
  rcases hs with ⟨hp1, _, _⟩ | ⟨hp1, p', hle, hpp, hnone, rfl, hlex⟩
  · exfalso
    -- no match at the end of source
    have hc1 : ∀ e gs, MatchAt re src.content p1 e gs → ∃ g ∈ gs, Captured g := by
      intro e' gs' hm'
      have := (hre _ _ _ _ hm'.1).2.2.1
      have h2 := hm'.2
      rw [List.length_drop] at this
      omega
    have := skips_unique hsk hsk1 hcap0 hc1
    omega
  · cases hlex with
    | wrongChar hno err =>
      have := hkey hp1 (fun e' gs' hm' => absurd hm' (hno e' gs'))
      subst this
      exact absurd hm (hno e gs)
    | badToken e' gs' k' a' b' hm' hg' hdec' hgt' err =>
      have := hkey hp1 (fun e2 gs2 hm2 => by
        obtain ⟨rfl, rfl⟩ := matchAt_inj hm' hm2
        exact ⟨_, List.mem_of_getElem? hg', by simp [Captured]⟩)
      subst this
      obtain ⟨rfl, rfl⟩ := matchAt_inj hm hm'
      exfalso
      rcases Nat.lt_trichotomy k k' with hk | hk | hk
      · obtain ⟨x, hx, hx'⟩ := hdec' k hk _ hg (by simp [Captured])
        rw [hgt] at hx
        have := Option.some.inj hx
        subst this
        exact hx' hreq
      · subst hk; rw [hgt] at hgt'; simp at hgt'
      · obtain ⟨x, hx, _⟩ := hdec k' hk _ hg' (by simp [Captured])
        rw [hgt'] at hx; simp at hx
    | token e' gs' k' a' b' t' name' hm' hg' hab' hbe' hpe' hdec' hgt' hreq' =>
      have := hkey hp1 (fun e2 gs2 hm2 => by
        obtain ⟨rfl, rfl⟩ := matchAt_inj hm' hm2
        exact ⟨_, List.mem_of_getElem? hg', by simp [Captured]⟩)
      subst this
      obtain ⟨rfl, rfl⟩ := matchAt_inj hm hm'
      have hk : k' = k := by
        rcases Nat.lt_trichotomy k k' with hk | hk | hk
        · obtain ⟨x, hx, hx'⟩ := hdec' k hk _ hg (by simp [Captured])
          rw [hgt] at hx
          have := Option.some.inj hx
          subst this
          exact absurd hreq hx'
        · exact hk.symm
        · obtain ⟨x, hx, hx'⟩ := hdec k' hk _ hg' (by simp [Captured])
          rw [hgt'] at hx
          have := Option.some.inj hx
          subst this
          exact absurd hreq' hx'
      subst hk
      rw [hg] at hg'
      simp at hg'
      obtain ⟨rfl, rfl⟩ := hg'
      rw [hgt] at hgt'
      simp at hgt'
      obtain ⟨rfl, rfl⟩ := hgt'
      exact ⟨q', fun fuel hf => h1 fuel (by simp only [bound]; omega), h2⟩
    | nothing e' gs' hm' hc' hdec' =>
      have := hkey hp1 (fun e2 gs2 hm2 => by
        obtain ⟨rfl, rfl⟩ := matchAt_inj hm' hm2
        exact hc')
      subst this
      obtain ⟨rfl, rfl⟩ := matchAt_inj hm hm'
      exfalso
      have hk : k < gs'.length := (List.getElem?_eq_some_iff.1 hg).1
      obtain ⟨x, hx, hx'⟩ := hdec' k hk _ hg (by simp [Captured])
      rw [hgt] at hx
      have := Option.some.inj hx
      subst this
      exact hx' hreq

/-- **C13**, error groups: if the match captures a group that has no valid description (and no earlier group of a
requested type), the result is a `BadTokenError` (102) at the position of the group. -/
theorem C13_bad_token {re : Regexp} (hre : ReOk re) {types : List TokenType} {tts : TokenTypeSet} {q : SrcQueue}
    {src : Src} {p p0 : Nat} {rest : SrcList.State Src} (h : Holds q ((src, p) :: rest))
    (hz : ¬ ∀ k t, groupType types k = some t → ¬ Requested tts t.1)
    (hsk : Skips re src.content p p0) (hp0 : p0 < src.content.length)
    {e k a b : Nat} {gs : List (Int × Int)} (hm : MatchAt re src.content p0 e gs)
    (hg : gs[k]? = some ((a : Int), (b : Int))) (hdec : Decides types tts gs k)
    (hgt : groupType types k = none) :
    ∃ q' err, (∀ fuel, src.content.length - p < fuel → (new re types).nextOf fuel q tts = .done (q', .error err)) ∧
      err.code = 102 ∧ err.sourceName = src.name ∧ (err.line, err.col) = src.lineCol (p0 + a : Nat) := by
  have hz : ¬ tts &&& (new re types).typeMask = 0 := fun hz' => hz ((mask_zero_iff re types tts).1 hz')
  unfold nextOf
  simp only [if_neg hz]
  obtain ⟨q', l', r, h1, h2, p1, hsk1, _, hs⟩ := loop_total hre types tts h
  have hcap0 : ∀ e gs, MatchAt re src.content p0 e gs → ∃ g ∈ gs, Captured g := by
    intro e' gs' hm'
    obtain ⟨rfl, rfl⟩ := matchAt_inj hm hm'
    exact ⟨_, List.mem_of_getElem? hg, by simp [Captured]⟩
  have hkey : (∀ e gs, MatchAt re src.content p1 e gs → ∃ g ∈ gs, Captured g) → p0 = p1 :=
    fun hc => skips_unique hsk hsk1 hcap0 hc
  rcases hs with ⟨hp1, _, _⟩ | ⟨hp1, p', hle, hpp, hnone, rfl, hlex⟩
  · exfalso
    have hc1 : ∀ e gs, MatchAt re src.content p1 e gs → ∃ g ∈ gs, Captured g := by
      intro e' gs' hm'
      have := (hre _ _ _ _ hm'.1).2.2.1
      have h2 := hm'.2
      rw [List.length_drop] at this
      omega
    have := hkey hc1
    omega
  · cases hlex with
    | wrongChar hno err =>
      have := hkey (fun e' gs' hm' => absurd hm' (hno e' gs'))
      subst this
      exact absurd hm (hno e gs)
    | badToken e' gs' k' a' b' hm' hg' hdec' hgt' err hc hn hlc =>
      have := hkey (fun e2 gs2 hm2 => by
        obtain ⟨rfl, rfl⟩ := matchAt_inj hm' hm2
        exact ⟨_, List.mem_of_getElem? hg', by simp [Captured]⟩)
      subst this
      obtain ⟨rfl, rfl⟩ := matchAt_inj hm hm'
      have hk : k' = k := by
        rcases Nat.lt_trichotomy k k' with hk | hk | hk
        · obtain ⟨x, hx, hx'⟩ := hdec' k hk _ hg (by simp [Captured])
          rw [hgt] at hx; simp at hx
        · exact hk.symm
        · obtain ⟨x, hx, hx'⟩ := hdec k' hk _ hg' (by simp [Captured])
          rw [hgt'] at hx; simp at hx
      subst hk
      rw [hg] at hg'
      simp at hg'
      obtain ⟨rfl, rfl⟩ := hg'
      exact ⟨q', err, fun fuel hf => h1 fuel (by simp only [bound]; omega), hc, hn, hlc⟩
    | token e' gs' k' a' b' t' name' hm' hg' hab' hbe' hpe' hdec' hgt' hreq' =>
      have := hkey (fun e2 gs2 hm2 => by
        obtain ⟨rfl, rfl⟩ := matchAt_inj hm' hm2
        exact ⟨_, List.mem_of_getElem? hg', by simp [Captured]⟩)
      subst this
      obtain ⟨rfl, rfl⟩ := matchAt_inj hm hm'
      exfalso
      rcases Nat.lt_trichotomy k k' with hk | hk | hk
      · obtain ⟨x, hx, hx'⟩ := hdec' k hk _ hg (by simp [Captured])
        rw [hgt] at hx; simp at hx
      · subst hk; rw [hgt] at hgt'; simp at hgt'
      · obtain ⟨x, hx, hx'⟩ := hdec k' hk _ hg' (by simp [Captured])
        rw [hgt'] at hx
        have := Option.some.inj hx
        subst this
        exact hx' hreq'
    | nothing e' gs' hm' hc' hdec' =>
      have := hkey (fun e2 gs2 hm2 => by
        obtain ⟨rfl, rfl⟩ := matchAt_inj hm' hm2
        exact hc')
      subst this
      obtain ⟨rfl, rfl⟩ := matchAt_inj hm hm'
      exfalso
      have hk : k < gs'.length := (List.getElem?_eq_some_iff.1 hg).1
      obtain ⟨x, hx, hx'⟩ := hdec' k hk _ hg (by simp [Captured])
      rw [hgt] at hx; simp at hx

/-- A broken token after a space. -/
example : (match (new sampleRe sampleTypes).nextOf 3 (sampleQueue [32, 2] 0) allTokenTypes with
    | .done (_, .error e) => some (e.code, e.line, e.col)
    | _ => none) = some (102, 1, 2) := by decide +kernel

/-- The hypotheses of `C13_token_complete` hold for the sample: a space, then a name of two bytes. -/
example : Skips sampleRe [32, 1, 1] 0 1 ∧ MatchAt sampleRe [32, 1, 1] 1 2 [(0, 2), (-1, -1)] ∧
    groupType sampleTypes 0 = some (5, "name") :=
  ⟨Skips.step (e := 1) (gs := [(-1, -1), (-1, -1)]) ⟨rfl, by decide⟩ (by simp [Captured]) (Skips.refl 1),
    ⟨rfl, by decide⟩, by decide⟩

/-! ### Sequences of calls -/

/-- Successful calls of `Next` returning the tokens `ts`. -/
inductive Calls (l : Lexer) : SrcQueue → List Token → SrcQueue → Prop
  | nil (q : SrcQueue) : Calls l q [] q
  | cons {q q1 q2 : SrcQueue} {t : Token} {ts : List Token} (fuel : Nat) :
      l.next fuel q = .done (q1, .ok (some t)) → Calls l q1 ts q2 → Calls l q (t :: ts) q2

/-- The list of lexemes (start, length): consecutive matches leading from `p` to `p'`. -/
def Lexemes (re : Regexp) (c : List Nat) (p : Nat) : List (Nat × Nat) → Nat → Prop
  | [], p' => p = p'
  | (s, e) :: segs, p' => s = p ∧ (∃ gs, MatchAt re c s e gs) ∧ Lexemes re c (p + e) segs p'

theorem Lexemes.append {re : Regexp} {c : List Nat} {p p1 p2 : Nat} {a b : List (Nat × Nat)}
    (ha : Lexemes re c p a p1) (hb : Lexemes re c p1 b p2) : Lexemes re c p (a ++ b) p2 := by
  induction a generalizing p with
  | nil => simp only [Lexemes] at ha; subst ha; exact hb
  | cons x a ih => exact ⟨ha.1, ha.2.1, ih ha.2.2⟩

theorem Lexemes.le {re : Regexp} {c : List Nat} {p p' : Nat} {a : List (Nat × Nat)} (h : Lexemes re c p a p') : p ≤ p' := by
  induction a generalizing p with
  | nil => simp only [Lexemes] at h; omega
  | cons x a ih => have := ih h.2.2; omega

theorem Lexemes.start_ge {re : Regexp} {c : List Nat} {p p' : Nat} {a : List (Nat × Nat)} (h : Lexemes re c p a p') :
    ∀ s ∈ a, p ≤ s.1 := by
  induction a generalizing p with
  | nil => simp
  | cons x a ih =>
    intro s hs
    rcases List.mem_cons.1 hs with rfl | hs
    · exact Nat.le_of_eq h.1.symm
    · have := ih h.2.2 s hs; omega

theorem Lexemes.of_skips {re : Regexp} {c : List Nat} {p p' : Nat} (h : Skips re c p p') :
    ∃ a, Lexemes re c p a p' := by
  induction h with
  | refl p => exact ⟨[], rfl⟩
  | step hm _ _ ih =>
    obtain ⟨a, ha⟩ := ih
    exact ⟨(_, _) :: a, rfl, ⟨_, hm⟩, ha⟩

/-- Every byte belongs to exactly one lexeme. -/
theorem Lexemes.cover {re : Regexp} {c : List Nat} {p p' : Nat} {a : List (Nat × Nat)} (h : Lexemes re c p a p')
    (i : Nat) (hi : p ≤ i ∧ i < p') : ∃! s, s ∈ a ∧ s.1 ≤ i ∧ i < s.1 + s.2 := by
  induction a generalizing p with
  | nil => simp only [Lexemes] at h; omega
  | cons x a ih =>
    obtain ⟨s, e⟩ := x
    obtain ⟨rfl, hm, hr⟩ := h
    by_cases hlt : i < s + e
    · refine ⟨(s, e), ⟨by simp, hi.1, hlt⟩, ?_⟩
      rintro ⟨s', e'⟩ ⟨hs', h1, h2⟩
      rcases List.mem_cons.1 hs' with hs' | hs'
      · exact hs'
      · have h3 := hr.start_ge _ hs'
        simp only at h1 h3
        omega
    · obtain ⟨y, ⟨hy1, hy2⟩, hy3⟩ := ih hr ⟨by omega, hi.2⟩
      refine ⟨y, ⟨by simp [hy1], hy2⟩, ?_⟩
      rintro z ⟨hz1, hz2⟩
      rcases List.mem_cons.1 hz1 with hz1 | hz1
      · subst hz1; simp only at hz2; omega
      · exact hy3 z ⟨hz1, hz2⟩

/-- **C14**. Tokens returned by successive calls of `Next` before the end of the source are pieces of the current source
in order, without overlapping; the bytes passed by the calls are covered by consecutive matches (each byte by exactly
one), the queue position is the end of the last match, and different tokens come from different matches. -/
theorem C14_tokens_tile {re : Regexp} (hre : ReOk re) {types : List TokenType} {q q' : SrcQueue} {src : Src} {p : Nat}
    {rest : SrcList.State Src} (h : Holds q ((src, p) :: rest)) {ts : List Token}
    (hc : Calls (new re types) q ts q') (hn : ∀ t ∈ ts, t.type ≠ -2 ∧ t.type ≠ -3) :
    ∃ p' segs, Holds q' ((src, p') :: rest) ∧ Lexemes re src.content p segs p' ∧
      (∀ i, p ≤ i ∧ i < p' → ∃! s, s ∈ segs ∧ s.1 ≤ i ∧ i < s.1 + s.2) ∧
      (∀ t ∈ ts, t.pos.src = some src ∧ ∃ s ∈ segs, (s.1 : Int) ≤ t.pos.pos ∧
        t.pos.pos + (t.content.length : Int) ≤ ((s.1 + s.2 : Nat) : Int)) ∧
      ts.Pairwise (fun t u => ∃ s ∈ segs, t.pos.pos + (t.content.length : Int) ≤ ((s.1 + s.2 : Nat) : Int) ∧
        ((s.1 + s.2 : Nat) : Int) ≤ u.pos.pos ∧ (s.1 : Int) ≤ t.pos.pos) := by
  suffices hmain : ∃ p' segs, Holds q' ((src, p') :: rest) ∧ Lexemes re src.content p segs p' ∧
      (∀ t ∈ ts, t.pos.src = some src ∧ ∃ s ∈ segs, (s.1 : Int) ≤ t.pos.pos ∧
        t.pos.pos + (t.content.length : Int) ≤ ((s.1 + s.2 : Nat) : Int)) ∧
      ts.Pairwise (fun t u => ∃ s ∈ segs, t.pos.pos + (t.content.length : Int) ≤ ((s.1 + s.2 : Nat) : Int) ∧
        ((s.1 + s.2 : Nat) : Int) ≤ u.pos.pos ∧ (s.1 : Int) ≤ t.pos.pos) by
    obtain ⟨p', segs, h1, h2, h3, h4⟩ := hmain
    exact ⟨p', segs, h1, h2, fun i hi => h2.cover i hi, h3, h4⟩
  induction hc generalizing p with
  | nil q => exact ⟨p, [], h, rfl, by simp, List.Pairwise.nil⟩
  | @cons q q1 q2 t ts fuel hnext hcalls ih =>
    obtain ⟨l', hl', hs⟩ := next_spec hre h hnext
    obtain ⟨hne, hni⟩ := hn t (by simp)
    obtain ⟨p0, hsk, hle0, ⟨_, _, hr⟩ | ⟨hlt, p1, hle, hpp, _, rfl, hlex⟩⟩ := hs
    · simp at hr
      subst hr
      exact absurd rfl hne
    · cases hlex with
      | token e gs k a b ty name hm hg hab hbe hpe hdec hgt hreq =>
        obtain ⟨p', segs, h1, h2, h3, h4⟩ := ih hl' (fun t ht => hn t (by simp [ht]))
        obtain ⟨sk, hsk'⟩ := Lexemes.of_skips hsk
        have hlen : ((src.content.drop (p0 + a)).take (b - a)).length = b - a := by
          rw [List.length_take, List.length_drop]; omega
        refine ⟨p', sk ++ (p0, e) :: segs, h1, hsk'.append ⟨rfl, ⟨gs, hm⟩, h2⟩, ?_, ?_⟩
        · intro u hu
          rcases List.mem_cons.1 hu with rfl | hu
          · refine ⟨rfl, (p0, e), by simp, ?_, ?_⟩
            · simp only; omega
            · simp only [hlen]; omega
          · obtain ⟨g1, s, g2, g3⟩ := h3 u hu
            exact ⟨g1, s, by simp [g2], g3⟩
        · refine List.Pairwise.cons ?_ (h4.imp ?_)
          · intro u hu
            obtain ⟨_, s, g2, g3, _⟩ := h3 u hu
            have g4 := h2.start_ge s g2
            refine ⟨(p0, e), by simp, ?_, ?_, ?_⟩
            · simp only [hlen]; omega
            · simp only; omega
            · simp only; omega
          · rintro u v ⟨s, g1, g2⟩
            exact ⟨s, by simp [g1], g2⟩

/-- The queue of the sample holds one source. -/
theorem sampleQueue_holds (content : List Nat) (p : Nat) (hp : p ≤ content.length) :
    Holds (sampleQueue content p) [(⟨1, "s", content⟩, p)] := by
  obtain ⟨q, e, r⟩ := SrcQueue.new_rep
  obtain ⟨q1, e1, r1⟩ := r.append ⟨1, "s", content⟩
  have hq : q = ⟨emptyRing, none, 0⟩ := by
    have : SrcQueue.new = some ⟨emptyRing, none, 0⟩ := by decide +kernel
    rw [this] at e
    exact (Option.some.inj e).symm
  subst hq
  have hq1 : q1 = ⟨emptyRing, some ⟨1, "s", content⟩, 0⟩ := by
    simp [SrcQueue.append, SrcQueue.hasContent] at e1
    exact e1.symm
  subst hq1
  have r3 := r1.rest
  simp only [SrcList.append, List.tail_cons, SrcQueue.itemsOf, List.map_nil] at r3
  refine ⟨⟨r3, rfl, rfl⟩, ⟨by simpa [Src.len] using hp, by simp, by simp⟩, by simp⟩

example : Calls (new sampleRe sampleTypes) (sampleQueue [1, 1, 32, 1, 1, 1] 0)
    [⟨5, "name", [1, 1], ⟨some ⟨1, "s", [1, 1, 32, 1, 1, 1]⟩, 0⟩⟩, ⟨5, "name", [1, 1], ⟨some ⟨1, "s", [1, 1, 32, 1, 1, 1]⟩, 3⟩⟩]
    (sampleQueue [1, 1, 32, 1, 1, 1] 5) :=
  .cons (q1 := sampleQueue [1, 1, 32, 1, 1, 1] 2) 9 (by decide +kernel) (.cons 9 (by decide +kernel) (.nil _))

/-- **C15** is false as documented: when insignificant lexemes precede the failure, they are dropped. Here the position
moves from 0 to 1 both for an error and for `nil, nil`. -/
theorem C15_failed_fetch_no_changes_false :
    ∃ (q q1 q2 : SrcQueue) (l1 l2 : SrcList.State Src) (err : LlxError),
      ReOk sampleRe ∧ Holds q l1 ∧ Holds (sampleQueue [32, 3] 0) l2 ∧
      (new sampleRe sampleTypes).next 9 (sampleQueue [32, 3] 0) = .done (q1, .error err) ∧
      q1.pos ≠ (sampleQueue [32, 3] 0).pos ∧
      (new sampleRe (sampleTypes ++ [⟨6, "other"⟩])).nextOf 9 q (1#64 <<< 6) = .done (q2, .ok none) ∧ q2.pos ≠ q.pos := by
  refine ⟨sampleQueue [32, 1] 0, sampleQueue [32, 3] 1, sampleQueue [32, 1] 1, _, _,
    wrongCharError ⟨1, "s", [32, 3]⟩ (1, 2), sampleRe_ok, sampleQueue_holds [32, 1] 0 (by simp),
    sampleQueue_holds [32, 3] 0 (by simp), ?_, ?_, ?_, ?_⟩
  all_goals decide +kernel

/-- **C15**, what holds. Missing from the documented claim: the queue may move over insignificant lexemes. A failed call
(error, or `nil, nil`) never drops a source and moves the position only by insignificant lexemes; if there are none, nothing
changes. -/
theorem C15_failed_fetch_partial {re : Regexp} (hre : ReOk re) {types : List TokenType} {tts : TokenTypeSet} {q q' : SrcQueue}
    {l : SrcList.State Src} (h : Holds q l) {fuel : Nat} {r : Except LlxError (Option Token)}
    (hd : (new re types).nextOf fuel q tts = .done (q', r)) (hf : ∀ t, r ≠ .ok (some t)) :
    (q' = q ∨ ∃ src p p0 rest, l = (src, p) :: rest ∧ Skips re src.content p p0 ∧ p0 < src.content.length ∧
      Holds q' ((src, p0) :: rest) ∧
      ((∀ e gs, MatchAt re src.content p e gs → ∃ g ∈ gs, Captured g) → Holds q' l ∧ viewQueue q' = viewQueue q)) := by
  rcases nextOf_spec hre h hd with ⟨hq, _, _⟩ | ⟨l', hl', hs⟩
  · exact Or.inl hq
  · cases l with
    | nil => exact absurd hs.2.2 (hf _)
    | cons x rest =>
      obtain ⟨src, p⟩ := x
      right
      obtain ⟨p0, hsk, hle0, ⟨_, _, hr⟩ | ⟨hlt, p', hle, hpp, hnone, rfl, hlex⟩⟩ := hs
      · exact absurd hr (hf _)
      · have hp' : p' = p0 := by
          cases hlex with
          | wrongChar => rfl
          | badToken => rfl
          | token => exact absurd rfl (hf _)
          | nothing => rfl
        subst hp'
        refine ⟨src, p, p', rest, rfl, hsk, hlt, hl', fun hno => ?_⟩
        have := skips_eq hsk hno
        subst this
        exact ⟨hl', by rw [view_eq hl'.rep hl'.ok, view_eq h.rep h.ok]⟩

/-- **C15**, what holds for `Next`. -/
theorem C15_failed_next_partial {re : Regexp} (hre : ReOk re) {types : List TokenType} {q q' : SrcQueue}
    {l : SrcList.State Src} (h : Holds q l) {fuel : Nat} {err : LlxError}
    (hd : (new re types).next fuel q = .done (q', .error err)) :
    ∃ src p p0 rest, l = (src, p) :: rest ∧ Skips re src.content p p0 ∧ p0 < src.content.length ∧
      Holds q' ((src, p0) :: rest) ∧
      ((∀ e gs, MatchAt re src.content p e gs → ∃ g ∈ gs, Captured g) → Holds q' l ∧ viewQueue q' = viewQueue q) := by
  obtain ⟨l', hl', hs⟩ := next_spec hre h hd
  cases l with
  | nil => have := hs.2.2; simp at this
  | cons x rest =>
    obtain ⟨src, p⟩ := x
    obtain ⟨p0, hsk, hle0, ⟨_, _, hr⟩ | ⟨hlt, p', hle, hpp, hnone, rfl, hlex⟩⟩ := hs
    · simp at hr
    · have hp' : p' = p0 := by cases hlex <;> rfl
      subst hp'
      refine ⟨src, p, p', rest, rfl, hsk, hlt, hl', fun hno => ?_⟩
      have := skips_eq hsk hno
      subst this
      exact ⟨hl', by rw [view_eq hl'.rep hl'.ok, view_eq h.rep h.ok]⟩

/-- **C15**, what holds: a failed call made again gives the same result and changes nothing at all. -/
theorem C15_retry_partial (l : Lexer) (tts : TokenTypeSet) {q q' : SrcQueue} {fuel : Nat}
    {r : Except LlxError (Option Token)} (hd : l.nextOf fuel q tts = .done (q', r)) (hf : ∀ t, r ≠ .ok (some t))
    (fuel' : Nat) (hfuel : 0 < fuel') : l.nextOf fuel' q' tts = .done (q', r) := by
  unfold nextOf at hd ⊢
  by_cases hz : tts &&& l.typeMask = 0
  · rw [if_pos hz] at hd ⊢
    have := run_done_inj hd
    obtain ⟨rfl, rfl⟩ := Prod.mk.inj this
    rfl
  · rw [if_neg hz] at hd ⊢
    obtain ⟨k, rfl⟩ : ∃ k, fuel' = k + 1 := ⟨fuel' - 1, by omega⟩
    exact nextOfLoop_retry l tts hd hf k

/-- `NextOf` returns `nil, nil` (does not look for other tokens) only if no type of the lexer is requested, or the
lexeme after insignificant ones is a token of other types: whenever it starts with a requested token, see
`C13_token_complete`. Here is the case of an error where nothing moves. -/
example : (new sampleRe sampleTypes).next 9 (sampleQueue [1, 3] 1) =
    .done (sampleQueue [1, 3] 1, .error (wrongCharError ⟨1, "s", [1, 3]⟩ (1, 2))) := by decide +kernel

/-- **C16**, one call: at the end of a source `Next` returns its EoF token (the source, its length) and discards it. -/
theorem C16_eof (re : Regexp) (types : List TokenType) {q : SrcQueue} {src : Src}
    {rest : SrcList.State Src} (h : Holds q ((src, src.content.length) :: rest)) :
    ∃ q', (∀ fuel, 0 < fuel → (new re types).next fuel q =
        .done (q', .ok (some ⟨-2, "-eof-", [], ⟨some src, src.content.length⟩⟩))) ∧ Holds q' rest := by
  have hsz := h.size
  simp only [List.length_cons] at hsz
  obtain ⟨q', h1, h2⟩ := fetch_eof (new re types) allTokenTypes h.rep (by omega)
  refine ⟨q', fun fuel hf => ?_, ⟨h2, h.ok.next, by omega⟩⟩
  obtain ⟨k, rfl⟩ : ∃ k, fuel = k + 1 := ⟨fuel - 1, by omega⟩
  unfold next
  rw [h1]
  rfl

/-- **C16**, one call: when there are no sources `Next` returns EoI and leaves the queue as is. -/
theorem C16_eoi (re : Regexp) (types : List TokenType) {q : SrcQueue} (h : Holds q []) (fuel : Nat) (hf : 0 < fuel) :
    (new re types).next fuel q = .done (q, .ok (some ⟨-3, "-eoi-", [], ⟨none, 0⟩⟩)) := by
  obtain ⟨k, rfl⟩ : ∃ k, fuel = k + 1 := ⟨fuel - 1, by omega⟩
  unfold next
  rw [fetch_eoi _ _ h.rep]
  rfl

/-- **C16**, histories: EoF tokens returned so far are those of the discarded sources in order, the rest of the sources
are still in the queue; if EoI was returned then every source has got its EoF token. -/
theorem C16_eof_per_source {re : Regexp} (hre : ReOk re) {types : List TokenType} {q q' : SrcQueue}
    {l : SrcList.State Src} (h : Holds q l) {ts : List Token} (hc : Calls (new re types) q ts q') :
    ∃ l', Holds q' l' ∧
      (ts.filter (fun t => t.type == -2)).map (fun t => (t.pos.src, t.pos.pos)) ++
          l'.map (fun x => (some x.1, (x.1.content.length : Int))) =
        l.map (fun x => (some x.1, (x.1.content.length : Int))) ∧
      ((∃ t ∈ ts, t.type = -3) → l' = []) ∧
      (∀ a b, ts = a ++ b → (∃ t ∈ a, t.type = -3) → ∀ t ∈ b, t.type = -3) := by
  induction hc generalizing l with
  | nil q => exact ⟨l, h, by simp, by simp, by simp⟩
  | @cons q q1 q2 t ts fuel hnext hcalls ih =>
    obtain ⟨l1, hl1, hs⟩ := next_spec hre h hnext
    obtain ⟨l', h1, h2, h3, h4⟩ := ih hl1
    cases l with
    | nil =>
      obtain ⟨rfl, rfl, hr⟩ := hs
      simp at hr
      subst hr
      simp only [List.map_nil, List.append_eq_nil_iff, List.map_eq_nil_iff] at h2
      have hl' : l' = [] := h2.2
      subst hl'
      refine ⟨[], h1, ?_, fun _ => rfl, ?_⟩
      · simp only [List.map_nil, List.append_nil, List.map_eq_nil_iff]
        rw [List.filter_cons_of_neg (by decide)]
        exact h2.1
      · -- every further token is EoI
        have hall : ∀ {q q2 : SrcQueue} {ts : List Token}, Holds q [] → Calls (new re types) q ts q2 →
            ∀ t ∈ ts, t.type = -3 := by
          intro q q2 ts hq hc
          induction hc with
          | nil => simp
          | @cons q q1 q2 t ts fuel hnext hcalls ih =>
            obtain ⟨l1, hl1, hs⟩ := next_spec hre hq hnext
            obtain ⟨rfl, rfl, hr⟩ := hs
            simp at hr
            subst hr
            intro u hu
            rcases List.mem_cons.1 hu with rfl | hu
            · rfl
            · exact ih hl1 u hu
        intro a b hab _ u hu
        have hmem : u ∈ eoiToken :: ts := by rw [hab]; simp [hu]
        rcases List.mem_cons.1 hmem with rfl | hmem
        · rfl
        · exact hall hl1 hcalls u hmem
    | cons x rest =>
      obtain ⟨src, p⟩ := x
      obtain ⟨p0, hsk, hle0, ⟨_, rfl, hr⟩ | ⟨hlt, p', hle, hpp, hnone, rfl, hlex⟩⟩ := hs
      · simp at hr
        subst hr
        refine ⟨l', h1, ?_, ?_, ?_⟩
        · rw [List.filter_cons_of_pos (by simp [eofTokenType])]
          simp only [List.map_cons, List.cons_append]
          rw [h2]
        · rintro ⟨u, hu, hu'⟩
          rcases List.mem_cons.1 hu with rfl | hu
          · exact absurd hu' (by simp [eofTokenType])
          · exact h3 ⟨u, hu, hu'⟩
        · intro a b hab hex
          cases a with
          | nil => simp at hex
          | cons a0 a =>
            simp at hab
            obtain ⟨ha0, hab⟩ := hab
            refine h4 a b hab ?_
            obtain ⟨u, hu, hu'⟩ := hex
            rcases List.mem_cons.1 hu with rfl | hu
            · rw [← ha0] at hu'; exact absurd hu' (by simp [eofTokenType])
            · exact ⟨u, hu, hu'⟩
      · cases hlex with
        | token e gs k a b ty name hm hg hab hbe hpe hdec hgt hreq =>
          have hty : (((ty : Nat) : Int) == -2) = false := by simp
          have hty3 : ¬ ((ty : Nat) : Int) = -3 := by omega
          refine ⟨l', h1, ?_, ?_, ?_⟩
          · rw [List.filter_cons_of_neg (by simp only [hty]; decide)]
            rw [h2]
            simp
          · rintro ⟨u, hu, hu'⟩
            rcases List.mem_cons.1 hu with rfl | hu
            · exact absurd hu' hty3
            · exact h3 ⟨u, hu, hu'⟩
          · intro a' b' hab' hex
            cases a' with
            | nil => simp at hex
            | cons a0 a' =>
              simp at hab'
              obtain ⟨ha0, hab'⟩ := hab'
              refine h4 a' b' hab' ?_
              obtain ⟨u, hu, hu'⟩ := hex
              rcases List.mem_cons.1 hu with rfl | hu
              · rw [← ha0] at hu'; exact absurd hu' hty3
              · exact ⟨u, hu, hu'⟩

/-- Number of bytes and sources left. -/
def left (l : SrcList.State Src) : Nat := (l.map fun x => x.1.content.length - x.2 + 1).sum

/-- **C16**, liveness: calling `Next` again and again reaches either a lexical error or the end of all the sources, after
at most as many calls as there are remaining bytes and sources. -/
theorem C16_reaches_end {re : Regexp} (hre : ReOk re) (types : List TokenType) {q : SrcQueue}
    {l : SrcList.State Src} (h : Holds q l) :
    ∃ ts q', Calls (new re types) q ts q' ∧ ts.length ≤ left l ∧
      (Holds q' [] ∨ ∃ fuel q'' err, (new re types).next fuel q' = .done (q'', .error err)) := by
  generalize hn : left l = n
  induction n using Nat.strong_induction_on generalizing q l with
  | _ n ih =>
    obtain ⟨q1, l1, r, h1, h2, hs⟩ := next_total hre types h
    cases l with
    | nil => exact ⟨[], q, .nil q, by simp, Or.inl h⟩
    | cons x rest =>
      obtain ⟨src, p⟩ := x
      obtain ⟨p0, hsk, hle0, ⟨_, rfl, hr⟩ | ⟨hlt, p', hle, hpp, hnone, rfl, hlex⟩⟩ := hs
      · subst hr
        have hlt : left l1 < n := by subst hn; simp [left]
        obtain ⟨ts, q', g1, g2, g3⟩ := ih _ hlt h2 rfl
        exact ⟨_ :: ts, q', .cons _ (h1 _ (Nat.le_refl _)) g1, by simp; omega, g3⟩
      · cases hlex with
        | wrongChar hno err => exact ⟨[], q, .nil q, by simp, Or.inr ⟨_, _, _, h1 _ (Nat.le_refl _)⟩⟩
        | badToken e gs k a b hm hg hdec hgt err => exact ⟨[], q, .nil q, by simp, Or.inr ⟨_, _, _, h1 _ (Nat.le_refl _)⟩⟩
        | nothing e gs hm hcap hdec =>
          exact absurd (Lexeme.nothing (src := src) e gs hm hcap hdec) (Lexeme.not_nothing)
        | token e gs k a b ty name hm hg hab hbe hpe hdec hgt hreq =>
          have he := hm.2
          have hlt' : left ((src, p0 + e) :: rest) < n := by
            subst hn
            simp only [left, List.map_cons, List.sum_cons]
            omega
          obtain ⟨ts, q', g1, g2, g3⟩ := ih _ hlt' h2 rfl
          exact ⟨_ :: ts, q', .cons _ (h1 _ (Nat.le_refl _)) g1, by simp; omega, g3⟩

/-- A source with a token, its EoF, then EoI. -/
example : ∃ t1 t2 t3 q', Calls (new sampleRe sampleTypes) (sampleQueue [32, 1] 0) [t1, t2, t3] q' ∧
    [t1.type, t2.type, t3.type] = [5, -2, -3] :=
  ⟨_, _, _, _, .cons (q1 := sampleQueue [32, 1] 2) 9 (t := ⟨5, "name", [1], ⟨some ⟨1, "s", [32, 1]⟩, 1⟩⟩) (by decide +kernel)
    (.cons (q1 := ⟨emptyRing, none, 0⟩) 9 (t := ⟨-2, "-eof-", [], ⟨some ⟨1, "s", [32, 1]⟩, 2⟩⟩) (by decide +kernel)
    (.cons (q1 := ⟨emptyRing, none, 0⟩) 9 (t := eoiToken) (by decide +kernel) (.nil _))), by decide⟩

/-- The documentation of `EofToken` allows a nil source, but the call panics. -/
theorem C16_eofToken_nil_panics : eofToken none = none := rfl

end Verif.Props
