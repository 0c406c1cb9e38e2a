/-
Tokens fetched by lexers can be read again.
-/
import Verif.Proof.FullSource
import Verif.Proof.LexerCalls
import Verif.Proof.Pipeline

namespace Verif.Proof

open Verif.Model Verif.Spec Verif.Spec.Lex Verif.Model.Lexer
open Verif.Model.Tree (bindRun)

variable {η : Type}

/-- Matcher and types of a lexer. -/
abbrev LexDef := Regexp × List TokenType

/-- Number of the first captured group. -/
def firstCaptured (gs : List (Int × Int)) : Nat := gs.findIdx fun g => decide (0 ≤ g.1 ∧ 0 ≤ g.2)

/-- Type of the token at the offset. -/
def kindAt (x : LexDef) (c : List Nat) (p : Nat) : Option Nat :=
  match x.1 (c.drop p) with
  | some ((s, e) :: gs) => if s = 0 ∧ 0 < e then (groupType x.2 (firstCaptured gs)).map (·.1) else none
  | _ => none

/-- Type of the token fetched at the offset. -/
def fetchKind (defs : List LexDef) (tts : TokenTypeSet) (c : List Nat) (p : Nat) : Option Nat :=
  defs.findSome? fun x => (kindAt x c p).filter fun n => tts.getLsbD n

theorem firstCaptured_eq {gs : List (Int × Int)} {k e : Nat} (h : gs[k]? = some (0, (e : Int)))
    (ho : ∀ j, j ≠ k → ∀ g, gs[j]? = some g → ¬ Captured g) : firstCaptured gs = k := by
  unfold firstCaptured
  have hk : k < gs.length := by
    rcases Nat.lt_or_ge k gs.length with h1 | h1
    · exact h1
    · rw [List.getElem?_eq_none h1] at h; cases h
  rw [List.findIdx_eq hk]
  have hg : gs[k] = (0, (e : Int)) := by
    have := List.getElem?_eq_getElem hk
    rw [h] at this
    exact (Option.some.inj this).symm
  refine ⟨by rw [hg]; simp, ?_⟩
  intro j hj
  have := ho j (by omega) gs[j] (List.getElem?_eq_getElem (by omega))
  simpa [Captured] using this

theorem kindAt_match {x : LexDef} {c : List Nat} {p e k : Nat} {gs : List (Int × Int)} (hm : MatchAt x.1 c p e gs)
    (hk : gs[k]? = some (0, (e : Int))) (ho : ∀ j, j ≠ k → ∀ g, gs[j]? = some g → ¬ Captured g) :
    kindAt x c p = (groupType x.2 k).map (·.1) := by
  unfold kindAt
  rw [hm.1]
  simp only
  rw [if_pos ⟨trivial, by have := hm.2; omega⟩, firstCaptured_eq hk ho]

theorem skips_none {re : Regexp} (hc : CapturesAll re) {c : List Nat} {p p' : Nat} (h : Skips re c p p') : p' = p := by
  cases h with
  | refl => rfl
  | step hm hn _ =>
    obtain ⟨k, h1, -⟩ := hc _ _ _ hm.1 hm.2
    exact absurd ⟨by simp, by simp⟩ (hn _ (List.mem_of_getElem? h1))

/-- What a lexer does at an offset. -/
theorem nextOf_kind {x : LexDef} (hre : ReOk x.1) (hc : CapturesAll x.1) {tts : TokenTypeSet} {q q' : SrcQueue} {src : Src} {p : Nat}
    {rest : SrcList.State Src} (h : Holds q ((src, p) :: rest)) (hp : p < src.content.length) {fuel : Nat}
    {r : Except LlxError (Option Token)} (hd : (new x.1 x.2).nextOf fuel q tts = .done (q', r)) :
    (∃ t n p', r = .ok (some t) ∧ kindAt x src.content p = some n ∧ tts.getLsbD n = true ∧ n < 64 ∧ t.type = n ∧
      t.pos = ⟨some src, (p : Nat)⟩ ∧ Holds q' ((src, p') :: rest)) ∨
    ((∀ t, r ≠ .ok (some t)) ∧ Holds q' ((src, p) :: rest) ∧ ∀ n, kindAt x src.content p = some n → tts.getLsbD n = false) := by
  rcases nextOf_spec hre h hd with ⟨rfl, rfl, h1⟩ | ⟨l', hl', hs⟩
  · refine .inr ⟨by simp, h, ?_⟩
    intro n hn
    unfold kindAt at hn
    split at hn
    · split at hn
      · obtain ⟨t, ht, rfl⟩ := Option.map_eq_some_iff.1 hn
        simpa [Requested] using h1 _ _ ht
      · cases hn
    · cases hn
  · obtain ⟨p0, hsk, -, ⟨h1, -⟩ | ⟨-, p', -, -, -, rfl, hlex⟩⟩ := hs
    · have := skips_none hc hsk; omega
    · have := skips_none hc hsk
      subst this
      cases hlex with
      | wrongChar hn err _ _ _ =>
        refine .inr ⟨by simp, hl', ?_⟩
        intro n hk
        unfold kindAt at hk
        split at hk
        · rename_i s e gs hm
          split at hk
          · rename_i he
            obtain ⟨rfl, he⟩ := he
            refine absurd ⟨?_, ?_⟩ (hn e.toNat gs)
            · rw [hm, Int.toNat_of_nonneg (by omega)]
            · omega
          · cases hk
        · cases hk
      | badToken e gs k a b hm hg hdec hgt err _ _ _ =>
        refine .inr ⟨by simp, hl', ?_⟩
        obtain ⟨k', h1, h2⟩ := hc _ _ _ hm.1 hm.2
        have : k = k' := by
          by_contra hne
          exact h2 k hne _ hg ⟨by simp, by simp⟩
        subst this
        rw [kindAt_match hm h1 h2, hgt]
        simp
      | token e gs k a b t name hm hg hab hbe hpe hdec hgt hreq =>
        left
        obtain ⟨k', h1, h2⟩ := hc _ _ _ hm.1 hm.2
        have : k = k' := by
          by_contra hne
          exact h2 k hne _ hg ⟨by simp, by simp⟩
        subst this
        have ha : a = 0 := by
          rw [h1] at hg
          simp only [Option.some.injEq, Prod.mk.injEq] at hg
          omega
        subst ha
        exact ⟨_, t, _, rfl, by rw [kindAt_match hm h1 h2, hgt]; rfl, hreq, (groupType_lt hgt).1, rfl, by simp, hl'⟩
      | nothing e gs hm hex hdec =>
        refine .inr ⟨by simp, hl', ?_⟩
        obtain ⟨k', h1, h2⟩ := hc _ _ _ hm.1 hm.2
        have hk : k' < gs.length := by
          rcases Nat.lt_or_ge k' gs.length with h3 | h3
          · exact h3
          · rw [List.getElem?_eq_none h3] at h1; cases h1
        obtain ⟨t, ht, hnr⟩ := hdec k' hk _ h1 ⟨by simp, by simp⟩
        rw [kindAt_match hm h1 h2, ht]
        intro n hn
        cases hn
        simpa [Requested] using hnr

/-- Lexers of a pipeline. -/
def lexersOf (defs : List LexDef) : List Lexer := defs.map fun x => new x.1 x.2

theorem fetchLoop_kind {tts : TokenTypeSet} {fuel : Nat} (defs : List LexDef) (hd : ∀ x ∈ defs, ReOk x.1 ∧ CapturesAll x.1)
    {q q' : SrcQueue} {err : Option LlxError} {src : Src} {p : Nat} {rest : SrcList.State Src}
    (h : Holds q ((src, p) :: rest)) (hp : p < src.content.length) {u : Option Token}
    (he : fetchLoop tts fuel (lexersOf defs) q err = .done (q', .ok u)) :
    (∃ t n p', u = some t ∧ fetchKind defs tts src.content p = some n ∧ n < 64 ∧ t.type = n ∧ t.pos = ⟨some src, (p : Nat)⟩ ∧
      Holds q' ((src, p') :: rest)) ∨ (u = none ∧ fetchKind defs tts src.content p = none) := by
  induction defs generalizing q err with
  | nil =>
    right
    simp only [lexersOf, List.map_nil] at he
    rw [fetchLoop.eq_def] at he
    refine ⟨?_, rfl⟩
    split at he
    · rename_i hl
      split at he
      · split at he <;> cases he
        rfl
      · cases he; rfl
    · rename_i hl; cases hl
  | cons x defs ih =>
    have hl : lexersOf (x :: defs) = new x.1 x.2 :: lexersOf defs := rfl
    rw [hl, fetchLoop, bindRun_done] at he
    obtain ⟨⟨q1, r⟩, h1, he⟩ := he
    obtain ⟨hre, hca⟩ := hd x (by simp)
    rcases nextOf_kind hre hca h hp h1 with ⟨t, n, p', rfl, h2, h3, h4, h5, h6, h7⟩ | ⟨h2, h3, h4⟩
    · cases he
      left
      refine ⟨t, n, p', rfl, ?_, h4, h5, h6, h7⟩
      simp [fetchKind, h2, Option.filter, h3]
    · have hk : fetchKind (x :: defs) tts src.content p = fetchKind defs tts src.content p := by
        unfold fetchKind
        rw [List.findSome?_cons]
        have : (kindAt x src.content p).filter (fun n => tts.getLsbD n) = none := by
          cases hx : kindAt x src.content p with
          | none => rfl
          | some n => simp [Option.filter, h4 n hx]
        rw [this]
      rw [hk]
      rcases r with e | (_ | t)
      · exact ih (fun y hy => hd y (by simp [hy])) h3 he
      · exact ih (fun y hy => hd y (by simp [hy])) h3 he
      · exact absurd rfl (h2 t)

theorem fetchLoop_holds {tts : TokenTypeSet} {fuel : Nat} (defs : List LexDef) (hd : ∀ x ∈ defs, ReOk x.1)
    {q q' : SrcQueue} {err : Option LlxError} {l : SrcList.State Src} (h : Holds q l) {u : Except PErr (Option Token)}
    (he : fetchLoop tts fuel (lexersOf defs) q err = .done (q', u)) : ∃ l', Holds q' l' := by
  induction defs generalizing q err l with
  | nil =>
    simp only [lexersOf, List.map_nil] at he
    rw [fetchLoop.eq_def] at he
    split at he
    · split at he
      · split at he <;> cases he <;> exact ⟨l, h⟩
      · cases he; exact ⟨l, h⟩
    · rename_i hl; cases hl
  | cons x defs ih =>
    have hl : lexersOf (x :: defs) = new x.1 x.2 :: lexersOf defs := rfl
    rw [hl, fetchLoop, bindRun_done] at he
    obtain ⟨⟨q1, r⟩, h1, he⟩ := he
    have h2 : ∃ l', Holds q1 l' := by
      rcases nextOf_spec (hd x (by simp)) h h1 with ⟨rfl, -, -⟩ | ⟨l', hl', -⟩
      · exact ⟨l, h⟩
      · exact ⟨l', hl'⟩
    obtain ⟨l', h2⟩ := h2
    rcases r with e | (_ | t)
    · exact ih (fun y hy => hd y (by simp [hy])) h2 he
    · exact ih (fun y hy => hd y (by simp [hy])) h2 he
    · cases he; exact ⟨l', h2⟩

/-- A token that is neither the end of a source nor the end of input is fetched inside of a source. -/
theorem fetchLoop_inside {tts : TokenTypeSet} {fuel : Nat} (defs : List LexDef) (hd : ∀ x ∈ defs, ReOk x.1)
    {q q' : SrcQueue} {err : Option LlxError} {l : SrcList.State Src} (h : Holds q l) {t : Token}
    (he : fetchLoop tts fuel (lexersOf defs) q err = .done (q', .ok (some t))) (h1 : t.type ≠ -2) (h2 : t.type ≠ -3) :
    ∃ src p rest, l = (src, p) :: rest ∧ p ≤ src.content.length := by
  cases l with
  | cons x rest => exact ⟨x.1, x.2, rest, rfl, h.pos_le⟩
  | nil =>
    exfalso
    induction defs generalizing q err with
    | nil =>
      simp only [lexersOf, List.map_nil] at he
      rw [fetchLoop.eq_def] at he
      split at he
      · split at he
        · split at he <;> cases he
        · cases he
      · rename_i hl; cases hl
    | cons x defs ih =>
      have hl : lexersOf (x :: defs) = new x.1 x.2 :: lexersOf defs := rfl
      rw [hl, fetchLoop, bindRun_done] at he
      obtain ⟨⟨q1, r⟩, h3, he⟩ := he
      rcases nextOf_spec (hd x (by simp)) h h3 with ⟨rfl, rfl, -⟩ | ⟨l', hl', hs⟩
      · exact ih (fun y hy => hd y (by simp [hy])) he h
      · simp only [Lexer.Spec] at hs
        obtain ⟨-, -, rfl⟩ := hs
        cases he
        exact h2 rfl

/-- At the end of a source nothing but its end is fetched. -/
theorem fetchLoop_end {tts : TokenTypeSet} {fuel : Nat} (defs : List LexDef) (hd : ∀ x ∈ defs, ReOk x.1 ∧ CapturesAll x.1)
    {q q' : SrcQueue} {err : Option LlxError} {src : Src} {p : Nat} {rest : SrcList.State Src} (h : Holds q ((src, p) :: rest))
    (hp : p = src.content.length) {t : Token}
    (he : fetchLoop tts fuel (lexersOf defs) q err = .done (q', .ok (some t))) : t.type = -2 := by
  induction defs generalizing q err with
  | nil =>
    simp only [lexersOf, List.map_nil] at he
    rw [fetchLoop.eq_def] at he
    split at he
    · split at he
      · split at he <;> cases he
      · cases he
    · rename_i hl; cases hl
  | cons x defs ih =>
    have hl : lexersOf (x :: defs) = new x.1 x.2 :: lexersOf defs := rfl
    rw [hl, fetchLoop, bindRun_done] at he
    obtain ⟨⟨q1, r⟩, h3, he⟩ := he
    obtain ⟨hre, hca⟩ := hd x (by simp)
    rcases nextOf_spec hre h h3 with ⟨rfl, rfl, -⟩ | ⟨l', hl', hs⟩
    · exact ih (fun y hy => hd y (by simp [hy])) h he
    · obtain ⟨p0, hsk, -, ⟨-, -, rfl⟩ | ⟨hlt, -⟩⟩ := hs
      · cases he; rfl
      · have := skips_none hca hsk; omega

/-- If nothing of side types is expected to be hidden, then reading without restrictions finds no side token in place of
an expected one. -/
theorem fetchKind_all {g : Grammar} {tts : TokenTypeSet} (defs : List LexDef) {c : List Nat} {p n : Nat}
    (hk : ∀ x ∈ defs, ∀ k t, groupType x.2 k = some t → t.1 < 64)
    (hs : ∀ n : Nat, n < 64 → g.isSideType n = true → tts.getLsbD n = true)
    (h : fetchKind defs tts c p = some n) (hn : g.isSideType n = false) :
    ∃ m : Nat, fetchKind defs allTokenTypes c p = some m ∧ g.isSideType m = false := by
  induction defs with
  | nil => cases h
  | cons x defs ih =>
    unfold fetchKind at h ⊢
    rw [List.findSome?_cons] at h ⊢
    cases hx : kindAt x c p with
    | none =>
      rw [hx] at h
      exact ih (fun y hy => hk y (by simp [hy])) h
    | some m =>
      have hm : m < 64 := by
        unfold kindAt at hx
        split at hx
        · split at hx
          · obtain ⟨t, ht, rfl⟩ := Option.map_eq_some_iff.1 hx
            exact hk x (by simp) _ _ ht
          · cases hx
        · cases hx
      have ha : allTokenTypes.getLsbD m = true := by
        rw [allTokenTypes, BitVec.getLsbD_allOnes]; simpa using hm
      rw [hx] at h
      refine ⟨m, by simp [Option.filter, ha], ?_⟩
      cases hr : tts.getLsbD m with
      | true =>
        simp [Option.filter, hr] at h
        subst h
        exact hn
      | false =>
        cases hsm : g.isSideType m with
        | false => rfl
        | true => rw [hs m hm hsm] at hr; cases hr

/-- States of the pipeline without hooks whose queue of sources is reachable. -/
def GoodQueue (ls : LState η) : Prop := ∃ l, Holds ls.ps.src l

theorem seek_holds {q : SrcQueue} {src : Src} {p p' : Nat} {rest : SrcList.State Src} (h : Holds q ((src, p') :: rest))
    (hp : p ≤ src.content.length) : Holds (q.seek (p : Int)) ((src, p) :: rest) := by
  have h1 := h.rep.seek (p : Int)
  simp only [SrcList.move] at h1
  have h2 : min (p : Int).toNat src.len = p := by
    have : src.len = src.content.length := rfl
    rw [this]
    simp only [Int.toNat_natCast]
    omega
  rw [h2] at h1
  exact ⟨h1, ok_moved h.ok hp, h.size⟩

theorem lexers_reread {σ : Type} (env : PEnv σ) (tenv : TEnv η) (n : Nat) (defs : List LexDef) (hl : tenv.lexers = lexersOf defs)
    (hd : ∀ x ∈ defs, ReOk x.1 ∧ CapturesAll x.1)
    (hs : ∀ st ∈ env.g.tables.states, ∀ n : Nat, n < 64 → env.g.isSideType n = true → st.types.getLsbD n = true) :
    Rereads (pipelineEnv env tenv [] n) (GoodQueue (η := η)) := by
  have hpull : ∀ s types, (pipelineEnv env tenv [] n).pull s types = pullToken tenv n types [] s := fun _ _ => rfl
  have key : ∀ {s s' : LState η} {types : TokenTypeSet} {r : Except PErr (Option Token)},
      (pipelineEnv env tenv [] n).pull s types = .done (s', r) →
      fetchLoop types n (lexersOf defs) s.ps.src none = .done (s'.ps.src, r) := by
    intro s s' types r h
    rw [hpull, pullToken, bindRun_done] at h
    obtain ⟨⟨q, r1⟩, h1, h⟩ := h
    cases h
    rw [fetchToken, hl] at h1
    exact h1
  have kind : ∀ {s s' : LState η} {types : TokenTypeSet} {t : Token}, GoodQueue s →
      (pipelineEnv env tenv [] n).pull s types = .done (s', .ok (some t)) → Solid env.g t →
      ∃ (src : Src) (p p' : Nat) (rest : SrcList.State Src) (k : Nat), p < src.content.length ∧ fetchKind defs types src.content p = some k ∧ k < 64 ∧
        t.type = k ∧ t.pos = ⟨some src, (p : Nat)⟩ ∧ Holds s'.ps.src ((src, p') :: rest) := by
    rintro s s' types t ⟨l, hq⟩ h ⟨h1, h2, h3⟩
    have h4 := key h
    obtain ⟨src, p, rest, rfl, h5⟩ := fetchLoop_inside defs (fun x hx => (hd x hx).1) hq h4 h1 h2
    rcases Nat.lt_or_ge p src.content.length with h6 | h6
    · rcases fetchLoop_kind defs hd hq h6 h4 with ⟨t', k, p', h7, h8, h9, h10, h11, h12⟩ | ⟨h7, -⟩
      · cases h7
        exact ⟨src, p, p', rest, k, h6, h8, h9, h10, h11, h12⟩
      · cases h7
    · exact absurd (fetchLoop_end defs hd hq (by omega) h4) h1
  refine ⟨?_, ?_, ?_⟩
  · rintro s s' types t ⟨l, hq⟩ h
    exact fetchLoop_holds defs (fun x hx => (hd x hx).1) hq (key h)
  · intro s s' types t hg hst h hsol
    obtain ⟨src, p, p', rest, k, -, -, -, -, h1, -⟩ := kind hg h hsol
    rw [h1]; rfl
  · rintro s s' s'' s3 types t u hg ⟨st, hst, hin⟩ h hsol hun hp
    obtain ⟨src, p, p', rest, k, h1, h2, h3, h4, h5, h6⟩ := kind hg h hsol
    have h7 : ∃ q, unreadToken s'.ps.src t = some q ∧ s'' = { s' with ps := { s'.ps with src := q } } := by
      obtain ⟨q, h8, h9⟩ := Option.map_eq_some_iff.1 hun
      exact ⟨q, h8, h9.symm⟩
    obtain ⟨q, h8, rfl⟩ := h7
    have h9 : q = s'.ps.src.seek (p : Int) := by
      rw [unreadToken, h5, if_neg (by
        rw [h6.rep.source]
        simp)] at h8
      simpa using h8.symm
    subst h9
    have h10 := seek_holds h6 (Nat.le_of_lt h1)
    have h11 := key hp
    have hk : ∀ x ∈ defs, ∀ k t, groupType x.2 k = some t → t.1 < 64 := by
      intro x _ k t ht
      obtain ⟨a, b⟩ := t
      exact (groupType_lt ht).1
    obtain ⟨m, h12, h13⟩ := fetchKind_all (g := env.g) defs hk (fun n hn hside => hin n (hs st hst n hn hside)) h2 (by
      rw [← h4]; exact hsol.2.2)
    rcases fetchLoop_kind defs hd h10 h1 h11 with ⟨v, m', -, rfl, h14, h15, h16, -, -⟩ | ⟨-, h14⟩
    · refine ⟨v, rfl, ?_, ?_, ?_⟩
      · rw [h16]; simp [eofTokenType]
      · rw [h16]; simp [eoiTokenType]
      · rw [h12] at h14
        cases h14
        rw [h16]
        exact h13
    · rw [h12] at h14; cases h14

end Verif.Proof
