import Verif.Proof.ParseHalts
import Verif.Proof.LexerCalls
import Verif.Model.Pipeline

namespace Verif.Proof

open Verif Verif.Model Verif.Model.Lexer Verif.Spec Verif.Spec.Lex
open Verif.Model.Tree (bindRun)

/-- Number of bytes and ends of sources that are not read. -/
def unread : SrcList.State Src → Nat
  | [] => 0
  | (src, p) :: rest => src.content.length - p + 1 + unread rest

theorem nextOf_supply {re : Regexp} (hre : ReOk re) (types : List TokenType) (tts : TokenTypeSet) {q : SrcQueue}
    {l : SrcList.State Src} (h : Holds q l) :
    ∃ q' l' res, (∀ fuel, bound l ≤ fuel → (new re types).nextOf fuel q tts = .done (q', res)) ∧ Holds q' l' ∧
      l'.length ≤ l.length ∧ unread l' ≤ unread l ∧
      ∀ t, res = .ok (some t) → if t.type = -3 then unread l' = 0 else unread l' < unread l := by
  unfold nextOf
  by_cases hz : tts &&& (new re types).typeMask = 0
  · simp only [hz, if_true]
    exact ⟨q, l, _, fun _ _ => rfl, h, le_refl _, le_refl _, by simp⟩
  · simp only [hz, if_false]
    obtain ⟨q', l', res, h1, h2, h3⟩ := loop_total hre types tts h
    refine ⟨q', l', res, h1, h2, ?_⟩
    cases l with
    | nil =>
      obtain ⟨rfl, rfl, rfl⟩ := h3
      refine ⟨le_refl _, le_refl _, ?_⟩
      intro t ht
      cases ht
      rfl
    | cons x rest =>
      obtain ⟨src, p⟩ := x
      obtain ⟨p0, hsk, hle0, ⟨_, rfl, rfl⟩ | ⟨hlt, p', hle, hpp, _, rfl, hlex⟩⟩ := h3
      · refine ⟨by simp, by simp [unread], ?_⟩
        intro t ht
        cases ht
        rw [if_neg (by simp [eofTokenType])]
        simp only [unread]
        omega
      · refine ⟨by simp, ?_, ?_⟩
        · simp only [unread]
          omega
        · intro t ht
          subst ht
          cases hlex with
          | token e gs k a b t name hm hg hab hbe hpe hdec hgt hreq =>
            rw [if_neg (by simp)]
            have := hm.2
            simp only [unread]
            omega

/-- All lexers were made by `New` with matchers obeying the contract. -/
def LexersOk (ls : List Lexer) : Prop := ∀ l ∈ ls, ∃ re types, ReOk re ∧ l = new re types

theorem fetchLoop_supply (tts : TokenTypeSet) {ls : List Lexer} (hls : LexersOk ls) (q : SrcQueue) (l : SrcList.State Src)
    (h : Holds q l) (fe : Option LlxError) :
    ∃ q' l' res N, (∀ fuel, N ≤ fuel → fetchLoop tts fuel ls q fe = .done (q', res)) ∧ Holds q' l' ∧
      l'.length ≤ l.length ∧ unread l' ≤ unread l ∧
      ∀ t, res = .ok (some t) → if t.type = -3 then unread l' = 0 else unread l' < unread l := by
  induction ls generalizing q l fe with
  | nil =>
    cases fe with
    | none => exact ⟨q, l, .ok none, 0, fun _ _ => rfl, h, le_refl _, le_refl _, by simp⟩
    | some e =>
      by_cases ht : tts = allTokenTypes
      · exact ⟨q, l, _, 0, fun _ _ => by rw [fetchLoop]; exact if_pos ht, h, le_refl _, le_refl _, by simp⟩
      · exact ⟨q, l, _, 0, fun _ _ => by rw [fetchLoop]; exact if_neg ht, h, le_refl _, le_refl _, by simp⟩
  | cons x ls ih =>
    obtain ⟨re, types, hre, rfl⟩ := hls x List.mem_cons_self
    obtain ⟨q1, l1, res1, h1, h2, h3, h4, h5⟩ := nextOf_supply hre types tts h
    have next : ∀ fe', (∀ fuel, bound l ≤ fuel → fetchLoop tts fuel (new re types :: ls) q fe = fetchLoop tts fuel ls q1 fe') →
        ∃ q' l' res N, (∀ fuel, N ≤ fuel → fetchLoop tts fuel (new re types :: ls) q fe = .done (q', res)) ∧ Holds q' l' ∧
          l'.length ≤ l.length ∧ unread l' ≤ unread l ∧
          ∀ t, res = .ok (some t) → if t.type = -3 then unread l' = 0 else unread l' < unread l := by
      intro fe' he
      obtain ⟨q2, l2, res2, N, h6, h7, h8, h9, h10⟩ := ih (fun y hy => hls y (List.mem_cons_of_mem _ hy)) q1 l1 h2 fe'
      refine ⟨q2, l2, res2, max N (bound l), fun fuel hf => ?_, h7, by omega, by omega, ?_⟩
      · rw [he fuel (by omega), h6 fuel (by omega)]
      · intro t ht
        have := h10 t ht
        split at this <;> rename_i hc
        · rw [if_pos hc]; exact this
        · rw [if_neg hc]; omega
    rcases res1 with e | (_ | t)
    · exact next _ fun fuel hf => by rw [fetchLoop, h1 fuel hf, bindRun]
    · exact next _ fun fuel hf => by rw [fetchLoop, h1 fuel hf, bindRun]
    · exact ⟨q1, l1, .ok (some t), bound l, fun fuel hf => by rw [fetchLoop, h1 fuel hf, bindRun], h2, h3, h4,
        fun t' ht => h5 t' (by cases ht; rfl)⟩

/-- Sources of the parser: at most `B` of them, `n` bytes and ends of sources are not read. -/
def SourcesLeft {η : Type} (B : Nat) (ls : LState η) (n : Nat) : Prop :=
  ∃ l, Holds ls.ps.src l ∧ l.length ≤ B ∧ unread l = n

theorem pipeline_supply {η : Type} (tenv : TEnv η) (hls : LexersOk tenv.lexers) (B : Nat) :
    Supply (fun fuel (ls : LState η) types => pullToken tenv fuel types [] ls) (SourcesLeft B) := by
  rintro ls n types ⟨l, hl, hB, rfl⟩
  obtain ⟨q', l', res, N, h1, h2, h3, h4, h5⟩ := fetchLoop_supply types hls ls.ps.src l hl none
  refine ⟨.done ({ ls with ps := { ls.ps with src := q' } }, res), N, fun fuel hf => ?_, by simp, ?_⟩
  · simp only [pullToken, fetchToken, h1 fuel hf, bindRun]
  · intro src' res' he
    cases he
    have hsl : ∀ k, unread l' = k → SourcesLeft B { ls with ps := { ls.ps with src := q' } } k :=
      fun k hk => ⟨l', h2, by omega, hk⟩
    rcases res with e | (_ | t)
    · exact ⟨_, h4, hsl _ rfl⟩
    · exact ⟨_, h4, hsl _ rfl⟩
    · have := h5 t rfl
      unfold FedAfter
      dsimp only
      split at this <;> rename_i hc
      · rw [if_pos hc]; exact hsl _ this
      · rw [if_neg hc]; exact ⟨_, this, hsl _ rfl⟩

theorem unread_sources {q q' : SrcQueue} {l : SrcList.State Src} (h : Holds q l) (hl : l.length < 2 ^ 31) {t : Token}
    (hu : unreadToken q t = some q') : ∃ l', Holds q' l' ∧ l'.length ≤ l.length + 1 := by
  unfold unreadToken at hu
  obtain ⟨q1, h1, rfl⟩ := Option.map_eq_some_iff.mp hu
  have hs : ∀ {q1 l1}, SrcQueue.Rep q1 l1 → SrcQueue.Ok l1 → l1.length ≤ l.length + 1 →
      ∃ l', Holds (q1.seek t.pos.pos) l' ∧ l'.length ≤ l.length + 1 := by
    intro q1 l1 hr ho hlen
    refine ⟨_, ⟨hr.seek _, ho.move _ ?_, ?_⟩, ?_⟩
    · intro c p _; exact Nat.min_le_right _ _
    · rw [SrcQueue.move_length]; omega
    · rw [SrcQueue.move_length]; omega
  split at h1
  · cases hp : t.pos.src with
    | none =>
      rw [hp] at h1
      cases h1
      exact hs h.rep h.ok (by omega)
    | some s =>
      rw [hp] at h1
      obtain ⟨q2, h2, h3⟩ := h.rep.prepend s
      rw [h2] at h1
      cases h1
      exact hs h3 (h.ok.prepend s) (SrcQueue.prepend_length l s)
  · cases h1
    exact hs h.rep h.ok (by omega)

end Verif.Proof
