/-
Where the sources are when a parse of one source ends: right after the consumed tokens.
-/
import Verif.Proof.CutsWhole
import Verif.Proof.SupplyHalts

namespace Verif.Proof

open Verif.Model Verif.Spec Verif.Model.Lexer
open Verif.Model.Tree (bindRun)
open Verif.Props (LexersOf)

variable {σ η : Type} {re : List Nat → Option Matcher} {ts : List GToken}

theorem cuts_shape {src : Src} {p : Nat} {toks : List Token} {l : SrcList.State Src} (h : Cuts re ts [(src, p)] toks l) :
    l = [] ∨ ∃ p', l = [(src, p')] := by
  induction toks generalizing p with
  | nil => cases h; exact .inr ⟨p, rfl⟩
  | cons t toks ih =>
    cases h with
    | tok _ _ _ _ h5 => exact ih h5
    | eof h5 => exact .inl (cuts_nil h5).2

theorem prepend_seek {q q' : SrcQueue} {src : Src} (h : Lexer.Holds q []) {p : Nat} (hp : p ≤ src.content.length) {t : Token} (ht : t.pos = ⟨some src, (p : Nat)⟩)
    (hu : unreadToken q t = some q') : Lexer.Holds q' [(src, p)] := by
  unfold unreadToken at hu
  have hs : q.source = none := by simpa using h.rep.source
  rw [ht, hs, if_pos (by simp)] at hu
  obtain ⟨q2, h2, h3⟩ := h.rep.prepend src
  rw [h2] at hu
  simp only [Option.map_some, Option.some.injEq] at hu
  subst hu
  have h3 : SrcQueue.Rep q2 [(src, 0)] := h3
  exact seek_holds ⟨h3, ⟨by simp, by simp, by simp⟩, by simp⟩ hp

theorem cuts_shape0 {src : Src} {l0 : SrcList.State Src} (h0 : l0 = [] ∨ ∃ p, l0 = [(src, p)]) {toks : List Token} {l : SrcList.State Src}
    (h : Cuts re ts l0 toks l) : l = [] ∨ ∃ p', l = [(src, p')] := by
  rcases h0 with rfl | ⟨p, rfl⟩
  · exact .inl (cuts_nil h).2
  · exact cuts_shape h

/-- Sources are right after the consumed tokens if nothing but the last token is left when the root node ends. -/
theorem cut_end (env : PEnv σ) (hfull : env.fullSource = false) {tenv : TEnv η} {n : Nat} {src : Src} {l0 : SrcList.State Src} (hl0 : l0 = [] ∨ ∃ p, l0 = [(src, p)]) {fuel : Nat}
    {pc1 pc : PC (LState η)} {tok : Option Token} {b : Bool} (h7 : Cut re ts env (n + 1) l0 pc1.src pc1.delivered)
    (h6 : replay pc1.steps pc1.delivered = some (if b then [] else [tok]))
    (h3 : finish (pipelineEnv env tenv [] (n + 1)) fuel pc1 tok b = .done (.ok pc))
    (hne : ∀ t ∈ (consumedBy pc.steps).reduceOption, t.type ≠ eoiTokenType) :
    ∃ toks l, Cuts re ts l0 toks l ∧ Lexer.Holds pc.src.ps.src l ∧
      (consumedBy pc.steps).reduceOption = toks.filter (keeps env.g env.passSides) := by
  obtain ⟨toks, l, eois, hat, hc, he, heoi, -⟩ := h7
  rw [finish, bindRun_done] at h3
  obtain ⟨pc2, h4, h5⟩ := h3
  rw [if_neg (by rw [show (pipelineEnv env tenv [] (n + 1)).fullSource = env.fullSource from rfl, hfull]; simp)] at h5
  cases h5
  have hsteps : pc.steps = pc1.steps := by
    obtain ⟨s, rfl⟩ := putBack_spec h4
    rfl
  rw [hsteps] at hne ⊢
  have hd := replay_consumed _ _ _ h6
  rw [hd, List.reduceOption_append] at he
  have same : ∀ extra : List Token, (if b then [] else [tok]).reduceOption = extra → (∀ t ∈ extra, t ∉ toks) →
      (consumedBy pc1.steps).reduceOption = toks.filter (keeps env.g env.passSides) := by
    rintro extra hx hnot
    rw [hx] at he
    rcases List.append_eq_append_iff.mp he with ⟨x, e1, e2⟩ | ⟨x, e1, e2⟩
    · have : x = [] := by
        by_contra hne'
        obtain ⟨y, hy⟩ := List.exists_mem_of_ne_nil _ hne'
        exact hnot y (by rw [e2]; simp [hy]) (List.mem_of_mem_filter (p := keeps env.g env.passSides) (by rw [e1]; simp [hy]))
      rw [e1, this, List.append_nil]
    · have : x = [] := by
        by_contra hne'
        obtain ⟨y, hy⟩ := List.exists_mem_of_ne_nil _ hne'
        have h6 := heoi y (by rw [e2]; simp [hy])
        exact hne y (by rw [e1]; simp [hy]) (by rw [h6]; rfl)
      rw [e1, this, List.append_nil]
  cases b with
  | true =>
    have : pc = pc1 := by
      rw [putBack.eq_def, if_pos rfl] at h4
      cases h4; rfl
    subst this
    exact ⟨toks, l, hc, hat.1, same [] rfl (by simp)⟩
  | false =>
    rw [putBack.eq_def, if_neg (by simp)] at h4
    cases tok with
    | none => cases h4
    | some t =>
      dsimp only at h4
      split at h4
      · rename_i ht
        cases h4
        exact ⟨toks, l, hc, hat.1, same [t] rfl (by
          intro t' ht' hm
          rw [List.mem_singleton] at ht'
          subst ht'
          exact cuts_types hc _ hm ht)⟩
      · rename_i ht
        split at h4
        · rename_i hp
          cases h4
          exact ⟨toks, l, hc, hat.1, same [t] rfl (by
            intro t' ht' hm
            rw [List.mem_singleton] at ht'
            subst ht'
            obtain ⟨s, hs⟩ := cuts_placed hc _ hm
            rw [hs] at hp
            cases hp)⟩
        · obtain ⟨src', h9, h4⟩ := orPanic_done.mp h4
          cases h4
          have he' : (consumedBy pc1.steps).reduceOption ++ [t] = toks.filter (keeps env.g env.passSides) ++ eois := he
          have h10 : eois = [] := by
            rcases List.eq_nil_or_concat eois with h | ⟨e1, e, rfl⟩
            · exact h
            · rw [List.concat_eq_append, ← List.append_assoc] at he'
              obtain ⟨-, h11⟩ := List.append_inj' he' rfl
              simp only [List.cons.injEq, and_true] at h11
              exfalso
              apply ht
              rw [h11, heoi e (by simp)]
              rfl
          rw [h10, List.append_nil] at he'
          obtain ⟨a, c, rfl, h11, h12⟩ := List.filter_eq_append_iff.mp he'.symm
          obtain ⟨a2, c2, rfl, h13, hk, -⟩ := List.filter_eq_cons_iff.mp h12
          rw [← List.append_assoc] at hc
          obtain ⟨l1, h14, h15⟩ := cuts_split hc
          have hfil : (a ++ a2).filter (keeps env.g env.passSides) = (consumedBy pc1.steps).reduceOption := by
            rw [List.filter_append, h11, List.filter_eq_nil_iff.mpr h13, List.append_nil]
          cases h15 with
          | @tok s p k i m gt rest _ _ g1 g2 g3 g4 g5 =>
            rcases cuts_shape0 hl0 h14 with h | ⟨p', h⟩
            · cases h
            · cases h
              refine ⟨a ++ a2, _, h14, ?_, hfil.symm⟩
              have hl : l = [] ∨ ∃ p', l = [(src, p')] := cuts_shape g5
              rcases hl with rfl | ⟨p', rfl⟩
              · obtain ⟨q', h16, rfl⟩ := Option.map_eq_some_iff.mp h9
                exact prepend_seek hat.1 (by omega) rfl h16
              · exact (unread_text env hat (by omega) rfl h9).1
          | eof g5 => simp [keeps, endOf] at hk

end Verif.Proof
