/-
All tokens of a text are consumed if the text is read to the end by a parser without lookahead.
-/
import Verif.Proof.CutsPart
import Verif.Proof.HooksHalt

namespace Verif.Proof

open Verif.Model Verif.Spec Verif.Model.Lexer
open Verif.Model.Tree (bindRun)
open Verif.Props (LexersOf)

variable {σ η : Type}

theorem loopInv_and {env : PEnv σ} {I I' : PC σ → Option Token → Prop} {J J' : PC σ → Prop} (h : LoopInv env I J) (h' : LoopInv env I' J') :
    LoopInv env (fun pc tok => I pc tok ∧ I' pc tok) (fun pc => J pc ∧ J' pc) := by
  refine ⟨fun hj hs hn => ⟨h.token hj.1 hs hn, h'.token hj.2 hs hn⟩, fun hi hs h1 h2 => ?_⟩
  have a := h.step hi.1 hs h1 h2
  have b := h'.step hi.2 hs h1 h2
  unfold Phase at a b ⊢
  split at a
  · rename_i hb
    rw [if_pos hb] at b ⊢
    exact ⟨a, b⟩
  · rename_i hb
    rw [if_neg hb] at b ⊢
    exact ⟨a, b⟩

/-- Without conflicts no token is put back to the queue. -/
theorem quiet_inv {env : PEnv σ} (hm : env.g.tables.multi = []) :
    LoopInv env (fun pc _ => pc.tokens = [] ∧ pc.applied = []) (fun pc => pc.tokens = [] ∧ pc.applied = []) := by
  refine ⟨?_, ?_⟩
  · rintro fuel pc pc' tok node rest ⟨h1, h2⟩ - h
    rw [nextToken, h1] at h
    obtain ⟨src, rfl⟩ := nextLoop_spec _ h
    exact ⟨h1, h2⟩
  · rintro fuel pc pc1 pc2 tok node rest r b ⟨h1, h2⟩ - h h'
    obtain ⟨-, stack, log, last, rfl⟩ := applyRule_spec h'
    have : pc1 = pc := by
      rw [nextRule, h2] at h
      obtain ⟨rules, hr, h⟩ := orPanic_done.mp h
      have hl := findRules_single hm hr
      match rules, hl with
      | [], _ => cases h
      | [r], _ => cases h; rfl
      | _ :: _ :: _, hl => simp at hl
    subst this
    unfold Phase
    split <;> exact ⟨h1, h2⟩

variable {re : List Nat → Option Matcher} {ts : List GToken}

/-- After a token is put back there is something to read. -/
theorem unread_more {q q' : SrcQueue} {l : SrcList.State Src} (h : Lexer.Holds q l) {t : Token} {s : Src} (ht : t.pos.src = some s)
    (hu : unreadToken q t = some q') : ¬ Lexer.Holds q' [] := by
  unfold unreadToken at hu
  obtain ⟨q1, h1, rfl⟩ := Option.map_eq_some_iff.mp hu
  have key : ∀ {l1}, SrcQueue.Rep q1 l1 → l1 ≠ [] → ¬ Lexer.Holds (q1.seek t.pos.pos) [] := by
    intro l1 hr hne hh
    have := rep_unique (hr.seek t.pos.pos) hh.rep
    have hl : (SrcList.move (fun c _ => min t.pos.pos.toNat c.len) l1).length = l1.length := SrcQueue.move_length _ _
    rw [this] at hl
    exact hne (List.eq_nil_of_length_eq_zero hl.symm)
  split at h1
  · rw [ht] at h1
    obtain ⟨q2, h2, h3⟩ := h.rep.prepend s
    rw [h2] at h1
    cases h1
    refine key h3 ?_
    cases l with
    | nil => simp [SrcList.prepend]
    | cons x l =>
      by_cases hx : x.1.len = 0 <;> by_cases hs : s.len = 0 <;> simp [SrcList.prepend, hx, hs]
  · rename_i hc
    cases h1
    refine key h.rep ?_
    rintro rfl
    have := h.rep.source
    rw [ht] at hc
    simp only [ne_eq, not_not] at hc
    rw [← hc] at this
    simp at this

theorem cuts_placed {l l' : SrcList.State Src} {toks : List Token} (h : Cuts re ts l toks l') : ∀ t ∈ toks, ∃ s, t.pos.src = some s := by
  induction h with
  | nil => simp
  | tok _ _ _ _ _ ih => exact List.forall_mem_cons.mpr ⟨⟨_, rfl⟩, ih⟩
  | eof _ ih => exact List.forall_mem_cons.mpr ⟨⟨_, rfl⟩, ih⟩

/-- All tokens are consumed if nothing but the last token is left when the root node ends. -/
theorem cut_whole_end (env : PEnv σ) (hfull : env.fullSource = false) {tenv : TEnv η} {n : Nat} {l0 : SrcList.State Src} {fuel : Nat}
    {pc1 pc : PC (LState η)} {tok : Option Token} {b : Bool} (h7 : Cut re ts env (n + 1) l0 pc1.src pc1.delivered)
    (h6 : replay pc1.steps pc1.delivered = some (if b then [] else [tok]))
    (h3 : finish (pipelineEnv env tenv [] (n + 1)) fuel pc1 tok b = .done (.ok pc)) (hend : Lexer.Holds pc.src.ps.src [])
    (hne : ∀ t ∈ (consumedBy pc.steps).reduceOption, t.type ≠ eoiTokenType) :
    ∃ toks, Cuts re ts l0 toks [] ∧ (consumedBy pc.steps).reduceOption = toks.filter (keeps env.g env.passSides) := by
  have hfin : ∀ {extra : List (Option Token)}, pc1.delivered = consumedBy pc1.steps ++ extra → Cut re ts env (n + 1) l0 pc1.src pc1.delivered → pc.steps = pc1.steps →
      pc.src = pc1.src → (∀ t, some t ∈ extra → t = eoiToken ∨ t.pos.src = none) →
      ∃ toks, Cuts re ts l0 toks [] ∧ (consumedBy pc.steps).reduceOption = toks.filter (keeps env.g env.passSides) := by
    rintro extra hd ⟨toks, l, eois, ha, hc, he, heoi, -⟩ hs hsrc hx
    rw [hsrc] at hend
    obtain rfl := rep_unique ha.1.rep hend.rep
    refine ⟨toks, hc, ?_⟩
    rw [hs] at hne ⊢
    rw [hd, List.reduceOption_append] at he
    rcases List.append_eq_append_iff.mp he with ⟨x, h4, h5⟩ | ⟨x, h4, h5⟩
    · have : x = [] := by
        by_contra hne'
        obtain ⟨y, hy⟩ := List.exists_mem_of_ne_nil _ hne'
        have hy1 : y ∈ toks.filter (keeps env.g env.passSides) := by rw [h4]; simp [hy]
        have hy2 : some y ∈ extra := by
          rw [← List.reduceOption_mem_iff, h5]; simp [hy]
        rcases hx y hy2 with rfl | hy3
        · obtain ⟨s, hs⟩ := cuts_placed hc _ (List.mem_of_mem_filter hy1)
          cases hs
        · obtain ⟨s, hs⟩ := cuts_placed hc _ (List.mem_of_mem_filter hy1)
          rw [hs] at hy3; cases hy3
      rw [h4, this, List.append_nil]
    · have : x = [] := by
        by_contra hne'
        obtain ⟨y, hy⟩ := List.exists_mem_of_ne_nil _ hne'
        have h6 := heoi y (by rw [h5]; simp [hy])
        exact hne y (by rw [h4]; simp [hy]) (by rw [h6]; rfl)
      rw [h4, this, List.append_nil]
  rw [finish, bindRun_done] at h3
  obtain ⟨pc2, h4, h5⟩ := h3
  rw [if_neg (by rw [show (pipelineEnv env tenv [] (n + 1)).fullSource = env.fullSource from rfl, hfull]; simp)] at h5
  cases h5
  cases b with
  | true =>
    rw [if_pos rfl] at h6
    have : pc = pc1 := by
      rw [putBack.eq_def, if_pos rfl] at h4
      cases h4; rfl
    subst this
    exact hfin (replay_consumed _ _ _ h6) h7 rfl rfl (by simp)
  | false =>
    rw [if_neg (by simp)] at h6
    have hd := replay_consumed _ _ _ h6
    rw [putBack.eq_def, if_neg (by simp)] at h4
    cases tok with
    | none => cases h4
    | some t =>
      dsimp only at h4
      split at h4
      · rename_i ht
        cases h4
        refine hfin hd h7 rfl rfl ?_
        intro t' ht'
        simp only [List.mem_singleton, Option.some.injEq] at ht'
        subst ht'
        by_cases hp : t'.pos.src = none
        · exact .inr hp
        · exfalso
          obtain ⟨toks, l, eois, ha, hc, he, heoi, -⟩ := h7
          have : t' ∈ pc1.delivered.reduceOption := by rw [List.reduceOption_mem_iff, hd]; simp
          rw [he] at this
          rcases List.mem_append.mp this with h9 | h9
          · have h9 := List.mem_of_mem_filter h9
            clear * - hc h9 ht
            induction hc with
            | nil => cases h9
            | tok _ _ _ _ _ ih =>
              rcases List.mem_cons.mp h9 with rfl | h9
              · simp [eoiTokenType] at ht
              · exact ih h9
            | eof _ ih =>
              rcases List.mem_cons.mp h9 with rfl | h9
              · simp [endOf, eoiTokenType, eofTokenType] at ht
              · exact ih h9
          · rw [heoi _ h9] at hp
            exact hp rfl
      · split at h4
        · rename_i hp
          cases h4
          refine hfin hd h7 rfl rfl ?_
          intro t' ht'
          simp only [List.mem_singleton, Option.some.injEq] at ht'
          subst ht'
          exact .inr (by simpa using hp)
        · rename_i hp
          obtain ⟨src, h9, h4⟩ := orPanic_done.mp h4
          cases h4
          exfalso
          obtain ⟨toks, l, eois, ha, -⟩ := h7
          obtain ⟨q', h10, rfl⟩ := Option.map_eq_some_iff.mp h9
          obtain ⟨s, hs⟩ : ∃ s, t.pos.src = some s := by
            cases he : t.pos.src with
            | none => rw [he] at hp; simp at hp
            | some s => exact ⟨s, rfl⟩
          exact unread_more ha.1 hs h10 hend

/-- All tokens are consumed. -/
theorem parse_cut_whole (env : PEnv σ) (hm : env.g.tables.multi = []) (hfull : env.fullSource = false) {tenv : TEnv η}
    (hl : LexersOf re ts tenv.lexers) {n : Nat} (hn : 0 < n) {ls : LState η} {l0 : SrcList.State Src} (hat : At n ls l0) {fuel : Nat} {pos : SrcPos}
    {pc : PC (LState η)} (h : parse (pipelineEnv env tenv [] n) fuel ls pos = .done (.ok pc)) (hend : Lexer.Holds pc.src.ps.src [])
    (hne : ∀ t ∈ (consumedBy pc.steps).reduceOption, t.type ≠ eoiTokenType) :
    ∃ toks, Cuts re ts l0 toks [] ∧ (consumedBy pc.steps).reduceOption = toks.filter (keeps env.g env.passSides) := by
  obtain ⟨n, rfl⟩ : ∃ k, n = k + 1 := ⟨n - 1, by omega⟩
  obtain ⟨pc1, tok, b, -, h2, h3⟩ := parse_inv (loopInv_and (kept_inv (env := pipelineEnv env tenv [] (n + 1)) (K := Cut re ts env (n + 1) l0)
    (fun h hk => nextLoop_cut env hl _ hk h)) (quiet_inv hm)) h (fun pc0 h0 => by
      obtain ⟨_, _, _, rfl⟩ := pushNode_spec h0
      exact ⟨⟨rfl, [], _, [], hat, .nil, by simp, by simp, by simp⟩, rfl, rfl⟩)
  refine cut_whole_end env hfull (tok := tok) (b := b) ?_ ?_ h3 hend hne
  · cases b with
    | true => exact h2.1.2
    | false => exact h2.1.2
  · cases b with
    | true =>
      obtain ⟨⟨h6, -⟩, h8, -⟩ := h2
      rw [h8] at h6
      exact h6
    | false =>
      obtain ⟨⟨h6, -⟩, h8, -⟩ := h2
      rw [h8] at h6
      exact h6

theorem whole_text {src : Src} {p : Nat} {toks : List Token} (h : Cuts re ts [(src, p)] toks []) (hle : p ≤ src.content.length) (hm : MatchersOk re)
    (g : Grammar) : ∃ body, toks = body ++ [endOf src] ∧ Cuts re ts [(src, p)] body [(src, src.content.length)] ∧
      toks.filter (keeps g true) = body ∧ body.flatMap (·.content) = src.content.drop p := by
  induction toks generalizing p with
  | nil => cases h
  | cons t toks ih =>
    cases h with
    | @tok _ _ k i n t' _ _ _ h1 h2 h3 h4 h5 =>
      have hn : n ≤ (src.content.drop p).length := by
        obtain ⟨-, ⟨t1, r1, m1, -, -, h6, h7⟩, -⟩ := h2
        exact hm _ _ h6 _ _ h7
      rw [List.length_drop] at hn
      obtain ⟨body, rfl, h6, h7, h8⟩ := ih h5 (by omega)
      refine ⟨_ :: body, rfl, .tok h1 h2 h3 h4 h6, ?_, ?_⟩
      · rw [List.filter_cons_of_pos (by simp [keeps, eofTokenType]), h7]
      · rw [List.flatMap_cons, h8]
        have e1 : src.content.drop (p + n) = (src.content.drop p).drop n := by rw [List.drop_drop]
        rw [e1, List.take_append_drop]
    | eof h5 =>
      obtain ⟨rfl, -⟩ := cuts_nil h5
      exact ⟨[], rfl, .nil, by simp [keeps, endOf, eofTokenType], by simp⟩

end Verif.Proof
