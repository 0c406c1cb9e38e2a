/-
Tokens that the beginning of a text is cut into by a parser that need not read the whole text.
-/
import Verif.Proof.Cuts
import Verif.Proof.Halts

namespace Verif.Proof

open Verif.Model Verif.Spec Verif.Model.Lexer
open Verif.Model.Tree (bindRun)
open Verif.Props (LexersOf)

variable {σ η : Type}

/-- What is true about the source and delivered tokens stays true if reading of one token keeps it. -/
theorem kept_inv {env : PEnv σ} {K : σ → List (Option Token) → Prop}
    (hloop : ∀ {types : TokenTypeSet} {fuel : Nat} {pc pc' : PC σ} {r : Except PErr (Option Token)},
      nextLoop env types fuel pc = .done (pc', r) → K pc.src pc.delivered → K pc'.src pc'.delivered) :
    LoopInv env (fun pc tok => replay pc.steps pc.delivered = some (tok :: pc.tokens) ∧ K pc.src pc.delivered)
      (fun pc => replay pc.steps pc.delivered = some pc.tokens ∧ K pc.src pc.delivered) := by
  have htok : ∀ {types fuel pc pc' r}, nextToken env fuel pc types = .done (pc', r) → K pc.src pc.delivered → K pc'.src pc'.delivered := by
    intro types fuel pc pc' r h hd
    rw [nextToken.eq_def] at h
    split at h
    · cases h; exact hd
    · exact hloop h hd
  have hcon : ∀ {fuel pc pc' tok tokens tokens' rc rules}, conflictLoop env fuel pc tok tokens rc = .done (pc', tokens', rules) →
      K pc.src pc.delivered → K pc'.src pc'.delivered := by
    intro fuel
    induction fuel with
    | zero => intro pc pc' tok tokens tokens' rc rules h; simp [conflictLoop] at h
    | succ fuel ih =>
      intro pc pc' tok tokens tokens' rc rules h hd
      rw [conflictLoop, bindRun_done] at h
      obtain ⟨rc1, -, h⟩ := h
      dsimp only at h
      split at h
      · obtain ⟨_, -, h⟩ := orPanic_done.mp h
        cases h; exact hd
      · split at h
        · obtain ⟨_, -, h⟩ := orPanic_done.mp h
          cases h; exact hd
        · rw [bindRun_done] at h
          obtain ⟨⟨pc1, r⟩, h3, h⟩ := h
          have hd1 := htok h3 hd
          cases r with
          | error e =>
            obtain ⟨_, -, h⟩ := orPanic_done.mp h
            cases h; exact hd1
          | ok tok' => exact ih h hd1
  refine ⟨?_, ?_⟩
  · rintro fuel pc pc' tok node rest ⟨hj, hd⟩ hs h
    exact ⟨(tokens_inv env).token hj hs h, htok h hd⟩
  · rintro fuel pc pc1 pc2 tok node rest r b ⟨hi, hd⟩ hs h1 h2
    have h3 := (tokens_inv env).step hi hs h1 h2
    have hd1 : K pc1.src pc1.delivered := by
      rw [nextRule.eq_def] at h1
      split at h1
      · cases h1; exact hd
      · obtain ⟨rules, -, h1⟩ := orPanic_done.mp h1
        split at h1
        · cases h1
        · cases h1; exact hd
        · rw [bindRun_done] at h1
          obtain ⟨⟨pc0, toks, rules⟩, h4, h1⟩ := h1
          obtain ⟨r', -, h1⟩ := orPanic_done.mp h1
          cases h1
          rw [resolveConflict] at h4
          obtain ⟨top, -, h4⟩ := orPanic_done.mp h4
          have := hcon h4 hd
          exact this
    obtain ⟨-, stack, log, last, rfl⟩ := applyRule_spec h2
    cases b
    · exact ⟨h3, hd1⟩
    · exact ⟨h3, hd1⟩

theorem parse_kept_part {env : PEnv σ} {K : σ → List (Option Token) → Prop}
    (hloop : ∀ {types : TokenTypeSet} {fuel : Nat} {pc pc' : PC σ} {r : Except PErr (Option Token)},
      nextLoop env types fuel pc = .done (pc', r) → K pc.src pc.delivered → K pc'.src pc'.delivered) {fuel : Nat} {src : σ} (h0 : K src [])
    {pos : SrcPos} {pc : PC σ} (h : parse env fuel src pos = .done (.ok pc)) :
    ∃ src' delivered rest, K src' delivered ∧ delivered = consumedBy pc.steps ++ rest := by
  obtain ⟨pc1, tok, b, h1, h2, h3⟩ := parse_inv (kept_inv hloop) h (fun pc0 h0 => by
    obtain ⟨_, _, _, rfl⟩ := pushNode_spec h0
    exact ⟨rfl, by assumption⟩)
  obtain ⟨src', ts, dl, read, rfl, -⟩ := finish_spec h3
  cases b with
  | true => exact ⟨_, _, _, h2.2, replay_consumed _ _ _ h2.1⟩
  | false => exact ⟨_, _, _, h2.2, replay_consumed _ _ _ h2.1⟩

variable {re : List Nat → Option Matcher} {ts : List GToken}

theorem cuts_split {l l' : SrcList.State Src} {a b : List Token} (h : Cuts re ts l (a ++ b) l') :
    ∃ l1, Cuts re ts l a l1 ∧ Cuts re ts l1 b l' := by
  induction a generalizing l with
  | nil => exact ⟨l, .nil, h⟩
  | cons t a ih =>
    rw [List.cons_append] at h
    cases h with
    | tok h1 h2 h3 h4 h5 =>
      obtain ⟨l1, h6, h7⟩ := ih h5
      exact ⟨l1, .tok h1 h2 h3 h4 h6, h7⟩
    | eof h5 =>
      obtain ⟨l1, h6, h7⟩ := ih h5
      exact ⟨l1, .eof h6, h7⟩

theorem cuts_nil {l' : SrcList.State Src} {toks : List Token} (h : Cuts re ts [] toks l') : toks = [] ∧ l' = [] := by
  cases h
  exact ⟨rfl, rfl⟩

/-- Tokens cut from one source: the end of source may be only the last one. -/
theorem cuts_one {src : Src} {p : Nat} {toks : List Token} {l' : SrcList.State Src} (h : Cuts re ts [(src, p)] toks l') (pass : Bool) (g : Grammar)
    (hp : pass = true) {a b : List Token} (he : a ++ b = toks.filter (keeps g pass)) :
    ∃ p', Cuts re ts [(src, p)] a [(src, p')] := by
  subst hp
  induction a generalizing p toks with
  | nil => exact ⟨p, .nil⟩
  | cons t a ih =>
    cases h with
    | nil => simp at he
    | tok h1 h2 h3 h4 h5 =>
      rw [List.filter_cons_of_pos (by simp [keeps, eofTokenType])] at he
      simp only [List.cons_append, List.cons.injEq] at he
      obtain ⟨rfl, he⟩ := he
      obtain ⟨p', h6⟩ := ih h5 he
      exact ⟨p', .tok h1 h2 h3 h4 h6⟩
    | eof h5 =>
      obtain ⟨rfl, -⟩ := cuts_nil h5
      simp [keeps, endOf] at he

/-- The text of tokens cut from one source. -/
theorem cuts_text {src : Src} {p p' : Nat} {toks : List Token} (h : Cuts re ts [(src, p)] toks [(src, p')]) (hle : p ≤ src.content.length) (hm : MatchersOk re) :
    p ≤ p' ∧ p' ≤ src.content.length ∧ toks.flatMap (·.content) = (src.content.drop p).take (p' - p) := by
  induction toks generalizing p with
  | nil => cases h; simp [hle]
  | cons t toks ih =>
    cases h with
    | @tok _ _ k i n t' _ _ _ h1 h2 h3 h4 h5 =>
      have hn : n ≤ (src.content.drop p).length := by
        obtain ⟨-, ⟨t1, r1, m1, -, -, h6, h7⟩, -⟩ := h2
        exact hm _ _ h6 _ _ h7
      rw [List.length_drop] at hn
      obtain ⟨h6, h7, h8⟩ := ih h5 (by omega)
      refine ⟨by omega, h7, ?_⟩
      rw [List.flatMap_cons, h8]
      have e1 : src.content.drop (p + n) = (src.content.drop p).drop n := by rw [List.drop_drop]
      rw [e1, show p' - p = n + (p' - (p + n)) by omega, List.take_add]
    | eof h5 => cases (cuts_nil h5).2

/-- Consumed tokens are cut from the beginning of the only source. -/
theorem parse_cut_part (env : PEnv σ) (hpass : env.passSides = true) {tenv : TEnv η} (hl : LexersOf re ts tenv.lexers) {n : Nat} (hn : 0 < n)
    {ls : LState η} {src : Src} (hat : At n ls [(src, 0)]) {fuel : Nat} {pos : SrcPos} {pc : PC (LState η)}
    (h : parse (pipelineEnv env tenv [] n) fuel ls pos = .done (.ok pc))
    (hne : ∀ t ∈ (consumedBy pc.steps).reduceOption, t.type ≠ eoiTokenType) :
    ∃ p, Cuts re ts [(src, 0)] (consumedBy pc.steps).reduceOption [(src, p)] := by
  obtain ⟨n, rfl⟩ : ∃ k, n = k + 1 := ⟨n - 1, by omega⟩
  obtain ⟨src', dl, rest, ⟨toks, l, eois, -, hp, hd, he, hend⟩, rfl⟩ := parse_kept_part (K := Cut re ts env (n + 1) [(src, 0)])
    (fun h hk => nextLoop_cut env hl _ hk h) ⟨[], _, [], hat, .nil, by simp, by simp, by simp⟩ h
  rw [List.reduceOption_append] at hd
  obtain ⟨b, hb⟩ : ∃ b, (consumedBy pc.steps).reduceOption ++ b = toks.filter (keeps env.g env.passSides) := by
    rcases List.append_eq_append_iff.mp hd with ⟨x, h1, -⟩ | ⟨x, h1, h2⟩
    · exact ⟨x, h1.symm⟩
    · have hx : x = [] := by
        by_contra hx
        obtain ⟨y, hy⟩ := List.exists_mem_of_ne_nil _ hx
        have h3 := hne y (by rw [h1]; simp [hy])
        have h4 := he y (by rw [h2]; simp [hy])
        rw [h4] at h3
        exact h3 rfl
      exact ⟨[], by rw [h1, hx]; simp⟩
  exact cuts_one hp _ _ hpass hb

end Verif.Proof
