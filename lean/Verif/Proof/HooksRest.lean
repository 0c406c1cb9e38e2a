/-
The check of the rest of the text stops when there are token hooks: a token may be put back to sources, although hooks have
already got the end of input.
-/
import Verif.Proof.HooksHalt

namespace Verif.Proof

open Verif Verif.Model Verif.Model.Lexer Verif.Spec Verif.Spec.Lex
open Verif.Model.Tree (bindRun)

section
variable {σ : Type} {env : PEnv σ} {pull : Nat → σ → TokenTypeSet → Run (σ × Except PErr (Option Token))}

/-- `FedAfter`, but nothing is known after the end of input. -/
def FedRest (I : σ → Nat → Prop) (n : Nat) (res : Except PErr (Option Token)) (src' : σ) : Prop :=
  ∀ t, res = .ok (some t) → t.type ≠ eoiTokenType → ∃ n' < n, I src' n'

/-- Fetching of tokens stops, and there are at most `n` tokens before the first end of input. -/
def RestFeeds (pull : Nat → σ → TokenTypeSet → Run (σ × Except PErr (Option Token))) (I : σ → Nat → Prop) : Prop :=
  ∀ src n types, I src n → Halts (fun k _ => pull k src types) (fun x => FedRest I n x.2 x.1)

theorem nextLoop_rest {I : σ → Nat → Prop} (hs : RestFeeds pull I) (types : TokenTypeSet) (n : Nat) : ∀ pc : PC σ, I pc.src n →
    Halts (fun k n => nextLoop { env with pull := pull k } types n pc) (fun r => r.1.tokens = pc.tokens ∧
      ∀ t, r.2 = .ok (some t) → t.type ≠ eoiTokenType → ∃ n' < n, I r.1.src n') := by
  induction n using Nat.strong_induction_on with
  | _ n ih =>
    intro pc hp
    refine .step (fun k n => by rw [nextLoop]) ?_
    refine .bind (hs pc.src n types hp) ?_
    rintro ⟨src, res⟩ hmu
    cases res with
    | error e => exact .done ⟨rfl, by simp⟩
    | ok tok =>
      dsimp only at hmu ⊢
      by_cases hc : tok.any (fun t => t.type = eofTokenType) ∨ (env.g.isSideToken tok ∧ ¬ env.passSides)
      · refine .congr (fun k n => if_pos hc) ?_
        have hreal : ∃ t, tok = some t ∧ t.type ≠ -3 := by
          rcases hc with hc | ⟨hc, -⟩
          · cases tok with
            | none => simp at hc
            | some t =>
              have hc : t.type = -2 := of_decide_eq_true hc
              exact ⟨t, rfl, by omega⟩
          · cases tok with
            | none => simp [Grammar.isSideToken] at hc
            | some t =>
              have hc : env.g.isSideType t.type = true := by simpa [Grammar.isSideToken] using hc
              unfold Grammar.isSideType at hc
              split at hc
              · exact ⟨t, rfl, by omega⟩
              · cases hc
        obtain ⟨t, rfl, ht⟩ := hreal
        obtain ⟨n', h1, h2⟩ := hmu t rfl ht
        refine (ih n' h1 { pc with src := src } h2).mono ?_
        rintro ⟨pc', r⟩ ⟨h3, h4⟩
        refine ⟨h3, fun t h5 h6 => ?_⟩
        obtain ⟨n2, h7, h8⟩ := h4 t h5 h6
        exact ⟨n2, by omega, h8⟩
      · refine .congr (fun k n => if_neg hc) ?_
        refine .done ⟨rfl, fun t h5 h6 => ?_⟩
        cases h5
        exact hmu t rfl h6

theorem restLoop_rest {I : σ → Nat → Prop} (hs : RestFeeds pull I) (b : Nat) : ∀ (pc : PC σ) (n : Nat), I pc.src n → pc.tokens.length + n = b →
    Halts (fun k n => restLoop { env with pull := pull k } n pc) (fun r => ∀ x, r = .ok x → True) := by
  induction b using Nat.strong_induction_on with
  | _ b ih =>
    intro pc n hp hb
    refine .step (fun k n => by rw [restLoop]) ?_
    refine .bind (P := fun r => ∀ t, r.2 = .ok (some t) → t.type ≠ eoiTokenType → ∃ n', I r.1.src n' ∧ r.1.tokens.length + n' < b) ?_ ?_
    · cases ht : pc.tokens with
      | cons t ts =>
        refine .congr (g := fun _ _ => .done ({ pc with tokens := ts }, .ok t)) (fun k n => by rw [nextToken, ht]) (.done ?_)
        intro t' h1 h2
        refine ⟨n, hp, ?_⟩
        rw [ht] at hb
        simp only [List.length_cons] at hb
        dsimp only
        omega
      | nil =>
        refine .congr (g := fun k n => nextLoop { env with pull := pull k } allTokenTypes n pc) (fun k n => by rw [nextToken, ht]) ?_
        refine (nextLoop_rest hs allTokenTypes n pc hp).mono ?_
        rintro ⟨pc', r⟩ ⟨h1, h2⟩ t h3 h4
        obtain ⟨n', h5, h6⟩ := h2 t h3 h4
        dsimp only at h1 h6 ⊢
        refine ⟨n', h6, ?_⟩
        rw [h1]
        omega
    · rintro ⟨pc1, r⟩ hgot
      rcases r with e | (_ | t)
      · exact .done fun _ _ => trivial
      · exact .panic
      · dsimp only
        by_cases ht : t.type = eoiTokenType
        · refine .congr (fun k n => if_pos ht) ?_
          exact .done fun _ _ => trivial
        · refine .congr (fun k n => if_neg ht) ?_
          by_cases hc : env.g.isSideType t.type = true
          · refine .congr (fun k n => if_pos hc) ?_
            obtain ⟨n', h1, h2⟩ := hgot t rfl ht
            exact ih _ h2 pc1 n' h1 rfl
          · refine .congr (fun k n => if_neg hc) ?_
            exact .done fun _ _ => trivial

end

variable {η : Type} {env : TEnv η} {φ : Nat → η → Nat} {K B : Nat}

/-- At most `n` tokens are left before the first end of input. -/
def HooksAhead (φ : Nat → η → Nat) (K B : Nat) : List (TokenLayer η) → LState η → Nat → Prop
  | [], ls, n => SourcesLeft B ls n
  | _ :: rest, ls, n => ∃ q qs, ls.queues = q :: qs ∧
      ((∃ n0, HooksAhead φ K B rest { ls with queues := qs } n0 ∧ n = q.length + φ rest.length ls.ps.st + n0 * (K + 1)) ∨
        ∃ xs t es, q = xs ++ t :: es ∧ t.type = eoiTokenType ∧ n = xs.length)

theorem HooksAhead.less {layers : List (TokenLayer η)} {ls : LState η} {n : Nat} (h : HooksAhead φ K B layers ls n)
    {l : SrcList.State Src} (hl : Holds ls.ps.src l) {ps' : PState η} (hs : Shorter l ps'.src)
    (ho : ∀ j < layers.length, φ j ps'.st ≤ φ j ls.ps.st) : ∃ n' ≤ n, HooksAhead φ K B layers { ls with ps := ps' } n' := by
  induction layers generalizing ls n with
  | nil =>
    obtain ⟨l0, h1, h2, rfl⟩ := h
    obtain ⟨l', h3, h4, h5⟩ := hs
    have : l = l0 := rep_unique hl.rep h1.rep
    subst this
    exact ⟨unread l', h5, l', h3, by omega, rfl⟩
  | cons hooks rest ih =>
    obtain ⟨q, qs, h1, ⟨n0, h4, rfl⟩ | h4⟩ := h
    · obtain ⟨n0', h6, h7⟩ := ih (ls := { ls with queues := qs }) h4 hl (fun j hj => ho j (by simp; omega))
      have ho' := ho rest.length (by simp)
      refine ⟨_, ?_, q, qs, h1, .inl ⟨n0', h7, rfl⟩⟩
      have := Nat.mul_le_mul_right (K + 1) h6
      dsimp only
      omega
    · exact ⟨n, le_refl _, q, qs, h1, .inr h4⟩

/-- Sources of the state. -/
def AnySources (B : Nat) (ls : LState η) : Prop := ∃ l, Holds ls.ps.src l ∧ l.length ≤ B

theorem hookLoop_rest (hls : LexersOk env.lexers) {hooks : TokenLayer η} {rest : List (TokenLayer η)}
    (hb : ∀ (j : Nat) h, hooks[j]? = some (some h) → HookBound φ K rest.length (j = 0) h) (types : TokenTypeSet)
    (lower : ∀ ls n, AnySources B ls → HooksAhead φ K B rest ls n → Halts (fun k _ => pullToken env k types rest ls)
      (fun r => AnySources B r.1 ∧ FedRest (HooksAhead φ K B rest) n r.2 r.1 ∧ ∀ j, rest.length ≤ j → φ j r.1.ps.st ≤ φ j ls.ps.st)) (n0 : Nat) :
    ∀ ls : LState η, AnySources B ls → HooksAhead φ K B rest ls n0 → ∀ st0 : η, (∀ j, rest.length < j → φ j ls.ps.st ≤ φ j st0) →
    Halts (fun k n => hookLoop env k hooks (pullToken env k types rest) n [] ls)
      (fun r => AnySources B r.1 ∧ FedRest (HooksAhead φ K B (hooks :: rest)) (φ rest.length ls.ps.st + n0 * (K + 1)) r.2 r.1 ∧
        ∀ j, rest.length < j → φ j r.1.ps.st ≤ φ j st0) := by
  induction n0 using Nat.strong_induction_on with
  | _ n0 ih =>
    intro ls hsl hl st0 hst
    refine .step (fun k n => by rw [hookLoop]) ?_
    refine .bind (lower ls n0 hsl hl) ?_
    rintro ⟨ls1, res⟩ ⟨hsl1, hfed, hmono⟩
    dsimp only at hsl1 hfed hmono
    have hst1 : ∀ j, rest.length < j → φ j ls1.ps.st ≤ φ j st0 := fun j hj => le_trans (hmono j (by omega)) (hst j hj)
    cases res with
    | error e => exact .done ⟨hsl1, by simp [FedRest], hst1⟩
    | ok tok =>
      dsimp only
      obtain ⟨l, hsrc, hlen⟩ := hsl1
      refine .bind (handle_halts hls hb ls1.queues ls1.ps hsrc tok) ?_
      rintro ⟨ps, r⟩ ⟨hsh, hd, -⟩
      have hst2 : ∀ j, rest.length < j → φ j ps.st ≤ φ j st0 := fun j hj => le_trans (hd.1 j (by omega)) (hst1 j hj)
      have hany : ∀ q, AnySources B { queues := q, ps := ps } := by
        intro q
        obtain ⟨l', h1, h2, -⟩ := hsh
        exact ⟨l', h1, by omega⟩
      cases tok with
      | none =>
        obtain ⟨-, h1, rfl⟩ := hd
        exact .congr (g := fun _ _ => .done ({ queues := [] :: ls1.queues, ps := ps }, .ok none)) (fun _ _ => rfl)
          (.done ⟨hany _, by simp [FedRest], hst2⟩)
      | some t =>
        have hm := hmono rest.length (le_refl _)
        cases r with
        | error e => exact .done ⟨hany _, by simp [FedRest], hst2⟩
        | ok x =>
          obtain ⟨emit, extra⟩ := x
          dsimp only
          cases ha : appendExtra env.g [] extra with
          | error e => exact .done ⟨hany _, by simp [FedRest], hst2⟩
          | ok q =>
            have hq : q = extra := by simpa using (appendExtra_ok _ _ _ ha).1
            subst hq
            dsimp only
            by_cases ht : t.type = eoiTokenType
            · obtain ⟨-, hd⟩ := hd
              dsimp only at hd
              rw [if_pos ht] at hd
              obtain ⟨-, xs, es, h4, h5, h6, h7, h8, h9⟩ := hd
              subst h4
              cases emit with
              | true =>
                refine .congr (g := fun _ _ => .done ({ queues := (xs ++ es) :: ls1.queues, ps := ps }, .ok (some t))) (fun _ _ => rfl)
                  (.done ⟨hany _, ?_, hst2⟩)
                intro t' h1 h2
                cases h1
                exact absurd ht h2
              | false =>
                have hes := h9 rfl
                obtain ⟨e1, es, rfl⟩ := List.exists_cons_of_ne_nil hes
                cases xs with
                | nil =>
                  refine .congr (g := fun _ _ => .done ({ queues := es :: ls1.queues, ps := ps }, .ok (some e1))) (fun _ _ => rfl)
                    (.done ⟨hany _, ?_, hst2⟩)
                  intro t' h1 h2
                  cases h1
                  exact absurd (h6 e1 (by simp)) h2
                | cons t' xs =>
                  refine .congr (g := fun _ _ => .done ({ queues := (xs ++ e1 :: es) :: ls1.queues, ps := ps }, .ok (some t'))) (fun _ _ => rfl)
                    (.done ⟨hany _, ?_, hst2⟩)
                  intro t2 h1 h2
                  refine ⟨_, ?_, _, _, rfl, .inr ⟨xs, e1, es, rfl, h6 e1 (by simp), rfl⟩⟩
                  simp only [List.length_cons] at h7
                  omega
            · obtain ⟨n1, hn1, hl1⟩ := hfed t rfl ht
              obtain ⟨n2, hn2, hl2⟩ := hl1.less hsrc hsh (fun j hj => hd.1 j (by omega))
              obtain ⟨-, hd⟩ := hd
              dsimp only at hd
              rw [if_neg ht] at hd
              obtain ⟨h3, h4⟩ := hd
              have hmul := mul_lt (K := K) (show n2 < n0 by omega)
              cases emit with
              | true =>
                refine .congr (g := fun _ _ => .done ({ queues := q :: ls1.queues, ps := ps }, .ok (some t))) (fun _ _ => rfl)
                  (.done ⟨hany _, ?_, hst2⟩)
                intro t' h1 h2
                refine ⟨_, ?_, q, _, rfl, .inl ⟨n2, hl2, rfl⟩⟩
                simp at h3
                dsimp only
                omega
              | false =>
                cases q with
                | nil =>
                  refine (Halts.congr (g := fun k n => hookLoop env k hooks (pullToken env k types rest) n [] { ls1 with ps := ps }) (fun _ _ => rfl)
                    (ih n2 (by omega) { ls1 with ps := ps } (hany _) hl2 st0 hst2)).mono ?_
                  rintro ⟨ls', res⟩ ⟨h5, h6, h7⟩
                  refine ⟨h5, fun t' h8 h9 => ?_, h7⟩
                  obtain ⟨n', h10, h11⟩ := h6 t' h8 h9
                  refine ⟨n', ?_, h11⟩
                  simp at h3
                  dsimp only at h10
                  omega
                | cons t' q =>
                  refine .congr (g := fun _ _ => .done ({ queues := q :: ls1.queues, ps := ps }, .ok (some t'))) (fun _ _ => rfl)
                    (.done ⟨hany _, ?_, hst2⟩)
                  intro t2 h1 h2
                  refine ⟨_, ?_, q, _, rfl, .inl ⟨n2, hl2, rfl⟩⟩
                  simp at h3
                  dsimp only
                  omega

theorem layers_rest (hls : LexersOk env.lexers) (types : TokenTypeSet) {layers : List (TokenLayer η)} (hb : HooksBound φ K layers) :
    ∀ ls n, AnySources B ls → HooksAhead φ K B layers ls n → Halts (fun k _ => pullToken env k types layers ls)
      (fun r => AnySources B r.1 ∧ FedRest (HooksAhead φ K B layers) n r.2 r.1 ∧ ∀ j, layers.length ≤ j → φ j r.1.ps.st ≤ φ j ls.ps.st) := by
  induction layers with
  | nil =>
    intro ls n hsl h
    refine (layers_halt (φ := φ) (K := K) (layers := []) hls types trivial ls n h).mono ?_
    rintro ⟨ls', res⟩ ⟨h1, h2⟩
    refine ⟨?_, ?_, h2⟩
    · dsimp only at h1
      unfold FedAfter at h1
      have : ∃ n, SourcesLeft B ls' n := by
        split at h1
        · split at h1
          · exact ⟨0, h1⟩
          · obtain ⟨n', -, h1⟩ := h1; exact ⟨n', h1⟩
        · obtain ⟨n', -, h1⟩ := h1; exact ⟨n', h1⟩
      obtain ⟨n', l, h3, h4, -⟩ := this
      exact ⟨l, h3, h4⟩
    · intro t h3 h4
      dsimp only at h1 h3 ⊢
      subst h3
      unfold FedAfter at h1
      dsimp only at h1
      rw [if_neg (show ¬ t.type = -3 from h4)] at h1
      exact h1
  | cons hooks rest ih =>
    intro ls n hsl h
    obtain ⟨queues, ps⟩ := ls
    obtain ⟨q, qs, hq, h⟩ := h
    dsimp only at hq h
    subst hq
    have hany : ∀ q, AnySources B { queues := q, ps := ps } := fun _ => hsl
    cases q with
    | cons t q =>
      refine .congr (g := fun _ _ => .done ({ queues := q :: qs, ps := ps }, .ok (some t))) (fun _ _ => rfl) (.done ⟨hany _, ?_, fun _ _ => le_refl _⟩)
      intro t' h1 h2
      cases h1
      rcases h with ⟨n0, h3, rfl⟩ | ⟨xs, t', es, h3, h4, rfl⟩
      · refine ⟨_, ?_, q, qs, rfl, .inl ⟨n0, h3, rfl⟩⟩
        simp only [List.length_cons]
        omega
      · cases xs with
        | nil => cases h3; exact absurd h4 h2
        | cons x xs =>
          cases h3
          exact ⟨_, by simp, _, qs, rfl, .inr ⟨xs, t', es, rfl, h4, rfl⟩⟩
    | nil =>
      rcases h with ⟨n0, h3, rfl⟩ | ⟨xs, t', es, h3, -⟩
      · have := (hookLoop_rest hls hb.1 types (fun ls n h => ih hb.2 ls n h) n0 { queues := qs, ps := ps } (hany _) h3 ps.st (fun _ _ => le_refl _)).diag
        refine .congr (g := fun k _ => hookLoop env k hooks (pullToken env k types rest) k [] { queues := qs, ps := ps }) (fun _ _ => rfl) (this.mono ?_)
        rintro ⟨ls', res⟩ ⟨h0, h1, h2⟩
        refine ⟨h0, ?_, fun j hj => h2 j hj⟩
        simpa using h1
      · simp at h3

/-- A token is put back to sources. -/
theorem HooksLeft.unread {layers : List (TokenLayer η)} {ls : LState η} {n B' : Nat} (h : HooksLeft φ K B layers ls n) {q : SrcQueue}
    {l : SrcList.State Src} (hl : Holds q l) (hB : l.length ≤ B') :
    ∃ n', HooksAhead φ K B' layers { ls with ps := { ls.ps with src := q } } n' := by
  induction layers generalizing ls n with
  | nil => exact ⟨_, l, hl, hB, rfl⟩
  | cons hooks rest ih =>
    obtain ⟨xs, es, qs, n0, h1, h2, h3, h4, h5, rfl⟩ := h
    obtain ⟨n', h6⟩ := ih (ls := { ls with queues := qs }) h4
    exact ⟨_, _, qs, h1, .inl ⟨n', h6, rfl⟩⟩

end Verif.Proof
