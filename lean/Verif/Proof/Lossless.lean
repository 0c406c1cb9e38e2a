/-
Lemmas about texts put together from delivered tokens.
-/
import Verif.Proof.Scan
import Verif.Proof.Ahead

namespace Verif.Proof

open Verif.Model Verif.Spec Verif.Spec.Lex Verif.Model.Lexer
open Verif.Model.Tree (bindRun)
open Verif.Props (LexersOf)

variable {σ η : Type} {re : List Nat → Option Matcher} {ts : List GToken}

theorem pieces_snoc {l l' l'' : SrcList.State Src} {toks : List Token} {t : Token} (h : Pieces l toks l') (h' : Pieces l' [t] l'') :
    Pieces l (toks ++ [t]) l'' := by
  induction h with
  | nil => exact h'
  | tok h1 h2 h3 h4 h5 _ ih => exact .tok h1 h2 h3 h4 h5 (ih h')
  | eof _ ih => exact .eof (ih h')

theorem pieces_types {l l' : SrcList.State Src} {toks : List Token} (h : Pieces l toks l') : ∀ t ∈ toks, t.type ≠ eoiTokenType := by
  induction h with
  | nil => simp
  | tok _ _ h3 _ _ _ ih =>
    refine List.forall_mem_cons.mpr ⟨?_, ih⟩
    simp only [eoiTokenType]
    omega
  | eof _ ih => exact List.forall_mem_cons.mpr ⟨by simp [endOf, eofTokenType, eoiTokenType], ih⟩

/-- Delivered tokens are pieces of the text before the current place, then there may be ends of input. -/
def Took (n : Nat) (l0 : SrcList.State Src) (ls : LState η) (delivered : List (Option Token)) : Prop :=
  ∃ toks l eois, At n ls l ∧ Pieces l0 toks l ∧ delivered.reduceOption = toks.filter (fun t => t.type ≠ eofTokenType) ++ eois ∧
    (∀ e ∈ eois, e = eoiToken) ∧ (eois ≠ [] → l = [])

theorem nextLoop_took (env : PEnv σ) {tenv : TEnv η} (hl : LexersOf re ts tenv.lexers) (hpass : env.passSides = true) {n : Nat}
    {l0 : SrcList.State Src} {types : TokenTypeSet} (fuel : Nat) {pc pc' : PC (LState η)} {r : Except PErr (Option Token)}
    (ht : Took (n + 1) l0 pc.src pc.delivered)
    (h : nextLoop (pipelineEnv env tenv [] (n + 1)) types fuel pc = .done (pc', r)) :
    Took (n + 1) l0 pc'.src pc'.delivered := by
  induction fuel generalizing pc with
  | zero => simp [nextLoop] at h
  | succ fuel ih =>
    rw [nextLoop, bindRun_done] at h
    obtain ⟨⟨src, res⟩, h1, h⟩ := h
    obtain ⟨toks, l, eois, hat, hp, hd, he, hend⟩ := ht
    obtain ⟨ls', r', h2, h3⟩ := pull_groups env hl types hat
    rw [h1] at h2
    cases h2
    have hps : (pipelineEnv env tenv [] (n + 1)).passSides = true := hpass
    rcases h3 with ⟨rfl, -, rfl, h3⟩ | ⟨-, rfl, h3⟩ | ⟨s, rest, rfl, -, rfl, h3⟩ | ⟨s, p, rest, rfl, hlt, ⟨k, i, n1, t', h4, h5, rfl, h3⟩ | ⟨-, h3, rfl | ⟨e, rfl, -⟩⟩⟩
    · simp only at h
      rw [if_neg (by simp [eoiToken, eoiTokenType, eofTokenType, hps])] at h
      cases h
      refine ⟨toks, [], eois ++ [eoiToken], h3, hp, by simp [List.reduceOption_append, hd], ?_, fun _ => rfl⟩
      intro x hx
      rcases List.mem_append.1 hx with hx | hx
      · exact he x hx
      · exact List.mem_singleton.1 hx
    · simp only at h
      rw [if_neg (by simp [hps])] at h
      cases h
      exact ⟨toks, l, eois, h3, hp, by simp [List.reduceOption_append, hd], he, hend⟩
    · simp only at h
      rw [if_pos (by left; rfl)] at h
      refine ih (pc := { pc with src := src }) ⟨toks ++ [endOf s], rest, eois, h3, pieces_snoc hp (.eof .nil), ?_, he, ?_⟩ h
      · rw [List.filter_append]
        simp only [hd]
        simp [endOf]
      · intro hne
        cases hend hne
    · simp only at h
      rw [if_neg (by
        rintro (h6 | h6)
        · rw [Option.any_some, decide_eq_true_eq, eofTokenType] at h6
          have h7 : (i : Int) = -2 := h6
          omega
        · exact h6.2 hps)] at h
      cases h
      have hee : eois = [] := by
        by_contra hne
        cases hend hne
      subst hee
      obtain ⟨⟨-, ⟨t2, r2, m, -, -, h7, h8⟩, -⟩, hn, -⟩ := h4
      have hle : n1 ≤ (s.content.drop p).length := hl.matchers _ _ h7 _ _ h8
      rw [List.length_drop] at hle
      refine ⟨toks ++ [⟨i, nameString t'.name, (s.content.drop p).take n1, ⟨some s, (p : Nat)⟩⟩], _, [], h3, pieces_snoc hp (.tok (by omega) hn (Int.natCast_nonneg i) rfl rfl .nil), ?_, by simp, by simp⟩
      rw [List.filter_append]
      have : ((i : Nat) : Int) ≠ eofTokenType := by simp only [eofTokenType]; omega
      simp [List.reduceOption_append, hd, this]
    · simp only at h
      rw [if_neg (by simp [hps])] at h
      cases h
      exact ⟨toks, _, eois, h3, hp, by simp [List.reduceOption_append, hd], he, hend⟩
    · cases h
      exact ⟨toks, _, eois, h3, hp, hd, he, hend⟩

/-- All delivered tokens are pieces of the text when a parse succeeds. -/
theorem parse_took (env : PEnv σ) {tenv : TEnv η} (hl : LexersOf re ts tenv.lexers) (hpass : env.passSides = true)
    (hsafe : SafeLookahead env.g env.upper) (hf : env.fullSource = true)
    (hs : ∀ st ∈ env.g.tables.states, ∀ n : Nat, n < 64 → env.g.isSideType n = true → st.types.getLsbD n = true) {n : Nat}
    {ls : LState η} {l0 : SrcList.State Src} (hat : At (n + 1) ls l0) {fuel : Nat} {pos : SrcPos} {pc : PC (LState η)}
    (h : parse (pipelineEnv env tenv [] (n + 1)) fuel ls pos = .done (.ok pc)) :
    Took (n + 1) l0 pc.src pc.delivered ∧ NothingLeft env.g pc.steps pc.delivered := by
  obtain ⟨-, defs, hd1, hd2⟩ := Verif.Props.C59_lexers_ok hl
  have hr := lexers_reread env tenv (n + 1) defs hd1 hd2 hs
  have hfeed : Feed (pipelineEnv env tenv [] (n + 1)) (Took (n + 1) l0) (fun _ _ => True) :=
    ⟨fun hk h => nextLoop_took env hl hpass _ hk h, fun _ _ _ => trivial⟩
  exact (parse_kept hr hsafe hf hfeed ⟨l0, hat.1⟩ ⟨[], l0, [], hat, .nil, by simp, by simp, by simp⟩ h).symm

theorem after_end {P : Token → Prop} {A E x y : List Token} {e : Token} (hA : ∀ t ∈ A, ¬ P t) (hE : ∀ t ∈ E, P t) (he : P e)
    (h : A ++ E = x ++ e :: y) : ∀ t ∈ y, P t := by
  rcases List.append_eq_append_iff.1 h with ⟨a, -, h2⟩ | ⟨c, h1, h2⟩
  · intro t ht
    exact hE t (by rw [h2]; simp [ht])
  · cases c with
    | nil =>
      intro t ht
      refine hE t ?_
      simp only [List.nil_append] at h2
      rw [← h2]; simp [ht]
    | cons z c =>
      simp only [List.cons_append, List.cons.injEq] at h2
      exact absurd he (hA e (by rw [h1, h2.1]; simp))

/-- Consumed tokens and trailing side tokens are all pieces of the text. -/
theorem took_all {g : Grammar} {n : Nat} {l0 : SrcList.State Src} {pc : PC (LState η)} (h : Took n l0 pc.src pc.delivered) (hn : NothingLeft g pc.steps pc.delivered) :
    ∃ toks sides, Pieces l0 toks [] ∧ (∀ t ∈ sides, g.isSideType t.type = true) ∧
      (∀ t ∈ (consumedBy pc.steps).reduceOption, t.type = eoiTokenType → t = eoiToken) ∧
      (consumedBy pc.steps).reduceOption.filter (fun t => t.type ≠ eoiTokenType) ++ sides = toks.filter fun t => t.type ≠ eofTokenType := by
  obtain ⟨toks, l, eois, -, hp, hd, he', hend⟩ := h
  have he : ∀ e ∈ eois, e.type = eoiTokenType := fun e h => by rw [he' e h]; rfl
  obtain ⟨rest, hr, hleft⟩ := hn
  have hdel := replay_consumed _ _ _ hr
  rw [hdel, List.reduceOption_append] at hd
  have hA : ∀ t ∈ toks.filter (fun t => t.type ≠ eofTokenType), ¬ t.type = eoiTokenType :=
    fun t ht => pieces_types hp t (List.mem_filter.1 ht).1
  have hfil : ∀ E : List Token, (∀ e ∈ E, e.type = eoiTokenType) → E.filter (fun t => t.type ≠ eoiTokenType) = [] := by
    intro E hE
    rw [List.filter_eq_nil_iff]
    intro e h1
    simp [hE e h1]
  have hall : (toks.filter (fun t => t.type ≠ eofTokenType)).filter (fun t => t.type ≠ eoiTokenType) =
      toks.filter fun t => t.type ≠ eofTokenType := by
    rw [List.filter_eq_self]
    intro t ht
    simp [hA t ht]
  have key : (consumedBy pc.steps).reduceOption.filter (fun t => t.type ≠ eoiTokenType) ++
      rest.reduceOption.filter (fun t => t.type ≠ eoiTokenType) = toks.filter fun t => t.type ≠ eofTokenType := by
    rw [← List.filter_append, hd, List.filter_append, hall, hfil _ he, List.append_nil]
  have hex : ∃ e ∈ (consumedBy pc.steps).reduceOption ++ rest.reduceOption, e.type = eoiTokenType := by
    rcases hleft with ⟨sides, e, rest', h1, h2, h3⟩ | ⟨t, h1, h2⟩
    · exact ⟨e, by simp [h1, List.reduceOption_append], h2⟩
    · exact ⟨t, List.mem_append_left _ (List.reduceOption_mem_iff.2 h1), h2⟩
  have hnil : l = [] := by
    obtain ⟨e, h1, h2⟩ := hex
    rw [hd] at h1
    rcases List.mem_append.1 h1 with h1 | h1
    · exact absurd h2 (hA e h1)
    · exact hend (List.ne_nil_of_mem h1)
  subst hnil
  refine ⟨toks, _, hp, ?_, ?_, key⟩
  rotate_left
  · intro t h1 h2
    have h3 := List.mem_append_left rest.reduceOption h1
    rw [hd] at h3
    rcases List.mem_append.1 h3 with h3 | h3
    · exact absurd h2 (hA t h3)
    · exact he' t h3
  intro t ht
  obtain ⟨h4, h5⟩ := List.mem_filter.1 ht
  simp only [ne_eq, decide_not, Bool.not_eq_true', decide_eq_false_iff_not] at h5
  rcases hleft with ⟨sides, e, rest', h1, h2, h3⟩ | ⟨e, h1, h2⟩
  · rw [h1, List.reduceOption_append, List.reduceOption_cons_of_some] at h4
    rcases List.mem_append.1 h4 with h4 | h4
    · obtain ⟨u, h6, h7⟩ := h3 _ (List.reduceOption_mem_iff.1 h4)
      cases h6
      exact h7
    · rcases List.mem_cons.1 h4 with rfl | h4
      · exact absurd h2 h5
      · refine absurd (after_end hA he h2 (x := (consumedBy pc.steps).reduceOption ++ sides.reduceOption) (y := rest'.reduceOption) ?_ t h4) h5
        rw [← hd, h1, List.reduceOption_append, List.reduceOption_cons_of_some]
        simp
  · obtain ⟨x, y, h6⟩ := List.append_of_mem (List.reduceOption_mem_iff.2 h1)
    refine absurd (after_end hA he h2 (x := x) (y := y ++ rest.reduceOption) ?_ t (List.mem_append_right _ h4)) h5
    rw [← hd, h6]
    simp

end Verif.Proof
