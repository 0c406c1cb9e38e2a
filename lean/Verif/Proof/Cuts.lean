/-
Lemmas about tokens that texts are cut into.
-/
import Verif.Proof.Lossless
import Verif.Proof.TreeFollow
import Verif.Spec.Cuts
import Verif.Spec.Spells

namespace Verif.Proof

open Verif.Model Verif.Spec Verif.Spec.Lex Verif.Model.Lexer
open Verif.Model.Tree (bindRun)
open Verif.Props (LexersOf)

variable {σ η : Type} {re : List Nat → Option Matcher} {ts : List GToken}

theorem cuts_snoc {l l' l'' : SrcList.State Src} {toks : List Token} {t : Token} (h : Cuts re ts l toks l') (h' : Cuts re ts l' [t] l'') :
    Cuts re ts l (toks ++ [t]) l'' := by
  induction h with
  | nil => exact h'
  | tok h1 h2 h3 h4 _ ih => exact .tok h1 h2 h3 h4 (ih h')
  | eof _ ih => exact .eof (ih h')

theorem cuts_types {l l' : SrcList.State Src} {toks : List Token} (h : Cuts re ts l toks l') : ∀ t ∈ toks, t.type ≠ eoiTokenType := by
  induction h with
  | nil => simp
  | tok _ _ _ _ _ ih =>
    refine List.forall_mem_cons.mpr ⟨?_, ih⟩
    simp only [eoiTokenType]
    omega
  | eof _ ih => exact List.forall_mem_cons.mpr ⟨by simp [endOf, eofTokenType, eoiTokenType], ih⟩

theorem cuts_reads (hg : OneGroup ts) {l l' : SrcList.State Src} {toks : List Token} (h : Cuts re ts l toks l') : Reads re ts l toks l' := by
  induction h with
  | nil => exact .nil
  | tok h1 h2 h3 h4 _ ih =>
    have hk := InGroup.zero hg h2.1
    rw [hk] at h2
    exact .tok h1 h2 h3 h4 ih
  | eof _ ih => exact .eof ih

/-- Tokens which are delivered. -/
def keeps (g : Grammar) (pass : Bool) (t : Token) : Bool := decide (t.type ≠ eofTokenType) && (pass || !g.isSideType t.type)

/-- Delivered tokens are cut from the text before the current place, then there may be ends of input. -/
def Cut (re : List Nat → Option Matcher) (ts : List GToken) (env : PEnv σ) (n : Nat) (l0 : SrcList.State Src) (ls : LState η)
    (delivered : List (Option Token)) : Prop :=
  ∃ toks l eois, At n ls l ∧ Cuts re ts l0 toks l ∧ delivered.reduceOption = toks.filter (keeps env.g env.passSides) ++ eois ∧
    (∀ e ∈ eois, e = eoiToken) ∧ (eois ≠ [] → l = [])

theorem nextLoop_cut (env : PEnv σ) {tenv : TEnv η} (hl : LexersOf re ts tenv.lexers) {n : Nat}
    {l0 : SrcList.State Src} {types : TokenTypeSet} (fuel : Nat) {pc pc' : PC (LState η)} {r : Except PErr (Option Token)}
    (ht : Cut re ts env (n + 1) l0 pc.src pc.delivered)
    (h : nextLoop (pipelineEnv env tenv [] (n + 1)) types fuel pc = .done (pc', r)) :
    Cut re ts env (n + 1) l0 pc'.src pc'.delivered := by
  induction fuel generalizing pc with
  | zero => simp [nextLoop] at h
  | succ fuel ih =>
    rw [nextLoop, bindRun_done] at h
    obtain ⟨⟨src, res⟩, h1, h⟩ := h
    obtain ⟨toks, l, eois, hat, hp, hd, he, hend⟩ := ht
    obtain ⟨ls', r', h2, h3⟩ := pull_groups env hl types hat
    rw [h1] at h2
    cases h2
    rcases h3 with ⟨rfl, -, rfl, h3⟩ | ⟨-, rfl, h3⟩ | ⟨s, rest, rfl, -, rfl, h3⟩ | ⟨s, p, rest, rfl, hlt, ⟨k, i, n1, t', h4, h5, rfl, h3⟩ | ⟨-, h3, rfl | ⟨e, rfl, -⟩⟩⟩
    · simp only at h
      rw [if_neg (by simp [eoiToken, eoiTokenType, eofTokenType, Grammar.isSideToken, Grammar.isSideType])] at h
      cases h
      refine ⟨toks, [], eois ++ [eoiToken], h3, hp, by simp [List.reduceOption_append, hd], ?_, fun _ => rfl⟩
      intro x hx
      rcases List.mem_append.1 hx with hx | hx
      · exact he x hx
      · exact List.mem_singleton.1 hx
    · simp only at h
      rw [if_neg (by simp [Grammar.isSideToken])] at h
      cases h
      exact ⟨toks, l, eois, h3, hp, by simp [List.reduceOption_append, hd], he, hend⟩
    · simp only at h
      rw [if_pos (by left; rfl)] at h
      refine ih (pc := { pc with src := src }) ⟨toks ++ [endOf s], rest, eois, h3, cuts_snoc hp (.eof .nil), ?_, he, ?_⟩ h
      · rw [List.filter_append]
        simp only [hd]
        simp [endOf, keeps]
      · intro hne
        cases hend hne
    · have hee : eois = [] := by
        by_contra hne
        cases hend hne
      subst hee
      have hty : ((i : Nat) : Int) ≠ eofTokenType := by simp only [eofTokenType]; omega
      have hcut := cuts_snoc hp (.tok (rest := rest) hlt h4.1 h4.2.1 h5 .nil)
      simp only at h
      split at h
      · rename_i hc
        refine ih (pc := { pc with src := src }) ⟨_, _, [], h3, hcut, ?_, by simp, by simp⟩ h
        rw [List.filter_append]
        rcases hc with hc | ⟨hc, hps⟩
        · rw [Option.any_some, decide_eq_true_eq] at hc
          exact absurd hc hty
        · have hps' : env.passSides = false := by
            have : ¬ env.passSides = true := hps
            simpa using this
          have hc' : env.g.isSideType ((i : Nat) : Int) = true := hc
          simp [hd, keeps, hps', hc']
      · rename_i hc
        cases h
        refine ⟨_, _, [], h3, hcut, ?_, by simp, by simp⟩
        rw [List.filter_append]
        have hk : (env.passSides || !env.g.isSideType ((i : Nat) : Int)) = true := by
          rw [not_or] at hc
          by_contra hb
          simp only [Bool.or_eq_true, not_or, Bool.not_eq_true', Bool.not_eq_false] at hb
          exact hc.2 ⟨hb.2, hb.1⟩
        simp [List.reduceOption_append, hd, keeps, hty, hk]
    · simp only at h
      rw [if_neg (by simp [Grammar.isSideToken])] at h
      cases h
      exact ⟨toks, _, eois, h3, hp, by simp [List.reduceOption_append, hd], he, hend⟩
    · cases h
      exact ⟨toks, _, eois, h3, hp, hd, he, hend⟩

/-- All delivered tokens are cut from the text when a parse succeeds. -/
theorem parse_cut (env : PEnv σ) {tenv : TEnv η} (hl : LexersOf re ts tenv.lexers)
    (hsafe : SafeLookahead env.g env.upper) (hf : env.fullSource = true)
    (hs : ∀ st ∈ env.g.tables.states, ∀ n : Nat, n < 64 → env.g.isSideType n = true → st.types.getLsbD n = true) {n : Nat}
    {ls : LState η} {l0 : SrcList.State Src} (hat : At (n + 1) ls l0) {fuel : Nat} {pos : SrcPos} {pc : PC (LState η)}
    (h : parse (pipelineEnv env tenv [] (n + 1)) fuel ls pos = .done (.ok pc)) :
    Cut re ts env (n + 1) l0 pc.src pc.delivered ∧ NothingLeft env.g pc.steps pc.delivered := by
  obtain ⟨-, defs, hd1, hd2⟩ := Verif.Props.C59_lexers_ok hl
  have hr := lexers_reread env tenv (n + 1) defs hd1 hd2 hs
  have hfeed : Feed (pipelineEnv env tenv [] (n + 1)) (Cut re ts env (n + 1) l0) (fun _ _ => True) :=
    ⟨fun hk h => nextLoop_cut env hl _ hk h, fun _ _ _ => trivial⟩
  exact (parse_kept hr hsafe hf hfeed ⟨l0, hat.1⟩ ⟨[], l0, [], hat, .nil, by simp, by simp, by simp⟩ h).symm

/-- Consumed tokens and trailing side tokens are all tokens of the text. -/
theorem cut_all {env : PEnv σ} {n : Nat} {l0 : SrcList.State Src} {pc : PC (LState η)} (h : Cut re ts env n l0 pc.src pc.delivered)
    (hn : NothingLeft env.g pc.steps pc.delivered) :
    ∃ toks sides, Cuts re ts l0 toks [] ∧ (∀ t ∈ sides, env.g.isSideType t.type = true) ∧
      (consumedBy pc.steps).reduceOption.filter (fun t => t.type ≠ eoiTokenType) ++ sides = toks.filter (keeps env.g env.passSides) := by
  obtain ⟨toks, l, eois, -, hp, hd, he', hend⟩ := h
  have he : ∀ e ∈ eois, e.type = eoiTokenType := fun e h => by rw [he' e h]; rfl
  obtain ⟨rest, hr, hleft⟩ := hn
  have hdel := replay_consumed _ _ _ hr
  rw [hdel, List.reduceOption_append] at hd
  have hA : ∀ t ∈ toks.filter (keeps env.g env.passSides), ¬ t.type = eoiTokenType :=
    fun t ht => cuts_types hp t (List.mem_filter.1 ht).1
  have hfil : ∀ E : List Token, (∀ e ∈ E, e.type = eoiTokenType) → E.filter (fun t => t.type ≠ eoiTokenType) = [] := by
    intro E hE
    rw [List.filter_eq_nil_iff]
    intro e h1
    simp [hE e h1]
  have hall : (toks.filter (keeps env.g env.passSides)).filter (fun t => t.type ≠ eoiTokenType) = toks.filter (keeps env.g env.passSides) := by
    rw [List.filter_eq_self]
    intro t ht
    simp [hA t ht]
  have key : (consumedBy pc.steps).reduceOption.filter (fun t => t.type ≠ eoiTokenType) ++
      rest.reduceOption.filter (fun t => t.type ≠ eoiTokenType) = toks.filter (keeps env.g env.passSides) := by
    rw [← List.filter_append, hd, List.filter_append, hall, hfil _ he, List.append_nil]
  have hex : ∃ e ∈ (consumedBy pc.steps).reduceOption ++ rest.reduceOption, e.type = eoiTokenType := by
    rcases hleft with ⟨sides, e, rest', h1, h2, h3⟩ | ⟨t, h1, h2⟩
    · exact ⟨e, by simp [h1, List.reduceOption_append], h2⟩
    · exact ⟨t, List.mem_append_left _ (List.reduceOption_mem_iff.2 h1), h2⟩
  have hnil : l = [] := by
    obtain ⟨e, h1, h2⟩ := hex
    rw [hd] at h1
    rcases List.mem_append.1 h1 with h1 | h1
    · exact absurd h2 (hA e h1)
    · exact hend (List.ne_nil_of_mem h1)
  subst hnil
  refine ⟨toks, _, hp, ?_, key⟩
  intro t ht
  obtain ⟨h4, h5⟩ := List.mem_filter.1 ht
  simp only [ne_eq, decide_not, Bool.not_eq_true', decide_eq_false_iff_not] at h5
  rcases hleft with ⟨sides, e, rest', h1, h2, h3⟩ | ⟨e, h1, h2⟩
  · rw [h1, List.reduceOption_append, List.reduceOption_cons_of_some] at h4
    rcases List.mem_append.1 h4 with h4 | h4
    · obtain ⟨u, h6, h7⟩ := h3 _ (List.reduceOption_mem_iff.1 h4)
      cases h6
      exact h7
    · rcases List.mem_cons.1 h4 with rfl | h4
      · exact absurd h2 h5
      · refine absurd (after_end hA he h2 (x := (consumedBy pc.steps).reduceOption ++ sides.reduceOption) (y := rest'.reduceOption) ?_ t h4) h5
        rw [← hd, h1, List.reduceOption_append, List.reduceOption_cons_of_some]
        simp
  · obtain ⟨x, y, h6⟩ := List.append_of_mem (List.reduceOption_mem_iff.2 h1)
    refine absurd (after_end hA he h2 (x := x) (y := y ++ rest.reduceOption) ?_ t (List.mem_append_right _ h4)) h5
    rw [← hd, h6]
    simp

/-- Leaves of a tree without side tokens. -/
theorem leaves_dropSides (g : Grammar) : ∀ items : List Item, leavesOf (dropSides g items) = (leavesOf items).filter fun t => !g.isSideType t.type
  | [] => by rw [dropSides]; rfl
  | .tok t :: items => by
    rw [dropSides]
    have ih := leaves_dropSides g items
    split
    · rename_i h
      rw [ih]
      simp [leavesOf, Item.leaves, h]
    · rename_i h
      simp [leavesOf, Item.leaves, h, ih]
  | .node i st its :: items => by
    rw [dropSides]
    simp [leavesOf, Item.leaves, leaves_dropSides g its, leaves_dropSides g items]

/-- A tree without side tokens is described by the same words; nested words have the given property. -/
theorem spells_dropSides {g : Grammar} {rel : Sym → Token → Prop} {L L' : Nat → List Sym → Prop} {C : List Sym → Prop}
    (hL : ∀ i u w, C w → Sym.node i ∈ w → L i u → L' i u ∧ C u)
    (hrel : ∀ x t, rel x t → g.isSideType t.type = false) {w : List Sym} {items : List Item}
    (h : Spells rel (fun t => g.isSideType t.type = true) L w items) (w0 : List Sym) (hw0 : C w0) (hsub : ∀ x ∈ w, x ∈ w0) :
    Spells rel (fun _ => False) L' w (dropSides g items) := by
  induction h generalizing w0 with
  | nil => rw [dropSides]; exact .nil
  | side h1 _ ih => rw [dropSides, if_pos h1]; exact ih w0 hw0 hsub
  | tok h1 _ ih =>
    rw [dropSides, if_neg (by simp [hrel _ _ h1])]
    exact .tok h1 (ih w0 hw0 fun x hx => hsub x (by simp [hx]))
  | node h1 _ _ ih1 ih2 =>
    rw [dropSides]
    obtain ⟨h2, h3⟩ := hL _ _ w0 hw0 (hsub _ (by simp)) h1
    exact .node h2 (ih1 _ h3 fun _ h => h) (ih2 w0 hw0 fun x hx => hsub x (by simp [hx]))

end Verif.Proof
