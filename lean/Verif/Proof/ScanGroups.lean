/-
Lemmas about texts cut into tokens by several groups of types.
-/
import Verif.Proof.OneTokenTree
import Verif.Proof.Scan
import Verif.Spec.Requests

namespace Verif.Proof

open Verif.Model Verif.Spec Verif.Spec.Lex Verif.Model.Lexer Verif.Props
open Verif.Model.Tree (bindRun)

variable {σ η : Type} {re : List Nat → Option Matcher} {ts : List GToken}

theorem answers_unique {types : TokenTypeSet} {text : List Nat} {i n i' n' : Nat} (h : AnswersWith re ts types text i n) (h' : AnswersWith re ts types text i' n') :
    i' = i ∧ n' = n := by
  obtain ⟨k, h1, h2⟩ := h
  obtain ⟨k', h3, h4⟩ := h'
  have : k' = k := by
    rcases Nat.lt_trichotomy k' k with hlt | hlt | hlt
    · exact absurd h3 (h2 k' hlt i' n')
    · exact hlt
    · exact absurd h1 (h4 k hlt i n)
  subst this
  exact first_unique h1.1 h3.1

theorem answers_of {types : TokenTypeSet} {text : List Nat} {k i n : Nat} (h : Gives re ts types k text i n) : ∃ i' n', AnswersWith re ts types text i' n' := by
  induction k using Nat.strongRecOn generalizing i n with
  | _ k ih =>
    by_cases h1 : ∃ k' < k, ∃ i' n', Gives re ts types k' text i' n'
    · obtain ⟨k', hlt, i', n', h2⟩ := h1
      exact ih k' hlt h2
    · exact ⟨i, n, k, h, fun k' hlt i' n' h2 => h1 ⟨k', hlt, i', n', h2⟩⟩

/-- All outcomes of a request. -/
theorem pull_answers (env : PEnv σ) {tenv : TEnv η} (hl : LexersOf re ts tenv.lexers) {n : Nat} (types : TokenTypeSet)
    {ls : LState η} {l : SrcList.State Src} (h : At (n + 1) ls l) :
    ∃ ls' r, (pipelineEnv env tenv [] (n + 1)).pull ls types = .done (ls', r) ∧
      ((l = [] ∧ AsksText ts types ∧ r = .ok (some eoiToken) ∧ At (n + 1) ls' []) ∨
       (¬ AsksText ts types ∧ r = .ok none ∧ At (n + 1) ls' l) ∨
       (∃ src rest, l = (src, src.content.length) :: rest ∧ AsksText ts types ∧ r = .ok (some (endOf src)) ∧ At (n + 1) ls' rest) ∨
       (∃ src p rest, l = (src, p) :: rest ∧ p < src.content.length ∧
         ((∃ i n1 t, AnswersWith re ts types (src.content.drop p) i n1 ∧ ts[i]? = some t ∧
             r = .ok (some ⟨i, nameString t.name, (src.content.drop p).take n1, ⟨some src, (p : Nat)⟩⟩) ∧ At (n + 1) ls' ((src, p + n1) :: rest)) ∨
          ((∀ i n1, ¬ AnswersWith re ts types (src.content.drop p) i n1) ∧ At (n + 1) ls' l ∧
            (r = .ok none ∨ ∃ e, r = .error e ∧ types = allTokenTypes))))) := by
  obtain ⟨ls', r, h1, h2⟩ := pull_first env hl types h
  refine ⟨ls', r, h1, ?_⟩
  rcases h2 with h2 | h2 | h2 | ⟨src, p, rest, h2, h3, ⟨k, i, n1, t, h4, h5⟩ | ⟨h4, h5⟩⟩
  · exact .inl h2
  · exact .inr (.inl h2)
  · exact .inr (.inr (.inl h2))
  · exact .inr (.inr (.inr ⟨src, p, rest, h2, h3, .inl ⟨i, n1, t, ⟨k, h4⟩, h5⟩⟩))
  · refine .inr (.inr (.inr ⟨src, p, rest, h2, h3, .inr ⟨fun i n1 hf => ?_, h5⟩⟩))
    obtain ⟨k, hf, -⟩ := hf
    exact h4 k i n1 hf

/-- The stream of tokens of a text. -/
def TextFor (re : List Nat → Option Matcher) (ts : List GToken) (F : TokenTypeSet → List Token → Prop) (n : Nat) (ls : LState η)
    (toks : List Token) : Prop :=
  ∃ l, At n ls l ∧ CutsFor re ts F l toks []

theorem text_supplies_on (env : PEnv σ) {tenv : TEnv η} (hl : LexersOf re ts tenv.lexers) (hfit : TypesFit ts) (F : TokenTypeSet → List Token → Prop)
    (n : Nat) : SuppliesOn (pipelineEnv env tenv [] (n + 1)).pull (AsksText ts) F (TextFor re ts F (n + 1)) := by
  have hone : ∀ (i : Nat) (t : Token), t.type = (i : Int) → ∀ types, Wanted (AsksText ts) types t ↔ types.getLsbD i = true := by
    intro i t hi types
    rw [Wanted, if_neg (by omega), hi]
    simp
  have heof : ∀ src types, Wanted (AsksText ts) types (endOf src) ↔ AsksText ts types := by
    intro src types
    rw [Wanted, if_pos (by simp [endOf, eofTokenType])]
  have hasks : ∀ {types : TokenTypeSet} {k i : Nat}, InGroup ts k i → types.getLsbD i = true → AsksText ts types :=
    fun h1 h2 => asksText_iff.mpr ⟨_, _, h1, h2⟩
  have hall : ∀ {k i : Nat}, InGroup ts k i → allTokenTypes.getLsbD i = true := by
    rintro k i ⟨t, r, h1, h2, -⟩
    have := hfit i t h1 (by simp [h2])
    rw [allTokenTypes, BitVec.getLsbD_allOnes]
    simpa using this
  constructor
  · rintro ls t toks types ⟨l, hat, hr⟩ hF hw
    obtain ⟨ls', r, h1, h2⟩ := pull_answers env hl types hat
    cases hr with
    | @tok src p k i n1 gt rest _ _ hp hf hn ht hreq hr =>
      have hb := (hone i _ rfl types).1 hw
      have hans := hreq types hF
      rw [if_pos hb] at hans
      rcases h2 with ⟨h2, -⟩ | ⟨h2, -⟩ | ⟨src', rest', h2, -⟩ | ⟨src', p', rest', h2, -, ⟨i', n', t', h3, h5, h6, h7⟩ | ⟨h3, -⟩⟩
      · cases h2
      · exact absurd (hasks hf.1 hb) h2
      · cases h2; omega
      · cases h2
        obtain ⟨rfl, rfl⟩ := answers_unique hans h3
        rw [ht] at h5
        cases h5
        exact ⟨ls', by rw [h1, h6], _, h7, hr⟩
      · cases h2
        exact absurd hans (h3 i n1)
    | @eof src rest _ _ hr =>
      have hb := (heof src types).1 hw
      rcases h2 with ⟨h2, -⟩ | ⟨h2, -⟩ | ⟨src', rest', h2, -, h3, h4⟩ | ⟨src', p', rest', h2, hp, -⟩
      · cases h2
      · exact absurd hb h2
      · cases h2
        exact ⟨ls', by rw [h1, h3], _, h4, hr⟩
      · cases h2; omega
  · rintro ls t toks types ⟨l, hat, hr⟩ hF hw
    obtain ⟨ls', r, h1, h2⟩ := pull_answers env hl types hat
    have hr0 := hr
    cases hr with
    | @tok src p k i n1 gt rest _ _ hp hf hn ht hreq hr =>
      have hb := mt (hone i _ rfl types).2 hw
      have hans := hreq types hF
      rw [if_neg hb] at hans
      rcases h2 with ⟨h2, -⟩ | ⟨-, h2, h3⟩ | ⟨src', rest', h2, -⟩ | ⟨src', p', rest', h2, -, ⟨i', n', t', h3, -⟩ | ⟨h3, h4, h5⟩⟩
      · cases h2
      · exact ⟨ls', by rw [h1, h2], _, h3, hr0⟩
      · cases h2; omega
      · cases h2
        exact absurd h3 (hans i' n')
      · rcases h5 with h5 | ⟨e, -, h5⟩
        · exact ⟨ls', by rw [h1, h5], _, h4, hr0⟩
        · rw [h5] at hb
          exact absurd (hall hf.1) hb
    | @eof src rest _ _ hr =>
      have hb := mt (heof src types).2 hw
      rcases h2 with ⟨h2, -⟩ | ⟨-, h2, h3⟩ | ⟨src', rest', h2, h3, -⟩ | ⟨src', p', rest', h2, hp, -⟩
      · cases h2
      · exact ⟨ls', by rw [h1, h2], _, h3, hr0⟩
      · exact absurd h3 hb
      · cases h2; omega
  · rintro ls types ⟨l, hat, hr⟩ - ha
    cases hr
    obtain ⟨ls', r, h1, h2⟩ := pull_answers env hl types hat
    rcases h2 with ⟨-, -, h2, h3⟩ | ⟨h2, -⟩ | ⟨src', rest', h2, -⟩ | ⟨src', p', rest', h2, -⟩
    · exact ⟨ls', _, by rw [h1, h2], rfl, _, h3, .nil⟩
    · exact absurd ha h2
    · cases h2
    · cases h2
  · rintro ls types ⟨l, hat, hr⟩ - ha
    cases hr
    obtain ⟨ls', r, h1, h2⟩ := pull_answers env hl types hat
    rcases h2 with ⟨-, h2, -⟩ | ⟨-, h2, h3⟩ | ⟨src', rest', h2, -⟩ | ⟨src', p', rest', h2, -⟩
    · exact absurd h2 ha
    · exact ⟨ls', by rw [h1, h2], _, h3, .nil⟩
    · cases h2
    · cases h2
  · rintro ls toks types ⟨l, -, hr⟩ t ht h0 hb
    clear hone heof
    generalize hl0 : ([] : SrcList.State Src) = l0 at hr
    induction hr with
    | nil => simp at ht
    | @tok src p k i n1 gt rest _ _ hp hf hn hgt _ hr ih =>
      rcases List.mem_cons.1 ht with rfl | ht
      · exact hasks hf.1 (by simpa using hb)
      · exact ih ht hl0
    | eof _ ih =>
      rcases List.mem_cons.1 ht with rfl | ht
      · exact absurd h0 (by simp [endOf, eofTokenType])
      · exact ih ht hl0

/-- The first key of tokens. -/
theorem begins_of_keys {env : PEnv σ} {m : Table} {also : Int → Int → Prop} {toks : List Token} {ks : List (Token × Nat)} (h : Keys env m also toks ks) :
    Begins env.g env.upper toks (nextKey ks) := by
  induction h with
  | nil => exact .nil
  | side hp _ ih => exact .side (passed_kind hp) ih
  | tok hR _ _ => exact .tok hR.meant hR.ordinary

theorem onlySides_of_keys {env : PEnv σ} {m : Table} {also : Int → Int → Prop} {toks : List Token} (h : Keys env m also toks []) :
    NoOrdinary env.g toks := by
  generalize hks : ([] : List (Token × Nat)) = ks at h
  induction h with
  | nil => intro t ht; cases ht
  | side hp _ ih => exact List.forall_mem_cons.mpr ⟨passed_kind hp, ih hks⟩
  | tok => cases hks

/-- Tokens of a cut text as ones cut by some groups. -/
theorem cutsFor_cuts {F : TokenTypeSet → List Token → Prop} {l l' : SrcList.State Src} {toks : List Token} (h : CutsFor re ts F l toks l') :
    Cuts re ts l toks l' := by
  induction h with
  | nil => exact .nil
  | tok h1 h2 h3 h4 _ _ ih => exact .tok h1 h2 h3 h4 ih
  | eof _ ih => exact .eof ih

end Verif.Proof
