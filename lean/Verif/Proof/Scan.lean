/-
Lemmas about texts cut into tokens.
-/
import Verif.Proof.Expected
import Verif.Proof.OneTokenBack
import Verif.Props.NewParser
import Verif.Spec.Scan

namespace Verif.Proof

open Verif.Model Verif.Spec Verif.Spec.Lex Verif.Model.Lexer
open Verif.Model.Tree (bindRun)
open Verif.Props (LexersOf)

variable {σ η : Type} {re : List Nat → Option Matcher} {ts : List GToken}

/-! ### Tokens of a text -/

theorem first_unique {k i i' n n' : Nat} {text : List Nat} (h : FirstOf re ts k text i n) (h' : FirstOf re ts k text i' n') : i' = i ∧ n' = n := by
  obtain ⟨hin, hm, ho⟩ := h
  obtain ⟨hin1, hm1, ho1⟩ := h'
  have hii : i' = i := by
    rcases Nat.lt_trichotomy i' i with h8 | h8 | h8
    · exact absurd hm1 (ho i' h8 hin1 n')
    · exact h8
    · exact absurd hm (ho1 i h8 hin n)
  subst hii
  refine ⟨rfl, ?_⟩
  obtain ⟨t1, r1, m1, a1, a2, a3, a4⟩ := hm
  obtain ⟨t2, r2, m2, b1, b2, b3, b4⟩ := hm1
  rw [a1] at b1; cases b1
  rw [a2] at b2; cases b2
  rw [a3] at b3; cases b3
  rw [a4] at b4; cases b4
  rfl

theorem reads_snoc {l l' l'' : SrcList.State Src} {toks : List Token} {t : Token} (h : Reads re ts l toks l') (h' : Reads re ts l' [t] l'') :
    Reads re ts l (toks ++ [t]) l'' := by
  induction h with
  | nil => exact h'
  | tok h1 h2 h3 h4 _ ih => exact .tok h1 h2 h3 h4 (ih h')
  | eof _ ih => exact .eof (ih h')

theorem InGroup.zero (hg : OneGroup ts) {k i : Nat} (h : InGroup ts k i) : k = 0 := by
  obtain ⟨t, r, h1, h2, h3⟩ := h
  rw [← h3]
  exact hg t (List.mem_of_getElem? h1) (by simp [h2])

theorem asksText_iff {types : TokenTypeSet} : AsksText ts types ↔ ∃ k i, InGroup ts k i ∧ types.getLsbD i = true := by
  constructor
  · rintro ⟨i, t, h1, h2, h3⟩
    obtain ⟨r, hr⟩ := Option.ne_none_iff_exists'.mp h2
    exact ⟨t.group, i, ⟨t, r, h1, hr, rfl⟩, h3⟩
  · rintro ⟨k, i, ⟨t, r, h1, h2, -⟩, h3⟩
    exact ⟨i, t, h1, by simp [h2], h3⟩

/-- Matchers and types of lexers. -/
theorem lexers_defs {ls : List Lexer} (h : LexersOf re ts ls) :
    ∃ defs, ls = lexersOf defs ∧ (∀ x ∈ defs, ReOk x.1 ∧ CapturesAll x.1) ∧ ∀ types, AnyRequested defs types ↔ AsksText ts types := by
  obtain ⟨hlen, hls⟩ := h.groups
  have key : ∀ (ls : List Lexer) (k0 : Nat), (∀ (k : Nat) (l : Lexer), ls[k]? = some l →
      ∃ ms, GroupLexer re ts (k0 + k) ms ∧ l = new (joinedRegexp ms) (groupTypes ts (k0 + k))) →
      ∃ defs : List LexDef, ls = lexersOf defs ∧ (∀ x ∈ defs, ReOk x.1 ∧ CapturesAll x.1) ∧ ∀ k < ls.length, ∃ x, defs[k]? = some x ∧ x.2 = groupTypes ts (k0 + k) := by
    intro ls
    induction ls with
    | nil => intro k0 _; exact ⟨[], rfl, by simp, by simp⟩
    | cons l ls ih =>
      intro k0 h1
      obtain ⟨ms, h2, h3⟩ := h1 0 l rfl
      obtain ⟨defs, h4, h5, h6⟩ := ih (k0 + 1) (fun k l' hk => by
        have := h1 (k + 1) l' (by simpa using hk)
        rwa [show k0 + (k + 1) = k0 + 1 + k by omega] at this)
      refine ⟨(joinedRegexp ms, groupTypes ts k0) :: defs, by rw [h3, h4]; rfl, ?_, ?_⟩
      · intro x hx
        rcases List.mem_cons.1 hx with rfl | hx
        · exact ⟨joined_reOk (h2.bounded h.matchers), joined_captures ms⟩
        · exact h5 x hx
      · rintro (_ | k) hk
        · exact ⟨_, rfl, rfl⟩
        · obtain ⟨x, h7, h8⟩ := h6 k (by simpa using hk)
          exact ⟨x, by simpa using h7, by rw [h8, show k0 + (k + 1) = k0 + 1 + k by omega]⟩
  obtain ⟨defs, h1, h2, h3⟩ := key ls 0 hls
  refine ⟨defs, h1, h2, fun types => ?_⟩
  have hdl : defs.length = ls.length := by rw [h1, lexersOf, List.length_map]
  rw [asksText_iff]
  constructor
  · rintro ⟨x, hx, j, t, h4, h5⟩
    obtain ⟨k, hk⟩ := List.mem_iff_getElem?.1 hx
    obtain ⟨x', h6, h7⟩ := h3 k (by rw [← hdl]; exact (List.getElem?_eq_some_iff.1 hk).1)
    rw [hk] at h6
    cases h6
    rw [h7] at h4
    have hj : j < (members (0 + k) ts 0).length := by
      by_contra hge
      unfold groupType groupTypes at h4
      rw [List.getElem?_eq_none (by rw [List.length_map]; omega)] at h4
      simp at h4
    have hm := List.getElem?_eq_getElem hj
    rw [groupTypes_at hm] at h4
    split at h4
    · cases h4
      obtain ⟨t', h8, -, h9, h10⟩ := members_at hm
      exact ⟨0 + k, _, ⟨t', _, h8, h9, h10⟩, h5⟩
    · cases h4
  · rintro ⟨k, i, hi, h4⟩
    obtain ⟨x, h5, h6⟩ := h3 k (h.covers hi)
    obtain ⟨t, r, h7, h8, h9⟩ := hi
    have hmem : (i, t.name, r) ∈ members (0 + k) ts 0 := mem_members.2 ⟨i, t, h7, by simp, rfl, h8, by simpa using h9⟩
    obtain ⟨j, hj⟩ := List.mem_iff_getElem?.1 hmem
    refine ⟨x, List.mem_of_getElem? h5, j, (i, nameString t.name), ?_, h4⟩
    rw [h6, groupTypes_at hj, if_pos]
    by_contra hge
    rw [BitVec.getLsbD_of_ge _ _ (by omega)] at h4
    cases h4

/-! ### Requests -/

/-- Sources with places to read from, short enough for the number of steps of a lexer. -/
def At (n : Nat) (ls : LState η) (l : SrcList.State Src) : Prop := Lexer.Holds ls.ps.src l ∧ ∀ x ∈ l, x.1.content.length < n

/-- All outcomes of a request. -/
theorem pull_first (env : PEnv σ) {tenv : TEnv η} (hl : LexersOf re ts tenv.lexers) {n : Nat} (types : TokenTypeSet)
    {ls : LState η} {l : SrcList.State Src} (h : At (n + 1) ls l) :
    ∃ ls' r, (pipelineEnv env tenv [] (n + 1)).pull ls types = .done (ls', r) ∧
      ((l = [] ∧ AsksText ts types ∧ r = .ok (some eoiToken) ∧ At (n + 1) ls' []) ∨
       (¬ AsksText ts types ∧ r = .ok none ∧ At (n + 1) ls' l) ∨
       (∃ src rest, l = (src, src.content.length) :: rest ∧ AsksText ts types ∧ r = .ok (some (endOf src)) ∧ At (n + 1) ls' rest) ∨
       (∃ src p rest, l = (src, p) :: rest ∧ p < src.content.length ∧
         ((∃ k i n1 t, (Gives re ts types k (src.content.drop p) i n1 ∧ ∀ k' < k, ∀ i' n', ¬ Gives re ts types k' (src.content.drop p) i' n') ∧ ts[i]? = some t ∧
             r = .ok (some ⟨i, nameString t.name, (src.content.drop p).take n1, ⟨some src, (p : Nat)⟩⟩) ∧ At (n + 1) ls' ((src, p + n1) :: rest)) ∨
          ((∀ k i n1, ¬ Gives re ts types k (src.content.drop p) i n1) ∧ At (n + 1) ls' l ∧
            (r = .ok none ∨ ∃ e, r = .error e ∧ types = allTokenTypes))))) := by
  obtain ⟨defs, hdefs, hok, hask⟩ := lexers_defs hl
  obtain ⟨hh, hlen⟩ := h
  have key : ∀ q r, fetchLoop types (n + 1) tenv.lexers ls.ps.src none = .done (q, r) →
      (pipelineEnv env tenv [] (n + 1)).pull ls types = .done ({ ls with ps := { ls.ps with src := q } }, r) := by
    intro q r he
    show pullToken tenv (n + 1) types [] ls = _
    rw [pullToken, fetchToken, he]
    rfl
  by_cases ha : AsksText ts types
  swap
  · have := fetch_unasked (fuel := n + 1) defs ls.ps.src (fun h => ha ((hask types).1 h))
    rw [← hdefs] at this
    exact ⟨_, _, key _ _ this, .inr (.inl ⟨ha, rfl, hh, hlen⟩)⟩
  have har := (hask types).2 ha
  cases l with
  | nil =>
    have := (fetch_eoi_iff (fuel := n) defs hh.rep rfl).1 har
    rw [← hdefs] at this
    exact ⟨_, _, key _ _ this, .inl ⟨rfl, ha, rfl, hh, by simp⟩⟩
  | cons x rest =>
    obtain ⟨src, p⟩ := x
    have hrest : ∀ x ∈ rest, x.1.content.length < n + 1 := fun x hx => hlen x (by simp [hx])
    have hsrc : src.content.length < n + 1 := hlen (src, p) (by simp)
    have hmv : ∀ p', ∀ x ∈ ((src, p') :: rest : SrcList.State Src), x.1.content.length < n + 1 := by
      intro p' x hx
      rcases List.mem_cons.1 hx with rfl | hx
      · exact hsrc
      · exact hrest x hx
    rcases Nat.lt_or_ge p src.content.length with hp | hp
    · obtain ⟨-, hls⟩ := hl.groups
      obtain ⟨q', r, h1, ⟨k, i, n1, t, h2, h3, h4, h5, h6, h7⟩ | ⟨h2, h3, h4, h5⟩⟩ :=
        groups_fetch hl.matchers types hp (n + 1) (by omega) tenv.lexers 0 hls hh none (by simp)
      · exact ⟨_, _, key _ _ h1, .inr (.inr (.inr ⟨src, p, rest, rfl, hp, .inl ⟨k, i, n1, t,
          by simpa only [Nat.zero_add] using And.intro h4 h3, h5, h6, h7, hmv _⟩⟩))⟩
      · refine ⟨_, _, key _ _ h1, .inr (.inr (.inr ⟨src, p, rest, rfl, hp, .inr ⟨?_, ⟨h3, hmv _⟩, ?_⟩⟩))⟩
        · intro k i n1 hf
          refine h2 k (hl.covers hf.1.1) i n1 ?_
          rwa [Nat.zero_add]
        · by_cases ht : types = allTokenTypes
          · rcases h5 ht with ⟨h6, -⟩ | ⟨e, h6, -⟩
            · exact .inl h6
            · exact .inr ⟨_, h6, ht⟩
          · exact .inl (h4 ht)
    · have hpe : p = src.content.length := by have := hh.pos_le; omega
      subst hpe
      obtain ⟨q', h1, h2⟩ := fetch_end (fuel := n) defs (fun x hx => (hok x hx).1) hh rfl har
      rw [← hdefs] at h1
      exact ⟨_, _, key _ _ h1, .inr (.inr (.inl ⟨src, rest, rfl, ha, rfl, h2, hrest⟩))⟩

theorem pull_groups (env : PEnv σ) {tenv : TEnv η} (hl : LexersOf re ts tenv.lexers) {n : Nat} (types : TokenTypeSet)
    {ls : LState η} {l : SrcList.State Src} (h : At (n + 1) ls l) :
    ∃ ls' r, (pipelineEnv env tenv [] (n + 1)).pull ls types = .done (ls', r) ∧
      ((l = [] ∧ AsksText ts types ∧ r = .ok (some eoiToken) ∧ At (n + 1) ls' []) ∨
       (¬ AsksText ts types ∧ r = .ok none ∧ At (n + 1) ls' l) ∨
       (∃ src rest, l = (src, src.content.length) :: rest ∧ AsksText ts types ∧ r = .ok (some (endOf src)) ∧ At (n + 1) ls' rest) ∨
       (∃ src p rest, l = (src, p) :: rest ∧ p < src.content.length ∧
         ((∃ k i n1 t, Gives re ts types k (src.content.drop p) i n1 ∧ ts[i]? = some t ∧
             r = .ok (some ⟨i, nameString t.name, (src.content.drop p).take n1, ⟨some src, (p : Nat)⟩⟩) ∧ At (n + 1) ls' ((src, p + n1) :: rest)) ∨
          ((∀ k i n1, ¬ Gives re ts types k (src.content.drop p) i n1) ∧ At (n + 1) ls' l ∧
            (r = .ok none ∨ ∃ e, r = .error e ∧ types = allTokenTypes))))) := by
  obtain ⟨ls', r, h1, h2⟩ := pull_first env hl types h
  refine ⟨ls', r, h1, ?_⟩
  rcases h2 with h2 | h2 | h2 | ⟨src, p, rest, h2, h3, ⟨k, i, n1, t, h4, h5⟩ | h4⟩
  · exact .inl h2
  · exact .inr (.inl h2)
  · exact .inr (.inr (.inl h2))
  · exact .inr (.inr (.inr ⟨src, p, rest, h2, h3, .inl ⟨k, i, n1, t, h4.1, h5⟩⟩))
  · exact .inr (.inr (.inr ⟨src, p, rest, h2, h3, .inr h4⟩))

/-- The same for one group of types. -/
theorem pull_text (env : PEnv σ) {tenv : TEnv η} (hl : LexersOf re ts tenv.lexers) (hg : OneGroup ts) {n : Nat} (types : TokenTypeSet)
    {ls : LState η} {l : SrcList.State Src} (h : At (n + 1) ls l) :
    ∃ ls' r, (pipelineEnv env tenv [] (n + 1)).pull ls types = .done (ls', r) ∧
      ((l = [] ∧ AsksText ts types ∧ r = .ok (some eoiToken) ∧ At (n + 1) ls' []) ∨
       (¬ AsksText ts types ∧ r = .ok none ∧ At (n + 1) ls' l) ∨
       (∃ src rest, l = (src, src.content.length) :: rest ∧ AsksText ts types ∧ r = .ok (some (endOf src)) ∧ At (n + 1) ls' rest) ∨
       (∃ src p rest, l = (src, p) :: rest ∧ p < src.content.length ∧
         ((∃ i n1 t, FirstOf re ts 0 (src.content.drop p) i n1 ∧ 0 < n1 ∧ ts[i]? = some t ∧ types.getLsbD i = true ∧
             r = .ok (some ⟨i, nameString t.name, (src.content.drop p).take n1, ⟨some src, (p : Nat)⟩⟩) ∧ At (n + 1) ls' ((src, p + n1) :: rest)) ∨
          ((∀ i n1, FirstOf re ts 0 (src.content.drop p) i n1 → 0 < n1 → types.getLsbD i = false) ∧ At (n + 1) ls' l ∧
            (r = .ok none ∨ ∃ e, r = .error e ∧ types = allTokenTypes))))) := by
  obtain ⟨ls', r, h1, h2⟩ := pull_groups env hl types h
  refine ⟨ls', r, h1, ?_⟩
  rcases h2 with h2 | h2 | h2 | ⟨src, p, rest, h2, h3, ⟨k, i, n1, t, h4, h5⟩ | ⟨h4, h5⟩⟩
  · exact .inl h2
  · exact .inr (.inl h2)
  · exact .inr (.inr (.inl h2))
  · have hk0 := InGroup.zero hg h4.1.1
    rw [hk0] at h4
    exact .inr (.inr (.inr ⟨src, p, rest, h2, h3, .inl ⟨i, n1, t, h4.1, h4.2.1, h5.1, h4.2.2, h5.2⟩⟩))
  · refine .inr (.inr (.inr ⟨src, p, rest, h2, h3, .inr ⟨fun i n1 hf hn => ?_, h5⟩⟩))
    by_contra hb
    exact h4 0 i n1 ⟨hf, hn, by simpa using hb⟩

/-- The stream of tokens of a text. -/
def TextLeft (re : List Nat → Option Matcher) (ts : List GToken) (n : Nat) (ls : LState η) (toks : List Token) : Prop :=
  ∃ l, At n ls l ∧ Reads re ts l toks []

theorem text_supplies (env : PEnv σ) {tenv : TEnv η} (hl : LexersOf re ts tenv.lexers) (hg : OneGroup ts) (hfit : TypesFit ts)
    (hsome : ∃ k i, InGroup ts k i) (n : Nat) :
    Supplies (pipelineEnv env tenv [] (n + 1)).pull (AsksText ts) (TextLeft re ts (n + 1)) := by
  have hone : ∀ (i : Nat) (t : Token), t.type = (i : Int) → ∀ types, Wanted (AsksText ts) types t ↔ types.getLsbD i = true := by
    intro i t hi types
    rw [Wanted, if_neg (by omega), hi]
    simp
  have heof : ∀ src types, Wanted (AsksText ts) types (endOf src) ↔ AsksText ts types := by
    intro src types
    rw [Wanted, if_pos (by simp [endOf, eofTokenType])]
  have hasks : ∀ {types : TokenTypeSet} {k i : Nat}, InGroup ts k i → types.getLsbD i = true → AsksText ts types :=
    fun h1 h2 => asksText_iff.mpr ⟨_, _, h1, h2⟩
  have hall : ∀ {k i : Nat}, InGroup ts k i → allTokenTypes.getLsbD i = true := by
    rintro k i ⟨t, r, h1, h2, -⟩
    have := hfit i t h1 (by simp [h2])
    rw [allTokenTypes, BitVec.getLsbD_allOnes]
    simpa using this
  constructor
  · rintro ls t toks types ⟨l, hat, hr⟩ hw
    obtain ⟨ls', r, h1, h2⟩ := pull_text env hl hg types hat
    cases hr with
    | @tok src p i n1 gt rest _ _ hp hf hn ht hr =>
      have hb := (hone i _ rfl types).1 hw
      rcases h2 with ⟨h2, -⟩ | ⟨h2, -⟩ | ⟨src', rest', h2, -⟩ | ⟨src', p', rest', h2, -, ⟨i', n', t', h3, h4, h5, -, h6, h7⟩ | ⟨h3, -⟩⟩
      · cases h2
      · exact absurd (hasks hf.1 hb) h2
      · cases h2; omega
      · cases h2
        obtain ⟨rfl, rfl⟩ := first_unique hf h3
        rw [ht] at h5
        cases h5
        exact ⟨ls', by rw [h1, h6], _, h7, hr⟩
      · cases h2
        rw [h3 i n1 hf hn] at hb
        cases hb
    | @eof src rest _ _ hr =>
      have hb := (heof src types).1 hw
      rcases h2 with ⟨h2, -⟩ | ⟨h2, -⟩ | ⟨src', rest', h2, -, h3, h4⟩ | ⟨src', p', rest', h2, hp, -⟩
      · cases h2
      · exact absurd hb h2
      · cases h2
        exact ⟨ls', by rw [h1, h3], _, h4, hr⟩
      · cases h2; omega
  · rintro ls t toks types ⟨l, hat, hr⟩ hw
    obtain ⟨ls', r, h1, h2⟩ := pull_text env hl hg types hat
    have hr0 := hr
    cases hr with
    | @tok src p i n1 gt rest _ _ hp hf hn ht hr =>
      have hb := mt (hone i _ rfl types).2 hw
      rcases h2 with ⟨h2, -⟩ | ⟨-, h2, h3⟩ | ⟨src', rest', h2, -⟩ | ⟨src', p', rest', h2, -, ⟨i', n', t', h3, h4, h5, h6, -⟩ | ⟨h3, h4, h5⟩⟩
      · cases h2
      · exact ⟨ls', by rw [h1, h2], _, h3, hr0⟩
      · cases h2; omega
      · cases h2
        obtain ⟨rfl, rfl⟩ := first_unique hf h3
        exact absurd h6 hb
      · rcases h5 with h5 | ⟨e, -, h5⟩
        · exact ⟨ls', by rw [h1, h5], _, h4, hr0⟩
        · rw [h5] at hb
          exact absurd (hall hf.1) hb
    | @eof src rest _ _ hr =>
      have hb := mt (heof src types).2 hw
      rcases h2 with ⟨h2, -⟩ | ⟨-, h2, h3⟩ | ⟨src', rest', h2, h3, -⟩ | ⟨src', p', rest', h2, hp, -⟩
      · cases h2
      · exact ⟨ls', by rw [h1, h2], _, h3, hr0⟩
      · exact absurd h3 hb
      · cases h2; omega
  · rintro ls types ⟨l, hat, hr⟩ ha
    cases hr
    obtain ⟨ls', r, h1, h2⟩ := pull_text env hl hg types hat
    rcases h2 with ⟨-, -, h2, h3⟩ | ⟨h2, -⟩ | ⟨src', rest', h2, -⟩ | ⟨src', p', rest', h2, -⟩
    · exact ⟨ls', _, by rw [h1, h2], rfl, _, h3, .nil⟩
    · exact absurd ha h2
    · cases h2
    · cases h2
  · rintro ls types ⟨l, hat, hr⟩ ha
    cases hr
    obtain ⟨ls', r, h1, h2⟩ := pull_text env hl hg types hat
    rcases h2 with ⟨-, h2, -⟩ | ⟨-, h2, h3⟩ | ⟨src', rest', h2, -⟩ | ⟨src', p', rest', h2, -⟩
    · exact absurd h2 ha
    · exact ⟨ls', by rw [h1, h2], _, h3, .nil⟩
    · cases h2
    · cases h2
  · rintro ls toks types ⟨l, -, hr⟩ t ht h0 hb
    clear hone heof
    generalize hl0 : ([] : SrcList.State Src) = l0 at hr
    induction hr with
    | nil => simp at ht
    | @tok src p i n1 gt rest _ _ hp hf hn hgt hr ih =>
      rcases List.mem_cons.1 ht with rfl | ht
      · exact hasks hf.1 (by simpa using hb)
      · exact ih ht hl0
    | eof _ ih =>
      rcases List.mem_cons.1 ht with rfl | ht
      · exact absurd h0 (by simp [endOf, eofTokenType])
      · exact ih ht hl0
  · obtain ⟨k, i, hi⟩ := hsome
    exact hasks hi (hall hi)

/-- A token read from a place is put back there. -/
theorem unread_text (env : PEnv σ) {tenv : TEnv η} {n m p p' : Nat} {ls ls' : LState η} {src : Src} {rest : SrcList.State Src}
    (h : At m ls ((src, p') :: rest)) (hp : p ≤ src.content.length) {t : Token} (ht : t.pos = ⟨some src, (p : Nat)⟩)
    (hu : (pipelineEnv env tenv [] n).unread ls t = some ls') : At m ls' ((src, p) :: rest) := by
  obtain ⟨q, h8, rfl⟩ := Option.map_eq_some_iff.1 hu
  obtain ⟨h6, h7⟩ := h
  have h9 : q = ls.ps.src.seek (p : Int) := by
    rw [unreadToken, ht, if_neg (by rw [h6.rep.source]; simp)] at h8
    simpa using h8.symm
  subst h9
  refine ⟨seek_holds h6 hp, fun x hx => ?_⟩
  rcases List.mem_cons.1 hx with rfl | hx
  · exact h7 (src, p') (by simp)
  · exact h7 x (by simp [hx])

theorem text_rereads (env : PEnv σ) {tenv : TEnv η} (hl : LexersOf re ts tenv.lexers) (hg : OneGroup ts) (n : Nat) :
    Spec.Rereads (pipelineEnv env tenv [] (n + 1)).pull (pipelineEnv env tenv [] (n + 1)).unread (TextLeft re ts (n + 1)) := by
  rintro ls t toks types ls1 ls2 ⟨l, hat, hr⟩ h0 hp hu
  obtain ⟨ls', r, h1, h2⟩ := pull_text env hl hg types hat
  rw [hp] at h1
  cases h1
  have hr0 := hr
  cases hr with
  | @tok src p i n1 gt rest _ _ hlt hf hn ht hr =>
    rcases h2 with ⟨h2, -⟩ | ⟨-, h2, -⟩ | ⟨src', rest', h2, -⟩ | ⟨src', p', rest', h2, -, ⟨i', n', t', h3, h4, h5, h6, h7, h8⟩ | ⟨-, -, h3 | ⟨e, h3, -⟩⟩⟩
    · cases h2
    · cases h2
    · cases h2; omega
    · cases h2
      exact ⟨_, unread_text env h8 (Nat.le_of_lt hlt) rfl hu, hr0⟩
    · cases h3
    · cases h3
  | eof => exact absurd h0 (by simp [endOf, eofTokenType])

/-! ### What is read by a successful parse -/

/-- Reading of a stream: `Good` holds for states of the stream that may be met, `Done` for those after the end of input. -/
structure Progress (env : PEnv σ) (Good Done : σ → Prop) : Prop where
  keep : ∀ {s s' types t}, Good s → env.pull s types = .done (s', .ok t) → Good s'
  keepDone : ∀ {s s' types t}, Done s → env.pull s types = .done (s', .ok t) → Done s'
  last : ∀ {s s' types t}, Good s → env.pull s types = .done (s', .ok (some t)) → t.type = eoiTokenType → Done s'
  back : ∀ {s s' s'' types t}, Good s → env.pull s types = .done (s', .ok (some t)) → t.type ≠ eofTokenType → t.type ≠ eoiTokenType →
    env.unread s' t = some s'' → Good s''

/-- The end of input is not left when it has been met. -/
def AfterEnd (Done : σ → Prop) (pc : PC σ) : Prop := (∃ t, some t ∈ pc.delivered ∧ t.type = eoiTokenType) → Done pc.src

theorem nextLoop_progress {env : PEnv σ} {Good Done : σ → Prop} (hpr : Progress env Good Done) {types : TokenTypeSet} (fuel : Nat)
    {pc pc' : PC σ} {tok : Option Token} (hg : Good pc.src) (he : AfterEnd Done pc) (h : nextLoop env types fuel pc = .done (pc', .ok tok)) :
    Good pc'.src ∧ AfterEnd Done pc' ∧
      ∃ s0, Good s0 ∧ env.pull s0 types = .done (pc'.src, .ok tok) ∧ ∀ t, tok = some t → t.type ≠ eofTokenType := by
  induction fuel generalizing pc with
  | zero => simp [nextLoop] at h
  | succ fuel ih =>
    rw [nextLoop, bindRun_done] at h
    obtain ⟨⟨src, res⟩, h1, h⟩ := h
    cases res with
    | error e => cases h
    | ok t =>
      dsimp only at h
      split at h
      · exact ih (pc := { pc with src := src }) (hpr.keep hg h1) (fun h2 => hpr.keepDone (he h2) h1) h
      · rename_i hn
        cases h
        refine ⟨hpr.keep hg h1, ?_, _, hg, h1, ?_⟩
        · rintro ⟨t, h2, h3⟩
          rcases List.mem_append.1 h2 with h2 | h2
          · exact hpr.keepDone (he ⟨t, h2, h3⟩) h1
          · rw [← List.mem_singleton.1 h2] at h1
            exact hpr.last hg h1 h3
        · rintro t rfl he
          exact hn (.inl (by simp [he]))

theorem progress_inv {env : PEnv σ} {Good Done : σ → Prop} (hpr : Progress env Good Done)
    (hone : ∀ tok s rules, findRules env.g env.upper tok s = some rules → rules.length ≤ 1) :
    LoopInv env
      (fun pc tok => pc.applied = [] ∧ pc.tokens = [] ∧ Good pc.src ∧ AfterEnd Done pc ∧
        ∃ s0 types, Good s0 ∧ env.pull s0 types = .done (pc.src, .ok tok) ∧ ∀ t, tok = some t → t.type ≠ eofTokenType)
      (fun pc => pc.applied = [] ∧ pc.tokens = [] ∧ Good pc.src ∧ AfterEnd Done pc) where
  token := by
    intro fuel pc pc' tok node rest hj hs h
    obtain ⟨h1, h2, h3, h4⟩ := hj
    rw [nextToken, h2] at h
    obtain ⟨h5, h6, s0, h7⟩ := nextLoop_progress hpr fuel h3 h4 h
    obtain ⟨src, rfl⟩ := nextLoop_spec fuel h
    exact ⟨h1, h2, h5, h6, s0, _, h7⟩
  step := by
    intro fuel pc pc1 pc2 tok node rest r b hi hs h1 h2
    obtain ⟨h3, h4, h5, h6, h7⟩ := hi
    have h8 : pc1 = pc := by
      rw [nextRule, h3] at h1
      obtain ⟨rules, hr, h1⟩ := orPanic_done.mp h1
      match rules, hone _ _ _ hr, h1 with
      | [], _, h1 => cases h1
      | [x], _, h1 => cases h1; rfl
    subst h8
    obtain ⟨-, stack, log, last, rfl⟩ := applyRule_spec h2
    cases b
    · exact ⟨h3, h4, h5, h6, h7⟩
    · exact ⟨h3, h4, h5, h6⟩

theorem restLoop_progress {env : PEnv σ} {Good Done : σ → Prop} (hpr : Progress env Good Done) (fuel : Nat) {pc pc' : PC σ}
    (ht : pc.tokens = []) (hg : Good pc.src) (h : restLoop env fuel pc = .done (.ok pc')) : ∃ s, Done s := by
  induction fuel generalizing pc with
  | zero => simp [restLoop] at h
  | succ fuel ih =>
    rw [restLoop, bindRun_done] at h
    obtain ⟨⟨pc1, r⟩, h1, h⟩ := h
    rw [nextToken, ht] at h1
    match r, h1, h with
    | .ok (some t), h1, h =>
      obtain ⟨s0, h4, h5, -⟩ := nextLoop_pulled hpr.keep fuel hg h1
      obtain ⟨src, rfl⟩ := nextLoop_spec fuel h1
      dsimp only at h
      split at h
      · rename_i ht'
        exact ⟨_, hpr.last h4 h5 ht'⟩
      · split at h
        · exact ih (pc := { pc with src := src, delivered := _ }) ht (hpr.keep h4 h5) h
        · cases h

/-- A successful parse of the whole input, in which there is never more than one rule, comes to the end of input. -/
theorem parse_progress {env : PEnv σ} {Good Done : σ → Prop} (hpr : Progress env Good Done)
    (hone : ∀ tok s rules, findRules env.g env.upper tok s = some rules → rules.length ≤ 1) (hf : env.fullSource = true)
    {fuel : Nat} {src : σ} {pos : SrcPos} {pc : PC σ} (hg : Good src) (h : parse env fuel src pos = .done (.ok pc)) : ∃ s, Done s := by
  obtain ⟨pc0, pc1, tok, b, h1, h2, h3⟩ := parse_split h
  obtain ⟨n, stack, log, rfl⟩ := pushNode_spec h1
  obtain ⟨-, hI⟩ := outer_ok (progress_inv hpr hone) ⟨rfl, rfl, hg, fun ⟨t, h4, _⟩ => by simp at h4⟩ (by simp) h2
  have hlast := outer_last fuel (b := false) (tok := none) (by simp) h2
  obtain ⟨-, hrep⟩ := outer_ok (tokens_inv env) (by rfl) (by simp) h2
  rw [finish, bindRun_done] at h3
  obtain ⟨pc2, h4, h3⟩ := h3
  cases b with
  | true =>
    obtain ⟨h5, h6, h7, h8⟩ := hI
    rw [putBack.eq_def, if_pos rfl] at h4
    cases h4
    split at h3
    · exact restLoop_progress hpr fuel h6 h7 h3
    · rename_i hc
      have : tok.any (fun t => t.type = eoiTokenType) = true := by
        by_contra hn
        exact hc ⟨hf, hn⟩
      cases tok with
      | none => simp at this
      | some t =>
        refine ⟨_, h8 ⟨t, ?_, by simpa using this⟩⟩
        rw [replay_consumed _ _ _ hrep]
        exact List.mem_append_left _ (consumedBy_last (hlast rfl))
  | false =>
    obtain ⟨h5, h6, h7, h8, s0, types, h9, h10, h11⟩ := hI
    rw [putBack.eq_def, if_neg (by simp)] at h4
    cases tok with
    | none => cases h4
    | some t =>
      dsimp only at h4
      by_cases he : t.type = eoiTokenType
      · exact ⟨_, hpr.last h9 h10 he⟩
      · rw [if_neg he] at h4
        rw [if_pos ⟨hf, by simpa using he⟩] at h3
        split at h4
        · cases h4
          exact restLoop_progress hpr fuel h6 h7 h3
        · obtain ⟨src', h12, h4⟩ := orPanic_done.mp h4
          cases h4
          exact restLoop_progress (pc := { pc1 with src := src' }) hpr fuel h6 (hpr.back h9 h10 (h11 t rfl) he h12) h3

theorem firstRules_length {f : Int → List Rule} (h : ∀ k, (f k).length ≤ 1) (ks : List Int) : (firstRules f ks).length ≤ 1 := by
  unfold firstRules
  cases hf : (ks.map f).find? (· ≠ []) with
  | none => simp
  | some l =>
    obtain ⟨k, -, rfl⟩ := List.mem_map.1 (List.mem_of_find?_eq_some hf)
    exact h k

theorem findRules_length {g : Grammar} {upper : List Nat → List Nat} {m : Table} (hm : Means g.tables m) (h1 : ∀ s k, (m s k).length ≤ 1)
    {tok : Option Token} {s : Int} {rules : List Rule} (h : findRules g upper tok s = some rules) : rules.length ≤ 1 := by
  unfold findRules at h
  cases hi : Go.index g.tables.states s with
  | none => rw [hi] at h; cases h
  | some gs =>
    rw [hi, Option.bind_some] at h
    have key : ∀ keys, findRulesBy g.tables gs keys = some rules → rules.length ≤ 1 := by
      intro keys hk
      unfold Go.index at hi
      split at hi
      · rw [hm.find s.toNat gs hi keys] at hk
        cases hk
        exact firstRules_length (h1 _) keys
      · cases hi
    have key' : (possibleRuleKeys g upper tok).bind (findRulesBy g.tables gs) = some rules → rules.length ≤ 1 := by
      intro hk
      obtain ⟨keys, -, hk⟩ := Option.bind_eq_some_iff.1 hk
      exact key keys hk
    cases tok with
    | none => exact key' h
    | some t =>
      dsimp only at h
      split at h
      · cases h; simp
      · exact key' h

theorem text_progress (env : PEnv σ) {tenv : TEnv η} (hl : LexersOf re ts tenv.lexers) (hg : OneGroup ts) (n : Nat)
    (l0 : SrcList.State Src) :
    Progress (pipelineEnv env tenv [] (n + 1)) (fun ls => ∃ toks l, At (n + 1) ls l ∧ Reads re ts l0 toks l)
      (fun ls => ∃ toks, At (n + 1) ls [] ∧ Reads re ts l0 toks []) where
  keep := by
    rintro s s' types t ⟨toks, l, hat, hr⟩ hp
    obtain ⟨ls', r, h1, h2⟩ := pull_text env hl hg types hat
    rw [hp] at h1
    cases h1
    rcases h2 with ⟨rfl, -, -, h3⟩ | ⟨-, -, h3⟩ | ⟨src, rest, rfl, -, -, h3⟩ | ⟨src, p, rest, rfl, hlt, ⟨i, n1, t', h4, h5, h6, -, -, h3⟩ | ⟨-, h3, -⟩⟩
    · exact ⟨_, _, h3, hr⟩
    · exact ⟨_, _, h3, hr⟩
    · exact ⟨_, _, h3, reads_snoc hr (.eof .nil)⟩
    · exact ⟨_, _, h3, reads_snoc hr (.tok hlt h4 h5 h6 .nil)⟩
    · exact ⟨_, _, h3, hr⟩
  keepDone := by
    rintro s s' types t ⟨toks, hat, hr⟩ hp
    obtain ⟨ls', r, h1, h2⟩ := pull_text env hl hg types hat
    rw [hp] at h1
    cases h1
    rcases h2 with ⟨-, -, -, h3⟩ | ⟨-, -, h3⟩ | ⟨src, rest, h3, -⟩ | ⟨src, p, rest, h3, -⟩
    · exact ⟨_, h3, hr⟩
    · exact ⟨_, h3, hr⟩
    · cases h3
    · cases h3
  last := by
    rintro s s' types t ⟨toks, l, hat, hr⟩ hp ht
    obtain ⟨ls', r, h1, h2⟩ := pull_text env hl hg types hat
    rw [hp] at h1
    cases h1
    rcases h2 with ⟨rfl, -, -, h3⟩ | ⟨-, h3, -⟩ | ⟨src, rest, -, -, h3, -⟩ | ⟨src, p, rest, -, -, ⟨i, n1, t', -, -, -, -, h3, -⟩ | ⟨-, -, h3 | ⟨e, h3, -⟩⟩⟩
    · exact ⟨_, h3, hr⟩
    · cases h3
    · cases h3
      cases ht
    · cases h3
      exact absurd ht (by simp only [eoiTokenType]; omega)
    · cases h3
    · cases h3
  back := by
    rintro s s' s'' types t ⟨toks, l, hat, hr⟩ hp he hi hu
    obtain ⟨ls', r, h1, h2⟩ := pull_text env hl hg types hat
    rw [hp] at h1
    cases h1
    rcases h2 with ⟨-, -, h3, -⟩ | ⟨-, h3, -⟩ | ⟨src, rest, -, -, h3, -⟩ | ⟨src, p, rest, rfl, hlt, ⟨i, n1, t', -, -, -, -, h3, h4⟩ | ⟨-, -, h3 | ⟨e, h3, -⟩⟩⟩
    · cases h3
      exact absurd rfl hi
    · cases h3
    · cases h3
      exact absurd rfl he
    · cases h3
      exact ⟨_, _, unread_text env h4 (Nat.le_of_lt hlt) rfl hu, hr⟩
    · cases h3
    · cases h3

end Verif.Proof
