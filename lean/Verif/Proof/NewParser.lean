/-
Lexers made by `parser.New`.
-/
import Verif.Spec.FirstMatch
import Verif.Spec.FullSource
import Verif.Proof.Reread
import Verif.Proof.SupplyHalts

namespace Verif.Proof

open Verif.Model Verif.Spec Verif.Spec.Lex Verif.Model.Lexer
open Verif.Model.Tree (bindRun)

/-! ### Joined expressions -/

theorem firstAlternative_spec {ms : List Matcher} {text : List Nat} {k0 k n : Nat}
    (h : firstAlternative ms text k0 = some (k, n)) :
    ∃ j m, k = k0 + j ∧ ms[j]? = some m ∧ m text = some n ∧ ∀ j' m', j' < j → ms[j']? = some m' → m' text = none := by
  induction ms generalizing k0 with
  | nil => cases h
  | cons m ms ih =>
    rw [firstAlternative] at h
    split at h
    · rename_i n' hn
      cases h
      exact ⟨0, m, rfl, rfl, hn, by omega⟩
    · rename_i hn
      obtain ⟨j, m', rfl, h1, h2, h3⟩ := ih h
      refine ⟨j + 1, m', by omega, by simpa using h1, h2, ?_⟩
      rintro (_ | j') m1 hj h4
      · cases h4; exact hn
      · exact h3 j' m1 (by omega) (by simpa using h4)

theorem firstAlternative_some {ms : List Matcher} {text : List Nat} {k0 j n : Nat} {m : Matcher} (hm : ms[j]? = some m)
    (hn : m text = some n) (ho : ∀ j' m', j' < j → ms[j']? = some m' → m' text = none) :
    firstAlternative ms text k0 = some (k0 + j, n) := by
  induction ms generalizing k0 j with
  | nil => simp at hm
  | cons x ms ih =>
    rw [firstAlternative]
    rcases j with _ | j
    · cases hm
      rw [hn]
      rfl
    · rw [ho 0 x (by omega) rfl]
      simp only
      rw [ih (j := j) (by simpa using hm) fun j' m' h1 h2 => ho (j' + 1) m' (by omega) (by simpa using h2)]
      congr 2
      omega

/-- Groups of a joined expression. -/
def altGroups (size k n : Nat) : List (Int × Int) := (List.range size).map fun j => if j = k then (0, (n : Int)) else (-1, -1)

theorem altGroups_at {size k n j : Nat} {g : Int × Int} (h : (altGroups size k n)[j]? = some g) :
    j < size ∧ g = if j = k then (0, (n : Int)) else (-1, -1) := by
  unfold altGroups at h
  rw [List.getElem?_map] at h
  obtain ⟨x, hx, rfl⟩ := Option.map_eq_some_iff.1 h
  obtain ⟨hj, rfl⟩ := List.getElem?_eq_some_iff.1 hx
  simp at hj
  simp [hj]

theorem altGroups_own {size k : Nat} (n : Nat) (h : k < size) : (altGroups size k n)[k]? = some (0, (n : Int)) := by
  unfold altGroups
  simp [h]

theorem joined_match {ms : List Matcher} {text : List Nat} {s e : Int} {gs : List (Int × Int)}
    (h : joinedRegexp ms text = some ((s, e) :: gs)) :
    (ms = [] ∧ s = 0 ∧ e = 0 ∧ gs = []) ∨
    ∃ k n, firstAlternative ms text 0 = some (k, n) ∧ k < ms.length ∧ s = 0 ∧ e = n ∧ gs = altGroups ms.length k n := by
  unfold joinedRegexp at h
  split at h
  · rename_i h0
    cases h
    exact .inl ⟨h0, rfl, rfl, rfl⟩
  · split at h
    · cases h
    · rename_i k n hk
      simp only [Option.some.injEq, List.cons.injEq, Prod.mk.injEq] at h
      obtain ⟨⟨rfl, rfl⟩, rfl⟩ := h
      obtain ⟨j, m, rfl, hj, -, -⟩ := firstAlternative_spec hk
      exact .inr ⟨_, n, hk, by have := (List.getElem?_eq_some_iff.1 hj).1; omega, rfl, rfl, rfl⟩

theorem joined_some {ms : List Matcher} {text : List Nat} {k n : Nat} (h : firstAlternative ms text 0 = some (k, n)) :
    joinedRegexp ms text = some ((0, (n : Int)) :: altGroups ms.length k n) := by
  unfold joinedRegexp
  rw [if_neg (by rintro rfl; cases h), h]
  rfl

/-- Joined expressions obey the contract. -/
theorem joined_reOk {ms : List Matcher} (hb : ∀ m ∈ ms, ∀ text n, m text = some n → n ≤ text.length) :
    ReOk (joinedRegexp ms) := by
  intro c s e gs h
  rcases joined_match h with ⟨-, rfl, rfl, rfl⟩ | ⟨k, n, hk, hlt, rfl, rfl, rfl⟩
  · simp
  · obtain ⟨j, m, rfl, hj, hm, -⟩ := firstAlternative_spec hk
    have := hb m (List.mem_of_getElem? hj) c n hm
    refine ⟨by omega, by omega, by omega, ?_⟩
    intro g hg
    obtain ⟨i, hi⟩ := List.mem_iff_getElem?.1 hg
    obtain ⟨-, rfl⟩ := altGroups_at hi
    split <;> simp

theorem joined_captures (ms : List Matcher) : CapturesAll (joinedRegexp ms) := by
  intro c e gs h he
  rcases joined_match h with ⟨-, -, h1, -⟩ | ⟨k, n, hk, hlt, -, h1, rfl⟩
  · omega
  · have : n = e := by omega
    subst this
    refine ⟨k, altGroups_own n hlt, ?_⟩
    intro j hj g hg
    obtain ⟨-, rfl⟩ := altGroups_at hg
    rw [if_neg hj]
    simp [Captured]

theorem joined_at {ms : List Matcher} {c : List Nat} {p e : Nat} {gs : List (Int × Int)}
    (h : MatchAt (joinedRegexp ms) c p e gs) :
    ∃ k, firstAlternative ms (c.drop p) 0 = some (k, e) ∧ k < ms.length ∧ gs = altGroups ms.length k e := by
  rcases joined_match h.1 with ⟨-, -, h1, -⟩ | ⟨k, n, hk, hlt, -, h1, rfl⟩
  · have := h.2; omega
  · have : n = e := by omega
    subst this
    exact ⟨k, hk, hlt, rfl⟩

/-! ### Calls of a lexer -/

/-- What a lexer with a joined expression does at an offset of a source. -/
theorem joined_call {ms : List Matcher} (hb : ∀ m ∈ ms, ∀ text n, m text = some n → n ≤ text.length)
    (types : List TokenType) (tts : TokenTypeSet) {q : SrcQueue} {src : Src} {p : Nat} {rest : SrcList.State Src}
    (h : Holds q ((src, p) :: rest)) (hp : p < src.content.length) (fuel : Nat) (hf : src.content.length - p < fuel) :
    ∃ q' r, (new (joinedRegexp ms) types).nextOf fuel q tts = .done (q', r) ∧
      ((∃ j n i name, firstAlternative ms (src.content.drop p) 0 = some (j, n) ∧ 0 < n ∧ groupType types j = some (i, name) ∧
          Requested tts i ∧ r = .ok (some ⟨i, name, (src.content.drop p).take n, ⟨some src, (p : Nat)⟩⟩) ∧
          Holds q' ((src, p + n) :: rest)) ∨
        ((∀ t, r ≠ .ok (some t)) ∧ Holds q' ((src, p) :: rest) ∧
          (∀ j n i, firstAlternative ms (src.content.drop p) 0 = some (j, n) → 0 < n → groupType types j = some i →
            ¬ Requested tts i.1) ∧
          (∀ e, r = .error e → e.sourceName = src.name ∧ (e.line, e.col) = src.lineCol p ∧
            (e.code = 101 ∨ ∃ j n, firstAlternative ms (src.content.drop p) 0 = some (j, n) ∧ groupType types j = none ∧ j < ms.length)) ∧
          (r = .ok none → (∀ k t, groupType types k = some t → ¬ Requested tts t.1) ∨
            ∃ j n t, firstAlternative ms (src.content.drop p) 0 = some (j, n) ∧ groupType types j = some t ∧ ¬ Requested tts t.1))) := by
  have hre := joined_reOk hb
  have hc := joined_captures ms
  obtain ⟨q', r, hd⟩ : ∃ q' r, (new (joinedRegexp ms) types).nextOf fuel q tts = .done (q', r) := by
    unfold nextOf
    split
    · exact ⟨_, _, rfl⟩
    · obtain ⟨q', l', r, h1, -⟩ := loop_total hre types tts h
      exact ⟨q', r, h1 fuel (by simp only [bound]; omega)⟩
  refine ⟨q', r, hd, ?_⟩
  rcases nextOf_spec hre h hd with ⟨rfl, rfl, h1⟩ | ⟨l', hl', hs⟩
  · exact .inr ⟨by simp, h, fun j n i _ _ hi => h1 j i hi, by simp, fun _ => .inl h1⟩
  · obtain ⟨p0, hsk, -, ⟨h1, -⟩ | ⟨-, p', -, -, -, rfl, hlex⟩⟩ := hs
    · have := skips_none hc hsk; omega
    · have := skips_none hc hsk
      subst this
      cases hlex with
      | wrongChar hn err h1 h2 h3 =>
        refine .inr ⟨by simp, hl', ?_, ?_, by simp⟩
        · intro j n i hj hn0 hi
          exact absurd ⟨joined_some hj, hn0⟩ (hn n _)
        · intro e he
          cases he
          exact ⟨h2, h3, .inl h1⟩
      | badToken e gs k a b hm hg hdec hgt err h1 h2 h3 =>
        obtain ⟨k', hk, hlt, rfl⟩ := joined_at hm
        obtain ⟨hs, he⟩ := altGroups_at hg
        split at he
        · rename_i heq
          subst heq
          have ha : a = 0 := by simp at he; omega
          subst ha
          refine .inr ⟨by simp, hl', ?_, ?_, by simp⟩
          · intro j n i hj hn0 hi
            rw [hk] at hj
            cases hj
            rw [hgt] at hi
            cases hi
          · intro e' he'
            cases he'
            exact ⟨h2, by simpa using h3, .inr ⟨k, _, hk, hgt, hlt⟩⟩
        · simp at he
      | token e gs k a b t name hm hg hab hbe hpe hdec hgt hreq =>
        obtain ⟨k', hk, hlt, rfl⟩ := joined_at hm
        obtain ⟨hs, he⟩ := altGroups_at hg
        split at he
        · rename_i heq
          subst heq
          have ha : a = 0 ∧ b = e := by simp at he; omega
          obtain ⟨rfl, rfl⟩ := ha
          exact .inl ⟨k, b, t, name, hk, hm.2, hgt, hreq, by simp, hl'⟩
        · simp at he
      | nothing e gs hm hex hdec =>
        obtain ⟨k', hk, hlt, rfl⟩ := joined_at hm
        obtain ⟨t, ht, hnr⟩ := hdec k' (by simpa [altGroups] using hlt) _ (altGroups_own e hlt) ⟨by simp, by simp⟩
        refine .inr ⟨by simp, hl', ?_, by simp, fun _ => .inr ⟨k', e, t, hk, ht, hnr⟩⟩
        intro j n i hj hn0 hi
        rw [hk] at hj
        cases hj
        rw [ht] at hi
        cases hi
        exact hnr

/-! ### Groups of types -/

/-- Types of a group with their expressions. -/
def members (k : Nat) : List GToken → Nat → List (Nat × List Nat × List Nat)
  | [], _ => []
  | t :: ts, i =>
    match t.re with
    | none => members k ts (i + 1)
    | some r => if t.group = k then (i, t.name, r) :: members k ts (i + 1) else members k ts (i + 1)

/-- Record of a group. -/
def recOf (l : List (Nat × List Nat × List Nat)) : LexerRec := ⟨l.map (·.2.2), l.map fun x => ⟨x.1, nameString x.2.1⟩⟩

theorem lexerRecs_spec (ts : List GToken) (i : Nat) (lrs : List LexerRec) (hg : ∀ t ∈ ts, t.re ≠ none → t.group < lrs.length) :
    ∃ out, lexerRecs ts i lrs = some out ∧ out.length = lrs.length ∧
      ∀ (k : Nat) (lr : LexerRec), lrs[k]? = some lr →
        out[k]? = some ⟨lr.patterns ++ (recOf (members k ts i)).patterns, lr.types ++ (recOf (members k ts i)).types⟩ := by
  induction ts generalizing i lrs with
  | nil => exact ⟨lrs, rfl, rfl, fun k lr h => by simp [members, recOf, h]⟩
  | cons t ts ih =>
    have hg' : ∀ t ∈ ts, t.re ≠ none → t.group < lrs.length := fun u hu => hg u (List.mem_cons_of_mem _ hu)
    cases hr : t.re with
    | none =>
      obtain ⟨out, h1, h2, h3⟩ := ih (i + 1) lrs hg'
      refine ⟨out, by rw [lexerRecs, hr]; exact h1, h2, fun k lr hk => ?_⟩
      rw [h3 k lr hk, members, hr]
    | some r =>
      have hlt : t.group < lrs.length := hg t List.mem_cons_self (by simp [hr])
      obtain ⟨out, h1, h2, h3⟩ := ih (i + 1) (lrs.set t.group
        ⟨lrs[t.group].patterns ++ [r], lrs[t.group].types ++ [⟨i, nameString t.name⟩]⟩) (by simpa using hg')
      refine ⟨out, ?_, by simpa using h2, fun k lr hk => ?_⟩
      · rw [lexerRecs, hr]
        simp only [Go.index, Go.setIndex, Int.natCast_nonneg, if_true, Int.toNat_natCast, List.getElem?_eq_getElem hlt,
          Option.bind_some, hlt, and_self]
        exact h1
      · obtain ⟨hk', rfl⟩ := List.getElem?_eq_some_iff.1 hk
        by_cases he : t.group = k
        · subst he
          rw [h3 t.group _ (List.getElem?_set_self hlt), members, hr]
          simp [recOf]
        · rw [h3 k lrs[k] (by rw [List.getElem?_set_ne he]; exact hk), members, hr]
          simp [he]

theorem makeLexers_spec (re : List Nat → Option Matcher) (lrs : List LexerRec) :
    (makeLexers re lrs = none ↔ ∃ lr ∈ lrs, lr.patterns.mapM re = none) ∧
    ∀ ls, makeLexers re lrs = some ls → ls.length = lrs.length ∧
      ∀ (k : Nat) (lr : LexerRec), lrs[k]? = some lr →
        ∃ ms, lr.patterns.mapM re = some ms ∧ ls[k]? = some (new (joinedRegexp ms) lr.types) := by
  induction lrs with
  | nil => simp [makeLexers]
  | cons lr lrs ih =>
    obtain ⟨ih1, ih2⟩ := ih
    rw [makeLexers]
    cases hm : lr.patterns.mapM re with
    | none => simp [hm]
    | some ms =>
      cases hl : makeLexers re lrs with
      | none =>
        obtain ⟨x, hx, hx'⟩ := ih1.1 hl
        simp only [Option.bind_some, Option.bind_none, true_iff]
        exact ⟨⟨x, List.mem_cons_of_mem _ hx, hx'⟩, by simp⟩
      | some ls =>
        obtain ⟨h1, h2⟩ := ih2 ls hl
        simp only [Option.bind_some]
        refine ⟨⟨by simp, ?_⟩, ?_⟩
        · rintro ⟨x, hx, hx'⟩
          rcases List.mem_cons.1 hx with rfl | hx
          · rw [hm] at hx'; cases hx'
          · have := ih1.2 ⟨x, hx, hx'⟩
            rw [hl] at this; cases this
        · rintro ls' ⟨rfl⟩
          refine ⟨by simp [h1], ?_⟩
          rintro (_ | k) lr' hk
          · cases hk
            exact ⟨ms, hm, rfl⟩
          · obtain ⟨ms', h3, h4⟩ := h2 k lr' (by simpa using hk)
            exact ⟨ms', h3, by simpa using h4⟩

theorem maxGroup_ge (ts : List GToken) : ∀ t ∈ ts, t.flags.literal = false → t.group ≤ maxGroup ts := by
  unfold maxGroup
  suffices h : ∀ (l : List GToken) (m : Nat), m ≤ l.foldl (fun m t => if t.flags.literal then m else if t.group > m then t.group else m) m ∧
      ∀ t ∈ l, t.flags.literal = false → t.group ≤ l.foldl (fun m t => if t.flags.literal then m else if t.group > m then t.group else m) m by
    exact fun t ht => (h ts 0).2 t ht
  intro l
  induction l with
  | nil => simp
  | cons x l ih =>
    intro m
    rw [List.foldl_cons]
    obtain ⟨h1, h2⟩ := ih (if x.flags.literal then m else if x.group > m then x.group else m)
    constructor
    · refine le_trans ?_ h1
      split
      · exact le_refl _
      · split <;> omega
    · intro t ht hl
      rcases List.mem_cons.1 ht with rfl | ht
      · refine le_trans ?_ h1
        simp only [hl, Bool.false_eq_true, if_false]
        split <;> omega
      · exact h2 t ht hl

theorem mem_members {k : Nat} {ts : List GToken} {i0 : Nat} {x : Nat × List Nat × List Nat} :
    x ∈ members k ts i0 ↔ ∃ i t, ts[i]? = some t ∧ x.1 = i0 + i ∧ x.2.1 = t.name ∧ t.re = some x.2.2 ∧ t.group = k := by
  induction ts generalizing i0 with
  | nil => simp [members]
  | cons t ts ih =>
    have hcons : (∃ i u, (t :: ts)[i]? = some u ∧ x.1 = i0 + i ∧ x.2.1 = u.name ∧ u.re = some x.2.2 ∧ u.group = k) ↔
        (x.1 = i0 ∧ x.2.1 = t.name ∧ t.re = some x.2.2 ∧ t.group = k) ∨
        ∃ i u, ts[i]? = some u ∧ x.1 = i0 + 1 + i ∧ x.2.1 = u.name ∧ u.re = some x.2.2 ∧ u.group = k := by
      constructor
      · rintro ⟨_ | i, u, h1, h2⟩
        · cases h1; exact .inl h2
        · exact .inr ⟨i, u, by simpa using h1, by omega, h2.2⟩
      · rintro (h | ⟨i, u, h1, h2⟩)
        · exact ⟨0, t, rfl, h⟩
        · exact ⟨i + 1, u, by simpa using h1, by omega, h2.2⟩
    rw [hcons, ← ih]
    rw [members]
    split
    · rename_i hr
      simp [hr]
    · rename_i r hr
      rw [hr]
      split
      · rename_i hk
        simp only [List.mem_cons, Option.some.injEq]
        constructor
        · rintro (rfl | h)
          · exact .inl ⟨rfl, rfl, rfl, hk⟩
          · exact .inr h
        · rintro (⟨h1, h2, h3, -⟩ | h)
          · left
            ext1
            · exact h1
            · ext1
              · exact h2
              · exact h3.symm
          · exact .inr h
      · rename_i hk
        simp [hk]

theorem members_sorted (k : Nat) (ts : List GToken) (i0 : Nat) : (members k ts i0).Pairwise fun x y => x.1 < y.1 := by
  induction ts generalizing i0 with
  | nil => exact .nil
  | cons t ts ih =>
    rw [members]
    split
    · exact ih _
    · split
      · refine .cons ?_ (ih _)
        intro y hy
        obtain ⟨i, u, -, h, -⟩ := mem_members.1 hy
        show i0 < y.1
        omega
      · exact ih _

/-! ### Lexers of a parser -/

/-- The lexer of a group. -/
structure GroupLexer (re : List Nat → Option Matcher) (ts : List GToken) (k : Nat) (ms : List Matcher) : Prop where
  compiled : ((members k ts 0).map (·.2.2)).mapM re = some ms

/-- Types of the lexer of a group. -/
def groupTypes (ts : List GToken) (k : Nat) : List TokenType := (members k ts 0).map fun x => ⟨x.1, nameString x.2.1⟩

theorem newLexers_spec {re : List Nat → Option Matcher} {ts : List GToken} (hl : PlainLiterals ts) :
    ∃ r, newLexers re ts = some r ∧ (r = none ↔ ¬ AllValid re ts) ∧
      ∀ ls, r = some ls → ls.length = maxGroup ts + 1 ∧ ∀ k, k ≤ maxGroup ts →
        ∃ ms, GroupLexer re ts k ms ∧ ls[k]? = some (new (joinedRegexp ms) (groupTypes ts k)) := by
  have hgroup : ∀ t ∈ ts, t.re ≠ none → t.group < maxGroup ts + 1 := by
    intro t ht hr
    have : t.flags.literal = false := by
      cases hf : t.flags.literal with
      | false => rfl
      | true => exact absurd (hl t ht hf) hr
    have := maxGroup_ge ts t ht this
    omega
  obtain ⟨out, h1, h2, h3⟩ := lexerRecs_spec ts 0 (List.replicate (maxGroup ts + 1) {}) (by simpa using hgroup)
  rw [List.length_replicate] at h2
  have h4 : ∀ k, k ≤ maxGroup ts → out[k]? = some (recOf (members k ts 0)) := by
    intro k hk
    have := h3 k {} (by rw [List.getElem?_replicate, if_pos (by omega)])
    simpa using this
  obtain ⟨h5, h6⟩ := makeLexers_spec re out
  refine ⟨makeLexers re out, by rw [newLexers, h1]; rfl, ?_, ?_⟩
  · rw [h5]
    have hnone : ∀ (l : List (List Nat)), l.mapM re = none ↔ ∃ r ∈ l, re r = none := by
      intro l
      induction l with
      | nil => simp
      | cons r l ih =>
        rw [List.mapM_cons]
        cases hr : re r with
        | none => simp [hr]
        | some m =>
          cases hm : l.mapM re with
          | none =>
            obtain ⟨r', h7, h8⟩ := ih.1 hm
            simp only [Option.bind_eq_bind, Option.bind_some, Option.bind_none, true_iff]
            exact ⟨r', List.mem_cons_of_mem _ h7, h8⟩
          | some ms =>
            simp only [Option.bind_eq_bind, Option.bind_some, Option.pure_def, reduceCtorEq, false_iff]
            rintro ⟨r', h7, h8⟩
            rcases List.mem_cons.1 h7 with rfl | h7
            · rw [hr] at h8; cases h8
            · have := ih.2 ⟨r', h7, h8⟩
              rw [hm] at this; cases this
    constructor
    · rintro ⟨lr, hlr, hm⟩ hv
      obtain ⟨k, hk, rfl⟩ := List.getElem_of_mem hlr
      have h7 := h4 k (by omega)
      rw [List.getElem?_eq_getElem hk] at h7
      rw [Option.some.inj h7] at hm
      obtain ⟨r, hr, hr'⟩ := (hnone _).1 hm
      obtain ⟨x, hx, rfl⟩ := List.mem_map.1 hr
      obtain ⟨i, t, ht, -, -, hre, -⟩ := mem_members.1 hx
      have := hv t (List.mem_of_getElem? ht) _ hre
      rw [hr'] at this
      cases this
    · intro hv
      unfold AllValid at hv
      push Not at hv
      obtain ⟨t, ht, r, hr, hn⟩ := hv
      obtain ⟨i, hi⟩ := List.mem_iff_getElem?.1 ht
      have hg := hgroup t ht (by simp [hr])
      refine ⟨_, List.mem_of_getElem? (h4 t.group (by omega)), (hnone _).2 ⟨r, ?_, by simpa using hn⟩⟩
      exact List.mem_map.2 ⟨(i, t.name, r), mem_members.2 ⟨i, t, hi, by simp, rfl, hr, rfl⟩, rfl⟩
  · intro ls hls
    obtain ⟨h7, h8⟩ := h6 ls hls
    refine ⟨by omega, fun k hk => ?_⟩
    obtain ⟨ms, h9, h10⟩ := h8 k _ (h4 k hk)
    exact ⟨ms, ⟨h9⟩, h10⟩

theorem mapM_forall₂ {re : List Nat → Option Matcher} {l : List (List Nat)} {ms : List Matcher} (h : l.mapM re = some ms) :
    List.Forall₂ (fun r m => re r = some m) l ms := by
  induction l generalizing ms with
  | nil => simp at h; subst h; exact .nil
  | cons r l ih =>
    rw [List.mapM_cons] at h
    cases hr : re r with
    | none => simp [hr] at h
    | some m =>
      cases hm : l.mapM re with
      | none => simp [hr, hm] at h
      | some ms' =>
        simp [hr, hm] at h
        subst h
        exact .cons hr (ih hm)

/-- Matchers of a group are those of its types. -/
theorem GroupLexer.at {re : List Nat → Option Matcher} {ts : List GToken} {k : Nat} {ms : List Matcher}
    (h : GroupLexer re ts k ms) : ms.length = (members k ts 0).length ∧
      ∀ (j : Nat) (m : Matcher), ms[j]? = some m → ∃ x, (members k ts 0)[j]? = some x ∧ re x.2.2 = some m := by
  have h1 := mapM_forall₂ h.compiled
  refine ⟨by simpa using h1.length_eq.symm, fun j m hj => ?_⟩
  obtain ⟨hlt, rfl⟩ := List.getElem?_eq_some_iff.1 hj
  have hlen : j < (members k ts 0).length := by have := h1.length_eq; simp at this; omega
  refine ⟨_, List.getElem?_eq_getElem hlen, ?_⟩
  have := h1.get (by simpa using hlen) hlt
  simpa using this

theorem GroupLexer.bounded {re : List Nat → Option Matcher} (hre : MatchersOk re) {ts : List GToken} {k : Nat} {ms : List Matcher}
    (h : GroupLexer re ts k ms) : ∀ m ∈ ms, ∀ text n, m text = some n → n ≤ text.length := by
  intro m hm
  obtain ⟨j, hj⟩ := List.mem_iff_getElem?.1 hm
  obtain ⟨x, -, hx⟩ := h.at.2 j m hj
  exact hre _ m hx

theorem members_at {k : Nat} {ts : List GToken} {j : Nat} {x : Nat × List Nat × List Nat} (h : (members k ts 0)[j]? = some x) :
    ∃ t, ts[x.1]? = some t ∧ x.2.1 = t.name ∧ t.re = some x.2.2 ∧ t.group = k := by
  obtain ⟨i, t, h1, h2, h3⟩ := mem_members.1 (List.mem_of_getElem? h)
  rw [show x.1 = i by omega]
  exact ⟨t, h1, h3⟩

/-- The first alternative that matches is the first type of the group that matches. -/
theorem GroupLexer.first {re : List Nat → Option Matcher} {ts : List GToken} {k : Nat} {ms : List Matcher}
    (h : GroupLexer re ts k ms) {text : List Nat} {i n : Nat} :
    FirstOf re ts k text i n ↔ ∃ j x, firstAlternative ms text 0 = some (j, n) ∧ (members k ts 0)[j]? = some x ∧ x.1 = i := by
  obtain ⟨hlen, hat⟩ := h.at
  have hsort := members_sorted k ts 0
  constructor
  · rintro ⟨⟨t, r, h1, h2, h3⟩, ⟨t', r', m, h4, h5, h6, h7⟩, h8⟩
    rw [h1] at h4; cases h4
    rw [h2] at h5; cases h5
    have hmem : (i, t.name, r) ∈ members k ts 0 := mem_members.2 ⟨i, t, h1, by simp, rfl, h2, h3⟩
    obtain ⟨j, hj, hx⟩ := List.getElem_of_mem hmem
    have hjm : j < ms.length := by omega
    obtain ⟨x, hx1, hx2⟩ := hat j _ (List.getElem?_eq_getElem hjm)
    rw [List.getElem?_eq_getElem hj, hx] at hx1
    cases hx1
    have hm : ms[j]? = some m := by
      rw [List.getElem?_eq_getElem hjm, ← hx2]
      exact h6
    suffices ho : ∀ (j' : Nat) (m' : Matcher), j' < j → ms[j']? = some m' → m' text = none by
      exact ⟨j, _, by rw [firstAlternative_some (k0 := 0) hm h7 ho, Nat.zero_add], by rw [List.getElem?_eq_getElem hj, hx], rfl⟩
    intro j' m' hlt hm'
    obtain ⟨y, hy1, hy2⟩ := hat j' m' hm'
    obtain ⟨u, hu1, hu2, hu3, hu4⟩ := members_at hy1
    have hlt' : y.1 < i := by
      have hj' : j' < (members k ts 0).length := by omega
      have := (List.pairwise_iff_getElem.1 hsort) j' j hj' hj hlt
      rw [hx] at this
      rw [List.getElem?_eq_getElem hj'] at hy1
      cases hy1
      exact this
    cases hn : m' text with
    | none => rfl
    | some n' => exact absurd ⟨u, _, m', hu1, hu3, hy2, hn⟩ (h8 y.1 hlt' ⟨u, _, hu1, hu3, hu4⟩ n')
  · rintro ⟨j, x, hf, hx, rfl⟩
    obtain ⟨j', m, hj', hm, hn, ho⟩ := firstAlternative_spec hf
    rw [Nat.zero_add] at hj'
    subst hj'
    obtain ⟨x', hx1, hx2⟩ := hat j m hm
    rw [hx] at hx1; cases hx1
    obtain ⟨t, ht, -, hr, hg⟩ := members_at hx
    refine ⟨⟨t, _, ht, hr, hg⟩, ⟨t, _, m, ht, hr, hx2, hn⟩, ?_⟩
    rintro i hi ⟨u, r, hu1, hu2, hu3⟩ n' ⟨u', r', m', hu4, hu5, hu6, hu7⟩
    rw [hu1] at hu4; cases hu4
    rw [hu2] at hu5; cases hu5
    have hmem : (i, u.name, r) ∈ members k ts 0 := mem_members.2 ⟨i, u, hu1, by simp, rfl, hu2, hu3⟩
    obtain ⟨j1, hj1, hy⟩ := List.getElem_of_mem hmem
    have hjj : j1 < j := by
      obtain ⟨hj2, rfl⟩ := List.getElem?_eq_some_iff.1 hx
      by_contra hge
      rcases Nat.lt_or_ge j j1 with h1 | h1
      · have := (List.pairwise_iff_getElem.1 hsort) j j1 hj2 hj1 h1
        rw [hy] at this
        simp at this
        omega
      · have : j1 = j := by omega
        subst this
        rw [hy] at hi
        simp at hi
    have hjm : j1 < ms.length := by omega
    obtain ⟨y, hy1, hy2⟩ := hat j1 _ (List.getElem?_eq_getElem hjm)
    rw [List.getElem?_eq_getElem hj1, hy] at hy1
    cases hy1
    have := ho j1 _ hjj (List.getElem?_eq_getElem hjm)
    rw [show ms[j1] = m' by rw [hu6] at hy2; exact (Option.some.inj hy2).symm, hu7] at this
    cases this

theorem groupTypes_at {ts : List GToken} {k j : Nat} {x : Nat × List Nat × List Nat} (h : (members k ts 0)[j]? = some x) :
    groupType (groupTypes ts k) j = if x.1 < 64 then some (x.1, nameString x.2.1) else none := by
  unfold groupType groupTypes
  rw [List.getElem?_map, h]
  simp only [Option.map_some]
  by_cases hx : x.1 < 64
  · rw [if_pos (by omega), if_pos hx]; simp
  · rw [if_neg (by omega), if_neg hx]

/-- One group at an offset of a source. -/
theorem group_call {re : List Nat → Option Matcher} (hre : MatchersOk re) {ts : List GToken} {k : Nat} {ms : List Matcher}
    (hg : GroupLexer re ts k ms) (tts : TokenTypeSet) {q : SrcQueue} {src : Src} {p : Nat} {rest : SrcList.State Src}
    (h : Holds q ((src, p) :: rest)) (hp : p < src.content.length) (fuel : Nat) (hf : src.content.length - p < fuel) :
    ∃ q' r, (new (joinedRegexp ms) (groupTypes ts k)).nextOf fuel q tts = .done (q', r) ∧
      ((∃ i n t, Gives re ts tts k (src.content.drop p) i n ∧ ts[i]? = some t ∧
          r = .ok (some ⟨i, nameString t.name, (src.content.drop p).take n, ⟨some src, (p : Nat)⟩⟩) ∧
          Holds q' ((src, p + n) :: rest)) ∨
        ((∀ t, r ≠ .ok (some t)) ∧ Holds q' ((src, p) :: rest) ∧ (∀ i n, ¬ Gives re ts tts k (src.content.drop p) i n) ∧
          (∀ e, r = .error e → e.sourceName = src.name ∧ (e.line, e.col) = src.lineCol p ∧ (TypesFit ts → e.code = 101)) ∧
          (r = .ok none → TypesFit ts → tts = allTokenTypes → ∀ i, ¬ InGroup ts k i))) := by
  obtain ⟨q', r, h1, h2⟩ := joined_call (hg.bounded hre) (groupTypes ts k) tts h hp fuel hf
  obtain ⟨hlen, hat⟩ := hg.at
  refine ⟨q', r, h1, ?_⟩
  rcases h2 with ⟨j, n, i, name, h3, h4, h5, h6, h7, h8⟩ | ⟨h3, h4, h5, h6, h7⟩
  · left
    obtain ⟨j', m, hj', hm, -, -⟩ := firstAlternative_spec h3
    rw [Nat.zero_add] at hj'
    subst hj'
    obtain ⟨x, hx, -⟩ := hat j m hm
    rw [groupTypes_at hx] at h5
    split at h5
    · cases h5
      obtain ⟨t, ht, hname, -, -⟩ := members_at hx
      exact ⟨x.1, n, t, ⟨hg.first.2 ⟨j, x, h3, hx, rfl⟩, h4, h6⟩, ht, by rw [← hname]; exact h7, h8⟩
    · cases h5
  · right
    refine ⟨h3, h4, ?_, ?_, ?_⟩
    · rintro i n ⟨hfirst, hn, hreq⟩
      obtain ⟨j, x, h8, h9, rfl⟩ := hg.first.1 hfirst
      have hlt : x.1 < 64 := by
        by_contra hge
        rw [BitVec.getLsbD_of_ge _ _ (by omega)] at hreq
        cases hreq
      exact h5 j n (x.1, nameString x.2.1) h8 hn (by rw [groupTypes_at h9, if_pos hlt]) hreq
    · intro e he
      obtain ⟨h8, h9, h10⟩ := h6 e he
      refine ⟨h8, h9, fun hfit => ?_⟩
      rcases h10 with h10 | ⟨j, n, -, h11, h12⟩
      · exact h10
      · obtain ⟨x, hx, -⟩ := hat j _ (List.getElem?_eq_getElem h12)
        obtain ⟨t, ht, -, hr, -⟩ := members_at hx
        rw [groupTypes_at hx, if_pos (hfit x.1 t ht (by simp [hr]))] at h11
        cases h11
    · rintro hr hfit rfl i ⟨t, r', h8, h9, h10⟩
      have hreq : ∀ n, n < 64 → Requested allTokenTypes n := by
        intro n hn
        unfold Requested allTokenTypes
        rw [BitVec.getLsbD_allOnes]
        exact decide_eq_true hn
      rcases h7 hr with h11 | ⟨j, n, u, -, h12, h13⟩
      · obtain ⟨j, hj⟩ := List.mem_iff_getElem?.1 (mem_members.2 ⟨i, t, h8, by simp, rfl, h9, h10⟩ : (i, t.name, r') ∈ members k ts 0)
        have hi := hfit i t h8 (by simp [h9])
        exact h11 j (i, nameString t.name) (by rw [groupTypes_at hj, if_pos hi]) (hreq i hi)
      · exact h13 (hreq _ (groupType_lt h12).1)

/-- All groups starting from some one at an offset of a source. -/
theorem groups_fetch {re : List Nat → Option Matcher} (hre : MatchersOk re) {ts : List GToken} (tts : TokenTypeSet)
    {src : Src} {p : Nat} {rest : SrcList.State Src} (hp : p < src.content.length) (fuel : Nat) (hf : src.content.length - p < fuel)
    (ls : List Lexer) (k0 : Nat)
    (hls : ∀ (k : Nat) (l : Lexer), ls[k]? = some l → ∃ ms, GroupLexer re ts (k0 + k) ms ∧ l = new (joinedRegexp ms) (groupTypes ts (k0 + k)))
    {q : SrcQueue} (h : Holds q ((src, p) :: rest)) (fe : Option LlxError)
    (hfe : ∀ e, fe = some e → e.sourceName = src.name ∧ (e.line, e.col) = src.lineCol p ∧ (TypesFit ts → e.code = 101)) :
    ∃ q' r, fetchLoop tts fuel ls q fe = .done (q', r) ∧
      ((∃ k i n t, k < ls.length ∧ (∀ k' < k, ∀ i' n', ¬ Gives re ts tts (k0 + k') (src.content.drop p) i' n') ∧
          Gives re ts tts (k0 + k) (src.content.drop p) i n ∧ ts[i]? = some t ∧
          r = .ok (some ⟨i, nameString t.name, (src.content.drop p).take n, ⟨some src, (p : Nat)⟩⟩) ∧
          Holds q' ((src, p + n) :: rest)) ∨
        ((∀ k < ls.length, ∀ i n, ¬ Gives re ts tts (k0 + k) (src.content.drop p) i n) ∧ Holds q' ((src, p) :: rest) ∧
          (tts ≠ allTokenTypes → r = .ok none) ∧
          (tts = allTokenTypes →
            (r = .ok none ∧ fe = none ∧ (TypesFit ts → ∀ k < ls.length, ∀ i, ¬ InGroup ts (k0 + k) i)) ∨
            ∃ e, r = .error (.lexer e) ∧ e.sourceName = src.name ∧ (e.line, e.col) = src.lineCol p ∧ (TypesFit ts → e.code = 101)))) := by
  induction ls generalizing k0 q fe with
  | nil =>
    cases fe with
    | none => exact ⟨q, .ok none, rfl, .inr ⟨by simp, h, fun _ => rfl, fun _ => .inl ⟨rfl, rfl, by simp⟩⟩⟩
    | some e =>
      by_cases ht : tts = allTokenTypes
      · refine ⟨q, _, by rw [fetchLoop]; exact if_pos ht, .inr ⟨by simp, h, fun hn => absurd ht hn, fun _ => .inr ⟨e, rfl, hfe e rfl⟩⟩⟩
      · exact ⟨q, _, by rw [fetchLoop]; exact if_neg ht, .inr ⟨by simp, h, fun _ => rfl, fun hn => absurd hn ht⟩⟩
  | cons l ls ih =>
    obtain ⟨ms, hms, rfl⟩ := hls 0 l rfl
    rw [Nat.add_zero] at hms
    obtain ⟨q1, r1, h1, h2⟩ := group_call hre hms tts h hp fuel hf
    have hls' : ∀ (k : Nat) (l : Lexer), ls[k]? = some l → ∃ ms, GroupLexer re ts (k0 + 1 + k) ms ∧ l = new (joinedRegexp ms) (groupTypes ts (k0 + 1 + k)) := by
      intro k l hk
      have := hls (k + 1) l (by simpa using hk)
      rwa [show k0 + (k + 1) = k0 + 1 + k by omega] at this
    rw [Nat.add_zero]
    simp only [fetchLoop, h1, bindRun]
    rcases h2 with ⟨i, n, t, h3, h4, rfl, h5⟩ | ⟨h3, h4, h5, h6, h7⟩
    · exact ⟨q1, _, rfl, .inl ⟨0, i, n, t, by simp, by omega, h3, h4, rfl, h5⟩⟩
    · have key : ∀ fe', (∀ e, fe' = some e → e.sourceName = src.name ∧ (e.line, e.col) = src.lineCol p ∧ (TypesFit ts → e.code = 101)) →
          (fe' = none → fe = none ∧ r1 = .ok none) →
          ∃ q' r, fetchLoop tts fuel ls q1 fe' = .done (q', r) ∧
            ((∃ k i n t, k < (new (joinedRegexp ms) (groupTypes ts k0) :: ls).length ∧
                (∀ k' < k, ∀ i' n', ¬ Gives re ts tts (k0 + k') (src.content.drop p) i' n') ∧
                Gives re ts tts (k0 + k) (src.content.drop p) i n ∧ ts[i]? = some t ∧
                r = .ok (some ⟨i, nameString t.name, (src.content.drop p).take n, ⟨some src, (p : Nat)⟩⟩) ∧
                Holds q' ((src, p + n) :: rest)) ∨
              ((∀ k < (new (joinedRegexp ms) (groupTypes ts k0) :: ls).length, ∀ i n, ¬ Gives re ts tts (k0 + k) (src.content.drop p) i n) ∧
                Holds q' ((src, p) :: rest) ∧ (tts ≠ allTokenTypes → r = .ok none) ∧
                (tts = allTokenTypes →
                  (r = .ok none ∧ fe = none ∧
                    (TypesFit ts → ∀ k < (new (joinedRegexp ms) (groupTypes ts k0) :: ls).length, ∀ i, ¬ InGroup ts (k0 + k) i)) ∨
                  ∃ e, r = .error (.lexer e) ∧ e.sourceName = src.name ∧ (e.line, e.col) = src.lineCol p ∧ (TypesFit ts → e.code = 101)))) := by
        intro fe' hfe' hnone
        obtain ⟨q', r, h8, h9⟩ := ih (k0 + 1) hls' h4 fe' hfe'
        refine ⟨q', r, h8, ?_⟩
        rcases h9 with ⟨k, i, n, t, h10, h11, h12, h13, h14, h15⟩ | ⟨h10, h11, h12, h13⟩
        · refine .inl ⟨k + 1, i, n, t, by simpa using h10, ?_, by rwa [show k0 + (k + 1) = k0 + 1 + k by omega], h13, h14, h15⟩
          rintro (_ | k') hk'
          · exact h5
          · rw [show k0 + (k' + 1) = k0 + 1 + k' by omega]
            exact h11 k' (by omega)
        · refine .inr ⟨?_, h11, h12, fun ht => ?_⟩
          · rintro (_ | k') hk'
            · exact h5
            · rw [show k0 + (k' + 1) = k0 + 1 + k' by omega]
              exact h10 k' (by simpa using hk')
          · rcases h13 ht with ⟨h14, h15, h16⟩ | h14
            · obtain ⟨h17, h18⟩ := hnone h15
              refine .inl ⟨h14, h17, fun hfit => ?_⟩
              rintro (_ | k') hk'
              · exact h7 h18 hfit ht
              · rw [show k0 + (k' + 1) = k0 + 1 + k' by omega]
                exact h16 hfit k' (by simpa using hk')
            · exact .inr h14
      rcases r1 with e | (_ | t)
      · cases fe with
        | none => exact key _ (by rintro e' ⟨rfl⟩; exact h6 e rfl) (by simp)
        | some e0 => exact key _ (by rintro e' ⟨rfl⟩; exact hfe e0 rfl) (by simp)
      · exact key fe hfe (fun hn => ⟨hn, rfl⟩)
      · exact absurd rfl (h3 t)

end Verif.Proof
