/-
The configuration editor: how texts of lines are cut into tokens.
-/
import Verif.Proof.ConfLines
import Verif.Proof.ScanGroups
import Verif.Props.ConfSamples

namespace Verif.Proof.Conf

open Verif Verif.Model Verif.Model.ConfEdit Verif.Spec Verif.Spec.Conf Verif.Props Verif.Props.Conf Verif.Proof
open Verif.Props.Style (run startRun isLetter isDigit)

/-- Expressions mean what they should. -/
def SameMatchers (re : List Nat → Option Matcher) : Prop := ∀ t ∈ tokens, ∀ r, t.re = some r → re r = confRe r

/-- Matchers of token types. -/
def confMatch : Nat → Matcher
  | 0 => run (fun c => c = 32 ∨ c = 9) 1
  | 1 => commentMatch
  | 2 => startRun (· = 10) fun _ => false
  | 3 => nameMatch [46, 45]
  | 4 => nameMatch [45]
  | 5 => startRun (fun c => c ∈ [91, 93, 61]) fun _ => false
  | 6 => startRun isVisible fun c => c ∉ [10, 35]
  | _ => fun _ => none

/-- The first byte of a token. -/
def firstByte (i c : Nat) : Prop :=
  match i with
  | 0 => c = 32 ∨ c = 9
  | 1 => c = 35
  | 2 => c = 10
  | 3 => isLetter c = true
  | 4 => isLetter c = true
  | 5 => c = 91 ∨ c = 93 ∨ c = 61
  | 6 => isVisible c = true
  | _ => False

/-- Groups of types. -/
def groupAt (i : Nat) : Nat := [0, 0, 0, 2, 0, 0, 1].getD i 0

theorem match_first {i c n : Nat} {s : List Nat} (h : confMatch i (c :: s) = some n) : firstByte i c := by
  match i, h with
  | 0, h =>
    simp only [confMatch, run] at h
    split at h
    · rename_i hl
      rw [List.takeWhile_cons] at hl
      split at hl
      · rename_i hc; simpa [firstByte] using hc
      · simp at hl
    · cases h
  | 1, h => simp only [confMatch, commentMatch] at h; split at h <;> simp_all [firstByte]
  | 2, h => simp only [confMatch, startRun] at h; split at h <;> simp_all [firstByte]
  | 3, h => simp only [confMatch, nameMatch] at h; split at h <;> simp_all [firstByte]
  | 4, h => simp only [confMatch, nameMatch] at h; split at h <;> simp_all [firstByte]
  | 5, h => simp only [confMatch, startRun] at h; split at h <;> simp_all [firstByte]
  | 6, h => simp only [confMatch, startRun] at h; split at h <;> simp_all [firstByte]
  | i + 7, h => simp [confMatch] at h

theorem type_matches {re : List Nat → Option Matcher} (hs : SameMatchers re) {i n : Nat} {text : List Nat} :
    TypeMatches re tokens i text n ↔ i < 7 ∧ confMatch i text = some n := by
  constructor
  · rintro ⟨t, r, m, h1, h2, h3, h4⟩
    have ht := List.mem_of_getElem? h1
    rw [hs t ht r h2] at h3
    match i, h1 with
    | 0, h1 | 1, h1 | 2, h1 | 3, h1 | 4, h1 | 5, h1 | 6, h1 =>
      cases h1; cases h2
      have e := Option.some.inj h3
      rw [← e] at h4
      exact ⟨by omega, h4⟩
    | 7, h1 | 8, h1 | 9, h1 => cases h1; cases h2
    | i + 10, h1 => simp [tokens] at h1
  · rintro ⟨hi, h⟩
    have key : ∀ t r, tokens[i]? = some t → t.re = some r → confRe r = some (confMatch i) → TypeMatches re tokens i text n :=
      fun t r h1 h2 h3 => ⟨t, r, _, h1, h2, (hs t (List.mem_of_getElem? h1) r h2).trans h3, h⟩
    match i, hi with
    | 0, _ | 1, _ | 2, _ | 3, _ | 4, _ | 5, _ | 6, _ => exact key _ _ rfl rfl rfl

theorem in_group {k i : Nat} : InGroup tokens k i ↔ i < 7 ∧ k = groupAt i := by
  constructor
  · rintro ⟨t, r, h1, h2, h3⟩
    match i, h1 with
    | 0, h1 | 1, h1 | 2, h1 | 3, h1 | 4, h1 | 5, h1 | 6, h1 => cases h1; exact ⟨by omega, h3.symm⟩
    | 7, h1 | 8, h1 | 9, h1 => cases h1; cases h2
    | i + 10, h1 => simp [tokens] at h1
  · rintro ⟨hi, rfl⟩
    match i, hi with
    | 0, _ | 1, _ | 2, _ | 3, _ | 4, _ | 5, _ | 6, _ => exact ⟨_, _, rfl, rfl, rfl⟩

variable {re : List Nat → Option Matcher} {upper : List Nat → List Nat} {src : Src}

/-- One token is cut. -/
theorem cut_token (hs : SameMatchers re) {p i c : Nat} {x rest : List Nat} {toks : List Token} {F : TokenTypeSet → List Token → Prop}
    {l : SrcList.State Src} (ht : src.content.drop p = (c :: x) ++ rest) (hi : i < 7) (hm : confMatch i ((c :: x) ++ rest) = some (c :: x).length)
    (hfirst : ∀ j < i, groupAt j = groupAt i → ¬ firstByte j c)
    (hF : ∀ types, F types (⟨(i : Int), tokenName i, c :: x, ⟨some src, (p : Nat)⟩⟩ :: toks) → ∀ j < 7, j ≠ i → types.getLsbD j = true → firstByte j c →
      types.getLsbD i = true ∧ groupAt i < groupAt j)
    (h : CutsFor re tokens F [(src, p + (c :: x).length)] toks l) :
    CutsFor re tokens F [(src, p)] (⟨(i : Int), tokenName i, c :: x, ⟨some src, (p : Nat)⟩⟩ :: toks) l := by
  obtain ⟨t, h1, h2⟩ : ∃ t, tokens[i]? = some t ∧ nameString t.name = tokenName i := by
    have key : ∀ i < 7, (tokens[i]?).any (fun t => decide (nameString t.name = tokenName i)) = true := by decide +kernel
    have := key i hi
    cases he : tokens[i]? with
    | none => rw [he] at this; cases this
    | some t => rw [he] at this; exact ⟨t, rfl, by simpa using this⟩
  have hp : p < src.content.length := by
    by_contra hc
    rw [List.drop_eq_nil_of_le (by omega)] at ht
    simp at ht
  have htake : (src.content.drop p).take (c :: x).length = c :: x := by rw [ht]; exact List.take_left' rfl
  have hmatch : TypeMatches re tokens i (src.content.drop p) (c :: x).length := by rw [ht]; exact (type_matches hs).2 ⟨hi, hm⟩
  have hother : ∀ {j n}, TypeMatches re tokens j (src.content.drop p) n → j < 7 ∧ firstByte j c := by
    intro j n hj
    rw [ht] at hj
    obtain ⟨h3, h4⟩ := (type_matches hs).1 hj
    exact ⟨h3, match_first (s := x ++ rest) h4⟩
  have hfo : FirstOf re tokens (groupAt i) (src.content.drop p) i (c :: x).length := by
    refine ⟨in_group.2 ⟨hi, rfl⟩, hmatch, fun j hj hin n hn => ?_⟩
    exact hfirst j hj (in_group.1 hin).2.symm (hother hn).2
  have := CutsFor.tok (re := re) (ts := tokens) (F := F) (src := src) (p := p) (k := groupAt i) (i := i) (n := (c :: x).length) (t := t) (rest := []) (l := l)
    (toks := toks) hp hfo (by simp) h1
  rw [h2, htake] at this
  refine this (fun types ht => ?_) h
  split
  · rename_i hb
    refine ⟨groupAt i, ⟨hfo, by simp, hb⟩, fun k' hk i' n' ⟨⟨hin, hma, _⟩, _, hr⟩ => ?_⟩
    obtain ⟨-, rfl⟩ := in_group.1 hin
    obtain ⟨h3, h4⟩ := hother hma
    have := (hF types ht i' h3 (by rintro rfl; omega) hr h4).2
    omega
  · rename_i hb
    rintro i' n' ⟨k', ⟨⟨hin, hma, -⟩, -, hr⟩, -⟩
    obtain ⟨h3, h4⟩ := hother hma
    by_cases e : i' = i
    · exact hb (e ▸ hr)
    · exact hb (hF types ht i' h3 e hr h4).1

/-! Requested types -/

theorem state_types {s : Nat} {gs : GState} (h : grammar.tables.states[s]? = some gs) :
    gs.types.getLsbD 0 = true ∧ gs.types.getLsbD 1 = true ∧ (s ≠ 8 → s ≠ 12 → gs.types.getLsbD 3 = false ∧ gs.types.getLsbD 6 = false) ∧
      (s = 8 → gs.types = 71) ∧ (s = 12 → gs.types = 11) := by
  have hs : s < 15 := by simpa [grammar] using (List.getElem?_eq_some_iff.mp h).1
  have key : ∀ s < 15, (grammar.tables.states[s]?).all (fun gs => decide (gs.types.getLsbD 0 = true ∧ gs.types.getLsbD 1 = true ∧
    (s ≠ 8 → s ≠ 12 → gs.types.getLsbD 3 = false ∧ gs.types.getLsbD 6 = false) ∧ (s = 8 → gs.types = 71) ∧ (s = 12 → gs.types = 11))) = true := by
    decide +kernel
  have := key s hs
  rw [h] at this
  simpa only [Option.all_some, decide_eq_true_eq] using this

theorem literal_of {t : Token} {i k : Nat} (ht : t.type = (i : Int)) (hi : i < 7) (h : IsLiteral grammar upper t k) :
    i = 5 ∧ (t.content = [61] ∧ k = 7 ∨ t.content = [91] ∧ k = 8 ∨ t.content = [93] ∧ k = 9) := by
  obtain ⟨-, tt, lt, h1, h2, h3, h4, h5⟩ := h
  rw [ht, Int.toNat_natCast] at h1
  match i, hi, h1 with
  | 5, _, h1 =>
    cases h1
    match k, h3 with
    | 7, h3 => cases h3; exact ⟨rfl, .inl ⟨h5.symm, rfl⟩⟩
    | 8, h3 => cases h3; exact ⟨rfl, .inr (.inl ⟨h5.symm, rfl⟩)⟩
    | 9, h3 => cases h3; exact ⟨rfl, .inr (.inr ⟨h5.symm, rfl⟩)⟩
    | 0, h3 | 1, h3 | 2, h3 | 3, h3 | 4, h3 | 5, h3 | 6, h3 => cases h3; cases h4
    | k + 10, h3 => simp [grammar, tokens] at h3
  | 0, _, h1 | 1, _, h1 | 2, _, h1 | 3, _, h1 | 4, _, h1 | 6, _, h1 => cases h1; cases h2

theorem side_of {i : Nat} (hi : i < 7) : grammar.isSideType (i : Int) = decide (i < 2) := by
  have key : ∀ i : Nat, i < 7 → grammar.isSideType (i : Int) = decide (i < 2) := by decide +kernel
  exact key i hi

/-- What may be requested when the token is next. -/
theorem requested_state {t : Token} {toks : List Token} {i : Nat} (ht : t.type = (i : Int)) (hi : i < 7) {types : TokenTypeSet}
    (h : Requested grammar upper comesIn false types (t :: toks)) :
    ∃ (s : Nat) (gs : GState), grammar.tables.states[s]? = some gs ∧ gs.types = types ∧
      (i = 3 → s = 12) ∧ (i = 6 → s = 8) ∧ (i = 4 ∨ i = 5 → s ≠ 8 ∧ s ≠ 12) := by
  rcases h with ⟨s, gs, k, h1, h2, h3, h4⟩ | ⟨h, -⟩
  · refine ⟨s, gs, h1, h2, ?_⟩
    by_cases hside : i < 2
    · exact ⟨by omega, by omega, by omega⟩
    · cases h4 with
      | side h5 =>
        rcases h5 with h5 | h5
        · rw [ht] at h5; simp only [eofTokenType] at h5; omega
        · rw [ht, side_of hi] at h5; simp at h5; omega
      | @tok _ _ k hk _ =>
        obtain ⟨c1, c2, c3⟩ := h3
        rcases hk with hk | ⟨hk, -⟩
        · obtain ⟨rfl, hk⟩ := literal_of ht hi hk
          have : k = 7 ∨ k = 8 ∨ k = 9 := by rcases hk with h | h | h <;> simp [h]
          exact ⟨by omega, by omega, fun _ => c3 (by omega)⟩
        · rw [ht] at hk
          have hk := Int.natCast_inj.mp hk
          subst hk
          exact ⟨fun e => c2 (by omega), fun e => c1 (by omega), fun e => c3 (by omega)⟩
  · cases h

/-! Matches -/

/-- The text does not begin with such bytes. -/
def Stops (p : Nat → Bool) (rest : List Nat) : Prop := ∀ c r, rest = c :: r → p c = false

theorem takeWhile_stop {p : Nat → Bool} {a rest : List Nat} (ha : ∀ c ∈ a, p c = true) (hr : Stops p rest) : (a ++ rest).takeWhile p = a := by
  induction a with
  | nil =>
    cases rest with
    | nil => rfl
    | cons c r => rw [List.nil_append, List.takeWhile_cons, hr c r rfl]; rfl
  | cons c a ih =>
    rw [List.cons_append, List.takeWhile_cons, ha c (by simp), if_pos rfl, ih fun c hc => ha c (by simp [hc])]

theorem letter_iff {c : Nat} : isLetter c = true ↔ Letter c := by simp [isLetter, Letter]

theorem digit_iff {c : Nat} : isDigit c = true ↔ Digit c := by simp [isDigit, Digit]

theorem tail_word {seps s t : List Nat} (h : ∀ d ∈ s, Letter d ∨ Digit d) : nameTail seps (s ++ t) = s.length + nameTail seps t := by
  induction s with
  | nil => simp
  | cons d s ih =>
    have hd : (isLetter d || isDigit d) = true := by
      rw [Bool.or_eq_true, letter_iff, digit_iff]; exact h d (by simp)
    rw [List.cons_append, nameTail.eq_def]
    simp only [hd, if_true]
    rw [ih fun d hd => h d (by simp [hd]), List.length_cons]
    omega

theorem tail_stop {seps rest : List Nat} (h : Stops (fun c => isLetter c || isDigit c || seps.contains c) rest) : nameTail seps rest = 0 := by
  match rest with
  | [] => rfl
  | [c] =>
    have := h c [] rfl
    simp only [Bool.or_eq_false_iff] at this
    simp [nameTail, this]
  | c :: d :: s =>
    have := h c (d :: s) rfl
    simp only [Bool.or_eq_false_iff] at this
    have hc : c ∉ seps := by simpa using this.2
    simp [nameTail, this.1.1, this.1.2, hc]

theorem name_tail {seps n rest : List Nat} (hn : Name seps n) (hseps : ∀ c ∈ seps, isLetter c = false ∧ isDigit c = false)
    (h : Stops (fun c => isLetter c || isDigit c || seps.contains c) rest) :
    ∃ d s, n = d :: s ∧ Letter d ∧ nameTail seps (s ++ rest) = s.length := by
  induction hn with
  | word hw =>
    obtain ⟨c, s, rfl, h1, h2⟩ := hw
    exact ⟨c, s, rfl, h1, by rw [tail_word h2, tail_stop h]; rfl⟩
  | @join w n c hw hc _ ih =>
    obtain ⟨c0, s, rfl, h1, h2⟩ := hw
    obtain ⟨d, s', rfl, h3, h4⟩ := ih
    refine ⟨c0, s ++ c :: d :: s', by simp, h1, ?_⟩
    obtain ⟨h5, h6⟩ := hseps c hc
    rw [List.append_assoc, tail_word h2, List.cons_append, List.cons_append, nameTail, if_neg (by rw [h5, h6]; simp), if_pos ⟨hc, letter_iff.2 h3⟩, h4]
    simp only [List.length_append, List.length_cons]
    omega

theorem name_match {seps n rest : List Nat} (hn : Name seps n) (hseps : ∀ c ∈ seps, isLetter c = false ∧ isDigit c = false)
    (h : Stops (fun c => isLetter c || isDigit c || seps.contains c) rest) :
    ∃ d s, n = d :: s ∧ Letter d ∧ nameMatch seps (n ++ rest) = some n.length := by
  obtain ⟨d, s, rfl, h1, h2⟩ := name_tail hn hseps h
  refine ⟨d, s, rfl, h1, ?_⟩
  rw [List.cons_append, nameMatch, if_pos (letter_iff.2 h1), h2, List.length_cons, Nat.add_comm]

/-! Tokens with keys -/

/-- What texts of tokens look like. -/
structure TokOk (t : Token) : Prop where
  noReturn : 13 ∉ t.content
  space : t.typeName = "space" → Spaces t.content
  comment : t.typeName = "comment" → CommentText t.content
  name : t.typeName = "name" → Name [45] t.content
  secName : t.typeName = "sec-name" → Name [46, 45] t.content
  value : t.typeName = "value" → ValueText t.content

/-- A comment is next, there may be spaces before it. -/
def CommentNext (toks : List Token) : Prop := ∃ a c b, toks = a ++ c :: b ∧ (∀ t ∈ a, t.typeName = "space") ∧ c.typeName = "comment"

/-- Comments come only after ends of lines. -/
def Flat (toks : List Token) : Prop := ∀ a t b, toks = a ++ t :: b → t.typeName ∉ ["space", "comment", "nl"] → ¬ CommentNext b

/-- The rest of the text is cut into tokens with these keys. If `plain` then comments come only after ends of lines; if `quiet` then a comment is
not next. -/
def CutAs (re : List Nat → Option Matcher) (upper : List Nat → List Nat) (src : Src) (plain quiet : Prop) (p : Nat) (ks : List (Token × Nat)) : Prop :=
  ∃ toks, CutsFor re tokens (Requested grammar upper comesIn false) [(src, p)] toks [] ∧
    KeyedBy (Readable grammar upper (tableOf grammar) alsoSign) (Spec.Passed grammar) toks ks ∧ (∀ t ∈ toks, TokOk t) ∧ (plain → Flat toks) ∧
    (quiet → ¬ CommentNext toks)

theorem commentNext_cons {t : Token} {toks : List Token} (h : CommentNext (t :: toks)) :
    t.typeName = "comment" ∨ t.typeName = "space" ∧ CommentNext toks := by
  obtain ⟨a, c, b, e, h1, h2⟩ := h
  cases a with
  | nil => cases e; exact .inl h2
  | cons x a =>
    cases e
    exact .inr ⟨h1 _ (by simp), a, c, b, rfl, fun t ht => h1 t (by simp [ht]), h2⟩

theorem flat_cons {t : Token} {toks : List Token} (h : Flat toks) (ht : t.typeName ∉ ["space", "comment", "nl"] → ¬ CommentNext toks) : Flat (t :: toks) := by
  intro a u b e hu
  cases a with
  | nil => cases e; exact ht hu
  | cons x a => cases e; exact h a u b rfl hu

theorem tokOk_eof : TokOk (endOf src) := by
  constructor <;> simp [endOf]

theorem cutAs_end {plain : Prop} : CutAs re upper src plain True src.content.length [] := by
  refine ⟨_, .eof .nil, .side (.inl rfl) .nil, by simpa using tokOk_eof, fun _ => flat_cons (fun a t b e => by simp at e) ?_, fun _ h => ?_⟩
  · rintro - ⟨a, c, b, e, -⟩
    simp at e
  · rcases commentNext_cons h with h | ⟨h, -⟩
    · exact absurd h (by simp [endOf])
    · exact absurd h (by simp [endOf])

theorem content_noReturn {p : Nat} {x rest : List Nat} (hr : 13 ∉ src.content) (ht : src.content.drop p = x ++ rest) : 13 ∉ x := by
  intro h
  exact hr (List.mem_of_mem_drop (i := p) (by rw [ht]; simp [h]))

theorem passed_side {t : Token} {i : Nat} (ht : t.type = (i : Int)) (hi : i < 2) : Spec.Passed grammar t := by
  refine .inr ⟨by rw [ht, side_of (by omega)]; simpa using hi, by omega, fun s gs hs => ?_⟩
  obtain ⟨h1, h2, -⟩ := state_types hs
  rw [ht, Int.toNat_natCast]
  match i, hi with
  | 0, _ => exact h1
  | 1, _ => exact h2

/-- Types and keys of tokens. -/
def TypeKey (i k : Nat) : Prop := i = 2 ∧ k = 2 ∨ i = 3 ∧ k = 3 ∨ i = 4 ∧ k = 4 ∨ i = 6 ∧ k = 6 ∨ i = 5 ∧ (k = 7 ∨ k = 8 ∨ k = 9)

theorem readable_token {t : Token} {i k : Nat} (ht : t.type = (i : Int)) (hk : TypeKey i k)
    (hc : i = 5 → t.content = [61] ∧ k = 7 ∨ t.content = [91] ∧ k = 8 ∨ t.content = [93] ∧ k = 9) :
    Readable grammar upper (tableOf grammar) alsoSign t k := by
  have hi : 2 ≤ i ∧ i < 7 := by unfold TypeKey at hk; omega
  have hres : ∀ j, IsLiteral grammar upper t j → ¬ IsReserved grammar j := by
    intro j hj ⟨lt, h1, h2⟩
    obtain ⟨-, h⟩ := literal_of ht hi.2 hj
    have hj : j = 7 ∨ j = 8 ∨ j = 9 := by rcases h with h | h | h <;> simp [h]
    rcases hj with rfl | rfl | rfl <;> (cases h1; cases h2)
  refine ⟨?_, fun k' hne hm => ?_, ?_, ?_, fun s gs hs hne => ?_⟩
  · by_cases h5 : i = 5
    · subst h5
      refine .inl ⟨by omega, tokens[5], ?_⟩
      rw [ht]
      rcases hc rfl with ⟨h1, rfl⟩ | ⟨h1, rfl⟩ | ⟨h1, rfl⟩
      · exact ⟨tokens[7], rfl, rfl, rfl, rfl, by rw [h1]; rfl⟩
      · exact ⟨tokens[8], rfl, rfl, rfl, rfl, by rw [h1]; rfl⟩
      · exact ⟨tokens[9], rfl, rfl, rfl, rfl, by rw [h1]; rfl⟩
    · have : i = k := by unfold TypeKey at hk; omega
      exact .inr ⟨by rw [ht, this], hres⟩
  · rcases hm with hm | ⟨hm, -⟩
    · obtain ⟨h5, h⟩ := literal_of ht hi.2 hm
      exfalso
      rcases hc h5 with ⟨h1, h2⟩ | ⟨h1, h2⟩ | ⟨h1, h2⟩ <;> rw [h1] at h <;> simp at h <;> omega
    · rw [ht] at hm
      have hm := Int.natCast_inj.mp hm
      unfold TypeKey at hk
      unfold alsoSign
      omega
  · rw [ht]
    have : grammar.tokens.length = 10 := rfl
    omega
  · rw [ht, side_of hi.2]
    simpa using hi.1
  · have hs15 : s < 15 := by simpa [grammar] using (List.getElem?_eq_some_iff.mp hs).1
    have key : ∀ s < 15, ∀ x ∈ [(2, 2), (3, 3), (4, 4), (6, 6), (5, 7), (5, 8), (5, 9)], (grammar.tables.states[s]?).all (fun gs =>
        decide (tableOf grammar s ((x.2 : Nat) : Int) ≠ [] → gs.types.getLsbD x.1 = true)) = true := by decide +kernel
    have h := key s hs15 (i, k) (by unfold TypeKey at hk; simp; omega)
    rw [hs] at h
    rw [ht, Int.toNat_natCast]
    have h : tableOf grammar s (k : Int) ≠ [] → gs.types.getLsbD i = true := by simpa only [Option.all_some, decide_eq_true_eq] using h
    exact h hne

/-- An ordinary token is added. -/
theorem add_token (hs : SameMatchers re) (hr : 13 ∉ src.content) {plain quiet : Prop} {p i k c : Nat} {x rest : List Nat} {ks : List (Token × Nat)}
    (ht : src.content.drop p = (c :: x) ++ rest)
    (hk : TypeKey i k) (hm : confMatch i ((c :: x) ++ rest) = some (c :: x).length)
    (hc : i = 5 → c :: x = [61] ∧ k = 7 ∨ c :: x = [91] ∧ k = 8 ∨ c :: x = [93] ∧ k = 9) (h35 : i = 6 → c ≠ 35)
    (hok : (i = 3 → Name [46, 45] (c :: x)) ∧ (i = 4 → Name [45] (c :: x)) ∧ (i = 6 → ValueText (c :: x)))
    (hq : plain → i ≠ 2 → quiet) (h : CutAs re upper src plain quiet (p + (c :: x).length) ks) :
    ∃ t : Token, tokOf t = ⟨tokenName i, c :: x⟩ ∧ CutAs re upper src plain True p ((t, k) :: ks) := by
  have hi : 2 ≤ i ∧ i < 7 := by unfold TypeKey at hk; omega
  have hb := match_first (s := x ++ rest) hm
  obtain ⟨toks, h1, h2, h3, h4, h5⟩ := h
  have hnames : ∀ i < 7, 2 ≤ i → tokenName i ≠ "space" ∧ tokenName i ≠ "comment" ∧ (tokenName i = "nl" ↔ i = 2) ∧ (tokenName i = "name" → i = 4) ∧
      (tokenName i = "sec-name" → i = 3) ∧ (tokenName i = "value" → i = 6) := by decide +kernel
  obtain ⟨n1, n2, n3, n4, n5, n6⟩ := hnames i hi.2 hi.1
  refine ⟨⟨(i : Int), tokenName i, c :: x, ⟨some src, (p : Nat)⟩⟩, rfl, _, cut_token hs ht hi.2 hm ?_ ?_ h1, .tok (readable_token rfl hk hc) h2,
    List.forall_mem_cons.mpr ⟨⟨content_noReturn hr ht, fun h => absurd h n1, fun h => absurd h n2, fun h => hok.2.1 (n4 h), fun h => hok.1 (n5 h),
      fun h => hok.2.2 (n6 h)⟩, h3⟩, fun hp => flat_cons (h4 hp) fun hn => h5 (hq hp ?_), fun _ h => ?_⟩
  rotate_left 2
  · rintro rfl
    simp [n3.mpr rfl] at hn
  · rcases commentNext_cons h with h | ⟨h, -⟩
    · exact n2 h
    · exact n1 h
  · intro j hj hg hf
    match i, hi with
    | 2, _ | 3, _ | 4, _ | 5, _ | 6, _ =>
      match j, hj with
      | 0, _ | 1, _ | 2, _ | 3, _ | 4, _ | 5, _ =>
        first
          | (exact absurd hg (by decide))
          | (simp [firstByte, isLetter] at hb hf; omega)
  · intro types hr j hj hne hbit hf
    exfalso
    obtain ⟨s, gs, h3, rfl, h4, h5, h6⟩ := requested_state (i := i) rfl hi.2 hr
    obtain ⟨-, -, h7, h8, h9⟩ := state_types h3
    match i, hi with
    | 2, _ =>
      match j, hj with
      | 0, _ | 1, _ | 3, _ | 4, _ | 5, _ => simp [firstByte, isLetter] at hb hf; omega
      | 2, _ => exact hne rfl
      | 6, _ => simp [firstByte] at hb hf; subst hb; simp [isVisible] at hf
    | 3, _ =>
      rw [h9 (h4 rfl)] at hbit
      match j, hj with
      | 0, _ | 1, _ => simp [firstByte, isLetter] at hb hf; omega
      | 2, _ | 4, _ | 5, _ | 6, _ => exact absurd hbit (by decide)
      | 3, _ => exact hne rfl
    | 4, _ =>
      obtain ⟨h10, h11⟩ := h7 (h6 (.inl rfl)).1 (h6 (.inl rfl)).2
      match j, hj with
      | 0, _ | 1, _ | 2, _ | 5, _ => simp [firstByte, isLetter] at hb hf; omega
      | 3, _ => rw [h10] at hbit; cases hbit
      | 6, _ => rw [h11] at hbit; cases hbit
      | 4, _ => exact hne rfl
    | 5, _ =>
      obtain ⟨h10, h11⟩ := h7 (h6 (.inr rfl)).1 (h6 (.inr rfl)).2
      match j, hj with
      | 0, _ | 1, _ | 2, _ | 4, _ => simp [firstByte, isLetter] at hb hf; omega
      | 3, _ => rw [h10] at hbit; cases hbit
      | 6, _ => rw [h11] at hbit; cases hbit
      | 5, _ => exact hne rfl
    | 6, _ =>
      rw [h8 (h5 rfl)] at hbit
      have h35 := h35 rfl
      match j, hj with
      | 0, _ | 2, _ => simp [firstByte, isVisible] at hb hf; omega
      | 1, _ => exact h35 hf
      | 3, _ | 4, _ | 5, _ => exact absurd hbit (by decide)
      | 6, _ => exact hne rfl

/-- A side token is added. -/
theorem add_side (hs : SameMatchers re) (hr : 13 ∉ src.content) {plain quiet : Prop} {p i c : Nat} {x rest : List Nat} {ks : List (Token × Nat)}
    (ht : src.content.drop p = (c :: x) ++ rest)
    (hi : i < 2) (hm : confMatch i ((c :: x) ++ rest) = some (c :: x).length)
    (hok : (i = 0 → Spaces (c :: x)) ∧ (i = 1 → CommentText (c :: x)))
    (h : CutAs re upper src plain quiet (p + (c :: x).length) ks) : CutAs re upper src plain (i = 0 ∧ quiet) p ks := by
  have hb := match_first (s := x ++ rest) hm
  obtain ⟨toks, h1, h2, h3, h4, h5⟩ := h
  have hnames : ∀ i < 2, (tokenName i = "space" → i = 0) ∧ (tokenName i = "comment" → i = 1) ∧ tokenName i ∈ ["space", "comment"] := by decide +kernel
  obtain ⟨n1, n2, n3⟩ := hnames i hi
  have n4 : ∀ s, s ∉ ["space", "comment"] → tokenName i ≠ s := fun s h e => h (e ▸ n3)
  refine ⟨_, cut_token hs ht (by omega) hm ?_ ?_ h1, .side (passed_side (i := i) rfl hi) h2,
    List.forall_mem_cons.mpr ⟨⟨content_noReturn hr ht, fun h => hok.1 (n1 h), fun h => hok.2 (n2 h), fun h => absurd h (n4 _ (by decide)),
      fun h => absurd h (n4 _ (by decide)), fun h => absurd h (n4 _ (by decide))⟩, h3⟩,
    fun hp => flat_cons (h4 hp) fun hn => ?_, fun hq h => ?_⟩
  rotate_left 2
  · simp only [List.mem_cons, List.not_mem_nil, or_false] at n3 hn
    rcases n3 with e | e <;> simp [e] at hn
  · rcases commentNext_cons h with h | ⟨-, h⟩
    · have := n2 h; omega
    · exact h5 hq.2 h
  · intro j hj hg hf
    obtain ⟨rfl, rfl⟩ : i = 1 ∧ j = 0 := by omega
    simp [firstByte] at hb hf
    omega
  · intro types hr j hj hne hbit hf
    obtain ⟨s, gs, h3, rfl, -⟩ := requested_state (i := i) rfl (by omega) hr
    obtain ⟨-, h5, -⟩ := state_types h3
    match i, hi with
    | 0, _ =>
      exfalso
      match j, hj with
      | 0, _ => exact hne rfl
      | 1, _ | 2, _ | 3, _ | 4, _ | 5, _ => simp [firstByte, isLetter] at hb hf; omega
      | 6, _ => simp [firstByte, isVisible] at hb hf; omega
    | 1, _ =>
      match j, hj with
      | 6, _ => exact ⟨h5, by decide⟩
      | 1, _ => exact absurd rfl hne
      | 0, _ | 2, _ | 3, _ | 4, _ | 5, _ => exfalso; simp [firstByte, isLetter] at hb hf; omega

/-- Not a space and not a tab. -/
abbrev NoSpace (rest : List Nat) : Prop := Stops (fun c => decide (c = 32 ∨ c = 9)) rest

theorem cutAs_mono {plain quiet quiet' : Prop} {p : Nat} {ks : List (Token × Nat)} (hq : quiet' → quiet) (h : CutAs re upper src plain quiet p ks) :
    CutAs re upper src plain quiet' p ks := by
  obtain ⟨toks, h1, h2, h3, h4, h5⟩ := h
  exact ⟨toks, h1, h2, h3, h4, fun h => h5 (hq h)⟩

theorem add_spaces (hs : SameMatchers re) (hr : 13 ∉ src.content) {plain quiet : Prop} {p : Nat} {a rest : List Nat} {ks : List (Token × Nat)} (ht : src.content.drop p = a ++ rest) (ha : Spaces a)
    (hn : NoSpace rest) (h : CutAs re upper src plain quiet (p + a.length) ks) : CutAs re upper src plain quiet p ks := by
  cases a with
  | nil => exact h
  | cons c x =>
    refine cutAs_mono (fun h => ⟨rfl, h⟩) (add_side hs hr (i := 0) ht (by omega) ?_ ⟨fun _ => ha, by simp⟩ h)
    have hw : ((c :: x) ++ rest).takeWhile (fun c => decide (c = 32 ∨ c = 9)) = c :: x := takeWhile_stop (by simpa [Spaces] using ha) hn
    simp only [confMatch, run]
    rw [hw, if_pos (by simp)]

theorem add_comment (hs : SameMatchers re) (hr : 13 ∉ src.content) {plain quiet : Prop} {p : Nat} {e rest : List Nat} {ks : List (Token × Nat)} (ht : src.content.drop p = e ++ rest) (he : CommentText e)
    (h : CutAs re upper src plain quiet (p + e.length) ks) : CutAs re upper src plain False p ks := by
  have he0 := he
  obtain ⟨c, hc, rfl⟩ := he
  refine cutAs_mono False.elim (add_side hs hr (i := 1) ht (by omega) ?_ ⟨by simp, fun _ => he0⟩ h)
  have h1 : ∀ d ∈ c, decide (d ≠ 10) = true := by
    intro d hd
    simp only [ne_eq, decide_eq_true_eq]
    rintro rfl
    exact hc hd
  have hw : (c ++ 10 :: rest).takeWhile (fun d => decide (d ≠ 10)) = c := takeWhile_stop h1 (by intro d r e; cases e; rfl)
  have hd : (c ++ 10 :: rest).dropWhile (fun d => decide (d ≠ 10)) = 10 :: rest := by
    have := List.takeWhile_append_dropWhile (p := fun d => decide (d ≠ 10)) (l := c ++ 10 :: rest)
    rw [hw] at this
    exact List.append_cancel_left this
  simp only [confMatch, commentMatch, List.cons_append, List.append_assoc, List.nil_append, if_true]
  rw [hw, hd]
  simp only [List.isEmpty_cons, Bool.false_eq_true, if_false, List.length_cons, List.length_append, List.length_nil]
  congr 1
  omega

theorem add_nl (hs : SameMatchers re) (hr : 13 ∉ src.content) {plain quiet : Prop} {p : Nat} {rest : List Nat} {ks : List (Token × Nat)} (ht : src.content.drop p = [10] ++ rest)
    (h : CutAs re upper src plain quiet (p + 1) ks) : ∃ t : Token, tokOf t = ⟨"nl", [10]⟩ ∧ CutAs re upper src plain True p ((t, 2) :: ks) := by
  exact add_token hs hr (i := 2) (k := 2) (c := 10) (x := []) ht (by simp [TypeKey]) (by simp [confMatch, startRun]) (by simp) (by simp) (by simp) (by simp) h

theorem add_sign (hs : SameMatchers re) (hr : 13 ∉ src.content) {plain quiet : Prop} {p c k : Nat} {rest : List Nat} {ks : List (Token × Nat)} (ht : src.content.drop p = [c] ++ rest)
    (hq : plain → quiet) (hc : c = 61 ∧ k = 7 ∨ c = 91 ∧ k = 8 ∨ c = 93 ∧ k = 9)
    (h : CutAs re upper src plain quiet (p + 1) ks) : ∃ t : Token, tokOf t = ⟨"op", [c]⟩ ∧ CutAs re upper src plain True p ((t, k) :: ks) := by
  exact add_token hs hr (i := 5) (k := k) (c := c) (x := []) ht (by simp [TypeKey]; omega)
    (by rcases hc with ⟨rfl, -⟩ | ⟨rfl, -⟩ | ⟨rfl, -⟩ <;> simp [confMatch, startRun]) (by simpa using hc) (by simp) (by simp) (fun hp _ => hq hp) h

theorem add_name (hs : SameMatchers re) (hr : 13 ∉ src.content) {plain quiet : Prop} {p : Nat} {n rest : List Nat} {ks : List (Token × Nat)} (ht : src.content.drop p = n ++ rest) (hn : Name [45] n)
    (hq : plain → quiet) (hn' : ∀ c r, rest = c :: r → c = 32 ∨ c = 9 ∨ c = 61) (h : CutAs re upper src plain quiet (p + n.length) ks) :
    ∃ t : Token, tokOf t = ⟨"name", n⟩ ∧ CutAs re upper src plain True p ((t, 4) :: ks) := by
  obtain ⟨d, s, rfl, -, hm⟩ := name_match hn (by decide) (rest := rest) (by
    intro c r e
    rcases hn' c r e with rfl | rfl | rfl <;> decide)
  exact add_token hs hr (i := 4) ht (by simp [TypeKey]) hm (by simp) (by simp) ⟨by simp, fun _ => hn, by simp⟩ (fun hp _ => hq hp) h

theorem add_section (hs : SameMatchers re) (hr : 13 ∉ src.content) {plain quiet : Prop} {p : Nat} {n rest : List Nat} {ks : List (Token × Nat)} (ht : src.content.drop p = n ++ rest) (hn : Name [46, 45] n)
    (hq : plain → quiet) (hn' : ∀ c r, rest = c :: r → c = 32 ∨ c = 9 ∨ c = 93) (h : CutAs re upper src plain quiet (p + n.length) ks) :
    ∃ t : Token, tokOf t = ⟨"sec-name", n⟩ ∧ CutAs re upper src plain True p ((t, 3) :: ks) := by
  obtain ⟨d, s, rfl, -, hm⟩ := name_match hn (by decide) (rest := rest) (by
    intro c r e
    rcases hn' c r e with rfl | rfl | rfl <;> decide)
  exact add_token hs hr (i := 3) ht (by simp [TypeKey]) hm (by simp) (by simp) ⟨fun _ => hn, by simp, by simp⟩ (fun hp _ => hq hp) h

theorem add_value (hs : SameMatchers re) (hr : 13 ∉ src.content) {plain quiet : Prop} {p : Nat} {v rest : List Nat} {ks : List (Token × Nat)} (ht : src.content.drop p = v ++ rest) (hv : ValueText v)
    (hq : plain → quiet) (hn' : ∀ c r, rest = c :: r → c = 10 ∨ c = 35) (h : CutAs re upper src plain quiet (p + v.length) ks) :
    ∃ t : Token, tokOf t = ⟨"value", v⟩ ∧ CutAs re upper src plain True p ((t, 6) :: ks) := by
  have hv0 := hv
  obtain ⟨c, s, rfl, h1, h2⟩ := hv
  refine add_token hs hr (i := 6) ht (by simp [TypeKey]) ?_ (by simp) (by rintro - rfl; simp at h1) ⟨by simp, by simp, fun _ => hv0⟩ (fun hp _ => hq hp) h
  have hc : isVisible c = true := by simp [isVisible] at h1 ⊢; omega
  have hw : (s ++ rest).takeWhile (fun c => decide (c ∉ [10, 35])) = s := takeWhile_stop (by
    intro d hd
    have := h2 d hd
    simp [this.1, this.2]) (by
    intro d r e
    rcases hn' d r e with rfl | rfl <;> decide)
  simp only [confMatch, List.cons_append, startRun]
  rw [if_pos hc, hw, List.length_cons, Nat.add_comm]

/-! Lines -/

theorem drop_add {s x rest : List Nat} {p : Nat} (h : s.drop p = x ++ rest) : s.drop (p + x.length) = rest := by
  rw [← List.drop_drop, h, List.drop_left' rfl]

theorem head_append {x rest : List Nat} {q : Nat → Prop} (hx : ∀ c ∈ x, q c) (hr : ∀ c r, rest = c :: r → q c) : ∀ c r, x ++ rest = c :: r → q c := by
  intro c r e
  cases x with
  | nil => exact hr c r e
  | cons d x => cases e; exact hx _ (by simp)

theorem name_head {signs n : List Nat} (h : Name signs n) : ∃ c s, n = c :: s ∧ Letter c := by
  cases h with
  | word h => obtain ⟨c, s, rfl, h1, -⟩ := h; exact ⟨c, s, rfl, h1⟩
  | join h =>
    obtain ⟨c, s, rfl, h1, -⟩ := h
    exact ⟨c, _, rfl, h1⟩

theorem noSpace_cons {c : Nat} {r : List Nat} (h : c ≠ 32 ∧ c ≠ 9) : NoSpace (c :: r) := by
  intro d r' e
  cases e
  simp [h]

theorem noSpace_name {signs n rest : List Nat} (h : Name signs n) : NoSpace (n ++ rest) := by
  obtain ⟨c, s, rfl, hc⟩ := name_head h
  exact noSpace_cons (by unfold Letter at hc; omega)

theorem line_cut (hs : SameMatchers re) (hr : 13 ∉ src.content) {plain quiet : Prop} {x : Line} {s rest : List Nat} (hx : LineText x s)
    (hpl : plain → ∀ n v, x = .entry n v → 35 ∉ s) {p : Nat} {ks : List (Token × Nat)}
    (ht : src.content.drop p = s ++ rest) (h : CutAs re upper src plain quiet (p + s.length) ks) :
    ∃ a, LineKeys x a ∧ (plain → PlainKeys x a) ∧ CutAs re upper src plain False p (a ++ ks) := by
  cases hx with
  | @blank a ha =>
    rw [List.append_assoc] at ht
    have h1 := drop_add ht
    obtain ⟨t, h2, h3⟩ := add_nl hs hr h1 (by simpa [Nat.add_assoc] using h)
    exact ⟨_, .blank (congrArg Tok.type h2), fun _ => .blank h2, cutAs_mono False.elim (add_spaces hs hr ht ha (noSpace_cons (by decide)) h3)⟩
  | @comment a e ha he =>
    rw [List.append_assoc] at ht
    have h1 := drop_add ht
    have h2 := add_comment hs hr h1 he (by simpa [Nat.add_assoc] using h)
    refine ⟨_, .comment, fun _ => .comment, add_spaces hs hr ht ha ?_ h2⟩
    obtain ⟨c, -, rfl⟩ := he
    exact noSpace_cons (by decide)
  | @entry a n b d v e ha hn hb hd hv he =>
    simp only [List.append_assoc, List.cons_append] at ht
    have t1 := drop_add ht
    have t2 := drop_add t1
    have t3 := drop_add t2
    have t4 := drop_add (x := [61]) t3
    have t5 := drop_add t4
    have t6 := drop_add t5
    simp only [List.length_append, List.length_cons] at h
    have hsp : ∀ c r, b ++ 61 :: (d ++ (v ++ (e ++ rest))) = c :: r → c = 32 ∨ c = 9 ∨ c = 61 :=
      head_append (fun c hc => by rcases hb c hc with h | h <;> simp [h]) (by intro c r e; cases e; simp)
    have hvs : NoSpace (v ++ (e ++ rest)) := by
      obtain ⟨c, s, rfl, hc, -⟩ := hv
      exact noSpace_cons (by simp at hc; omega)
    have hve : ∀ c r, e ++ rest = c :: r → c = 10 ∨ c = 35 := by
      rcases he with rfl | ⟨c, -, rfl⟩
      · intro c r e; cases e; simp
      · intro c r e; cases e; simp
    have hne : v ≠ [] := by obtain ⟨c, s, rfl, -⟩ := hv; simp
    have close : ∀ {a' ks'} {quiet : Prop}, (∀ tn te tv, tokOf tn = ⟨"name", n⟩ → tokOf te = ⟨"op", [61]⟩ → tokOf tv = ⟨"value", v⟩ →
        LineKeys (.entry n v) ((tn, 4) :: (te, 7) :: (tv, 6) :: a') ∧ (plain → PlainKeys (.entry n v) ((tn, 4) :: (te, 7) :: (tv, 6) :: a'))) →
        a' ++ ks = ks' → (plain → quiet) →
        CutAs re upper src plain quiet (p + a.length + n.length + b.length + [61].length + d.length + v.length) ks' →
        ∃ a, LineKeys (.entry n v) a ∧ (plain → PlainKeys (.entry n v) a) ∧ CutAs re upper src plain False p (a ++ ks) := by
      intro a' ks' quiet hk e hq h
      subst e
      obtain ⟨tv, v1, v2⟩ := add_value hs hr t5 hv hq hve h
      have v3 := add_spaces hs hr t4 hd hvs v2
      obtain ⟨te, e1, e2⟩ := add_sign hs hr (c := 61) (k := 7) t3 (fun _ => trivial) (by simp) v3
      have e3 := add_spaces hs hr t2 hb (noSpace_cons (by decide)) e2
      obtain ⟨tn, n1, n2⟩ := add_name hs hr t1 hn (fun _ => trivial) hsp e3
      have n3 := add_spaces hs hr ht ha (noSpace_name hn) n2
      exact ⟨_, (hk tn te tv n1 e1 v1).1, (hk tn te tv n1 e1 v1).2, cutAs_mono False.elim n3⟩
    rcases he with rfl | he
    · obtain ⟨tl, l1, l2⟩ := add_nl hs hr t6 (ks := ks) (upper := upper) (by
        refine cast (congrArg (CutAs re upper src plain quiet · ks) ?_) h
        simp; omega)
      exact close (a' := [(tl, 2)]) (fun tn te tv h1 h2 h3 => ⟨.entry h1 (congrArg Tok.type h2) h3 (congrArg Tok.type l1) hne, fun _ => .entry h1 h2 h3 l1⟩) rfl
        (fun _ => trivial) l2
    · have hnp : ¬ plain := by
        intro hp
        obtain ⟨c, -, rfl⟩ := he
        exact hpl hp n v rfl (by simp)
      have l2 := add_comment hs hr t6 he (ks := ks) (upper := upper) (by
        refine cast (congrArg (CutAs re upper src plain quiet · ks) ?_) h
        simp; omega)
      exact close (a' := []) (fun tn te tv h1 h2 h3 => ⟨.noted h1 (congrArg Tok.type h2) h3 hne, fun hp => absurd hp hnp⟩) rfl (fun hp => absurd hp hnp) l2
  | @unset a n b d ha hn hb hd =>
    simp only [List.append_assoc, List.cons_append] at ht
    have t1 := drop_add ht
    have t2 := drop_add t1
    have t3 := drop_add t2
    have t4 := drop_add (x := [61]) t3
    have t5 := drop_add t4
    simp only [List.length_append, List.length_cons] at h
    have hsp : ∀ c r, b ++ 61 :: (d ++ (10 :: ([] ++ rest))) = c :: r → c = 32 ∨ c = 9 ∨ c = 61 :=
      head_append (fun c hc => by rcases hb c hc with h | h <;> simp [h]) (by intro c r e; cases e; simp)
    obtain ⟨tl, l1, l2⟩ := add_nl hs hr t5 (ks := ks) (upper := upper) (by
      refine cast (congrArg (CutAs re upper src plain quiet · ks) ?_) h
      simp; omega)
    have v3 := add_spaces hs hr t4 hd (noSpace_cons (by decide)) l2
    obtain ⟨te, e1, e2⟩ := add_sign hs hr (c := 61) (k := 7) t3 (fun _ => trivial) (by simp) v3
    have e3 := add_spaces hs hr t2 hb (noSpace_cons (by decide)) e2
    obtain ⟨tn, n1, n2⟩ := add_name hs hr t1 hn (fun _ => trivial) hsp e3
    exact ⟨_, .unset n1 (congrArg Tok.type e1) (congrArg Tok.type l1), fun _ => .unset n1 e1 l1,
      cutAs_mono False.elim (add_spaces hs hr ht ha (noSpace_name hn) n2)⟩
  | @header a b n d e ha hb hn hd he =>
    simp only [List.append_assoc, List.cons_append] at ht
    have t1 := drop_add ht
    have t2 := drop_add (x := [91]) t1
    have t3 := drop_add t2
    have t4 := drop_add t3
    have t5 := drop_add t4
    have t6 := drop_add (x := [93]) t5
    have t7 := drop_add t6
    simp only [List.length_append, List.length_cons] at h
    have hsp : ∀ c r, d ++ 93 :: (e ++ (10 :: ([] ++ rest))) = c :: r → c = 32 ∨ c = 9 ∨ c = 93 :=
      head_append (fun c hc => by rcases hd c hc with h | h <;> simp [h]) (by intro c r e; cases e; simp)
    obtain ⟨tl, l1, l2⟩ := add_nl hs hr t7 (ks := ks) (upper := upper) (by
      refine cast (congrArg (CutAs re upper src plain quiet · ks) ?_) h
      simp; omega)
    have e0 := add_spaces hs hr t6 he (noSpace_cons (by decide)) l2
    obtain ⟨te, e1, e2⟩ := add_sign hs hr (c := 93) (k := 9) t5 (fun _ => trivial) (by simp) e0
    have e3 := add_spaces hs hr t4 hd (noSpace_cons (by decide)) e2
    obtain ⟨tn, n1, n2⟩ := add_section hs hr t3 hn (fun _ => trivial) hsp e3
    have n3 := add_spaces hs hr t2 hb (noSpace_name hn) n2
    obtain ⟨ta, a1, a2⟩ := add_sign hs hr (c := 91) (k := 8) t1 (fun _ => trivial) (by simp) n3
    exact ⟨_, .header (congrArg Tok.type a1) n1 (congrArg Tok.type e1) (congrArg Tok.type l1), fun _ => .header a1 n1 e1 l1,
      cutAs_mono False.elim (add_spaces hs hr ht ha (noSpace_cons (by decide)) a2)⟩

/-- The text of a file is cut into tokens of its lines. -/
theorem file_cut (hs : SameMatchers re) (hr : 13 ∉ src.content) {lines : List Line} {text : List Nat} (h : FileText lines text) {p : Nat}
    (hp : p ≤ src.content.length) (ht : src.content.drop p = text) : ∃ ks, FileKeys lines ks ∧ CutAs re upper src False False p ks := by
  induction h generalizing p with
  | nil =>
    have : p = src.content.length := by
      have := congrArg List.length ht
      rw [List.length_drop] at this
      simp at this
      omega
    subst this
    exact ⟨[], .nil, cutAs_mono False.elim cutAs_end⟩
  | @cons x l s t hx _ ih =>
    have hlen := congrArg List.length ht
    rw [List.length_drop, List.length_append] at hlen
    obtain ⟨ks, h1, h2⟩ := ih (p := p + s.length) (by omega) (drop_add ht)
    obtain ⟨a, h3, -, h4⟩ := line_cut hs hr hx False.elim ht h2
    exact ⟨a ++ ks, .cons h3 h1, h4⟩

/-- The same if there are no comments on lines with entries. -/
theorem plain_cut (hs : SameMatchers re) (hr : 13 ∉ src.content) {lines : List Line} {text : List Nat} (h : PlainText lines text) {p : Nat}
    (hp : p ≤ src.content.length) (ht : src.content.drop p = text) : ∃ ks, PlainFile lines ks ∧ CutAs re upper src True False p ks := by
  induction h generalizing p with
  | nil =>
    have : p = src.content.length := by
      have := congrArg List.length ht
      rw [List.length_drop] at this
      simp at this
      omega
    subst this
    exact ⟨[], .nil, cutAs_mono False.elim cutAs_end⟩
  | @cons x l s t hx hpl _ ih =>
    have hlen := congrArg List.length ht
    rw [List.length_drop, List.length_append] at hlen
    obtain ⟨ks, h1, h2⟩ := ih (p := p + s.length) (by omega) (drop_add ht)
    obtain ⟨a, -, h3, h4⟩ := line_cut hs hr hx (fun _ => hpl) ht h2
    exact ⟨a ++ ks, .cons (h3 trivial) h1, h4⟩

end Verif.Proof.Conf
