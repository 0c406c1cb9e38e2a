/-
Reading of grammar descriptions returns.
-/
import Verif.Proof.LangDef

namespace Verif.Proof.LangDef

open Verif.Model Verif.Model.LangDef Verif.Spec.LangDef

/-- Indexes are in range. -/
structure Inv (c : Ctx) : Prop where
  tokens : ∀ n i, c.tokenIndex.lookup n = some i → i < c.tokens.length
  extras : ∀ n i, c.extraIndex.lookup n = some i → i < c.extraTokens.length

theorem lookup_filter_ne {β : Type} (l : List (List Nat × β)) (n m : List Nat) :
    (l.filter fun p => p.1 ≠ n).lookup m = if m = n then none else l.lookup m := by
  induction l with
  | nil => simp
  | cons p l ih =>
    obtain ⟨k, v⟩ := p
    by_cases hk : k = n
    · rw [List.filter_cons_of_neg (by simpa using hk), ih]
      split
      · rfl
      · next h =>
        rw [List.lookup_cons]
        have : (m == k) = false := by simp; rintro rfl; exact h hk
        rw [this]
    · rw [List.filter_cons_of_pos (by simpa using hk), List.lookup_cons, List.lookup_cons, ih]
      by_cases hm : m = k
      · subst hm
        simp [hk]
      · have : (m == k) = false := by simpa using hm
        rw [this]

theorem addToken_inv {c : Ctx} (h : Inv c) (name re : List Nat) (flags : TokenFlags) :
    ∃ c', addToken c name re flags = some c' ∧ Inv c' ∧ c'.nodes = c.nodes ∧ c'.tokens.length = c.tokens.length + 1 ∧
      c'.extraTokens = c.extraTokens := by
  unfold addToken
  cases he : c.extraIndex.lookup name with
  | none =>
    refine ⟨_, rfl, ⟨?_, ?_⟩, rfl, by simp, rfl⟩
    · intro n i hi
      simp only [List.lookup_cons] at hi
      simp only [List.length_append, List.length_singleton]
      split at hi
      · simp only [Option.some.injEq] at hi; omega
      · have := h.tokens n i hi; omega
    · exact h.extras
  | some k =>
    have hk := h.extras _ _ he
    simp only [List.getElem?_eq_getElem hk, Option.map_some]
    refine ⟨_, rfl, ⟨?_, ?_⟩, rfl, by simp, rfl⟩
    · intro n i hi
      simp only [List.lookup_cons] at hi
      simp only [List.length_append, List.length_singleton]
      split at hi
      · simp only [Option.some.injEq] at hi; omega
      · have := h.tokens n i hi; omega
    · intro n i hi
      simp only [lookup_filter_ne] at hi
      split at hi
      · cases hi
      · exact h.extras n i hi

theorem addLiteralToken_inv {c : Ctx} (h : Inv c) (name : List Nat) (flags : TokenFlags) : Inv (addLiteralToken c name flags) := by
  unfold addLiteralToken
  split
  · exact h
  · exact ⟨h.tokens, h.extras⟩

theorem useLiteralToken_inv {c : Ctx} (h : Inv c) (name : List Nat) (flags : TokenFlags) :
    Inv (useLiteralToken c name flags).2 ∧ (useLiteralToken c name flags).2.nodes = c.nodes := by
  unfold useLiteralToken
  split
  · exact ⟨h, rfl⟩
  · refine ⟨⟨?_, h.extras⟩, rfl⟩
    intro n i hi
    have := h.tokens n i hi
    simp only [List.length_append, List.length_singleton]
    omega

theorem addExtraToken_inv {c : Ctx} (h : Inv c) (name : List Nat) :
    Inv (addExtraToken c name).2 ∧ (addExtraToken c name).1 < (addExtraToken c name).2.extraTokens.length := by
  unfold addExtraToken
  cases he : c.extraIndex.lookup name with
  | some i => exact ⟨h, h.extras _ _ he⟩
  | none =>
    refine ⟨⟨h.tokens, ?_⟩, by simp⟩
    intro n i hi
    simp only [List.lookup_cons] at hi
    simp only [List.length_append, List.length_singleton]
    split at hi
    · simp only [Option.some.injEq] at hi; omega
    · have := h.extras n i hi; omega

theorem update_some {α : Type} {xs : List α} {i : Nat} (h : i < xs.length) (f : α → α) :
    update xs i f = some (xs.set i (f xs[i])) := by
  simp [update, List.getElem?_eq_getElem h]

theorem addTokenFlag_inv {c : Ctx} (h : Inv c) (name : List Nat) (flag : TokenFlags) :
    ∃ c', addTokenFlag c name flag = some c' ∧ Inv c' := by
  unfold addTokenFlag
  cases ht : c.tokenIndex.lookup name with
  | some i =>
    simp only [update_some (h.tokens _ _ ht), Option.map_some]
    exact ⟨_, rfl, fun n i hi => by simpa using h.tokens n i hi, h.extras⟩
  | none =>
    have he := addExtraToken_inv h name
    simp only [update_some he.2, Option.map_some]
    exact ⟨_, rfl, he.1.tokens, fun n i hi => by simpa using he.1.extras n i hi⟩

/-- `text[1:]` and `text[1:len(text)-1]`. -/
theorem tail1_some {t : List Nat} (h : t ≠ []) : tail1 t = some t.tail := by
  cases t with
  | nil => exact absurd rfl h
  | cons b s =>
    unfold tail1 Go.slice
    rw [if_pos (by simp)]
    simp

theorem inner_some {b : Nat} {s : List Nat} {e : Nat} : innerText (b :: s ++ [e]) = some s := by
  unfold innerText Go.slice
  rw [if_pos (by simp)]
  simp

theorem inner_len {t : List Nat} (h : 2 ≤ t.length) : ∃ x, innerText t = some x := by
  unfold innerText Go.slice
  rw [if_pos (by omega)]
  exact ⟨_, rfl⟩

theorem kind_text_inj {a b : Kind} (h : a.text = b.text) : a = b := by
  revert h
  cases a <;> cases b <;> first | (intro; rfl) | (intro h; exact absurd h (by decide +kernel))

theorem kind_text_letter (k : Kind) (hk : k ≠ .eof) : ∃ b s, letter b ∧ k.text = b :: s ∧ s ≠ [] := by
  cases k with
  | eof => exact absurd rfl hk
  | string => exact ⟨115, [116, 114, 105, 110, 103], by unfold letter; omega, by decide +kernel, by simp⟩
  | name => exact ⟨110, [97, 109, 101], by unfold letter; omega, by decide +kernel, by simp⟩
  | dir => exact ⟨100, [105, 114], by unfold letter; omega, by decide +kernel, by simp⟩
  | templateName => exact ⟨116, [101, 109, 112, 108, 97, 116, 101, 45, 110, 97, 109, 101], by unfold letter; omega, by decide +kernel, by simp⟩
  | tokenName => exact ⟨116, [111, 107, 101, 110, 45, 110, 97, 109, 101], by unfold letter; omega, by decide +kernel, by simp⟩
  | regexp => exact ⟨114, [101, 103, 101, 120, 112], by unfold letter; omega, by decide +kernel, by simp⟩
  | op => exact ⟨111, [112], by unfold letter; omega, by decide +kernel, by simp⟩

theorem kind_text_len (k : Kind) : 2 ≤ k.text.length := by cases k <;> decide +kernel

/-- A token spelled like a kind is a name. -/
theorem text_kind {t : LTok} (hl : LexTok t) {k : Kind} (hk : k ≠ .eof) (h : t.text = k.text) : t.kind = .name := by
  obtain ⟨b, s, hb, hs, hs'⟩ := kind_text_letter k hk
  unfold LexTok at hl
  unfold letter at hb
  rw [h, hs] at hl
  cases ht : t.kind <;> rw [ht] at hl <;> simp only at hl
  · obtain ⟨q, s', hq, he⟩ := hl
    simp only [List.cons_append, List.cons.injEq] at he; omega
  · obtain ⟨s', he⟩ := hl
    simp only [List.cons.injEq] at he; omega
  · obtain ⟨s', he⟩ := hl
    simp only [List.cons.injEq] at he; omega
  · obtain ⟨s', he⟩ := hl
    simp only [List.cons.injEq] at he; omega
  · obtain ⟨s', he⟩ := hl
    simp only [List.cons_append, List.cons.injEq] at he; omega
  · obtain ⟨b', -, he⟩ := hl
    simp only [List.cons.injEq] at he; exact absurd he.2 hs'

/-- A token spelled like an operator is an operator. -/
theorem text_op {t : LTok} (hl : LexTok t) {b : Nat} (hb : ¬ letter b) (hb' : b ≠ 33 ∧ b ≠ 36) (h : t.text = [b]) : t = op b := by
  unfold LexTok at hl
  rw [h] at hl
  obtain ⟨k, x⟩ := t
  simp only at h hl
  subst h
  cases k <;> simp only at hl
  · obtain ⟨q, s', hq, he⟩ := hl
    simp only [List.cons_append, List.cons.injEq] at he
    have := congrArg List.length he.2
    simp at this
  · obtain ⟨b', s, hb'', he⟩ := hl
    simp only [List.cons.injEq] at he
    rw [he.1] at hb; exact absurd hb'' hb
  · obtain ⟨s', he⟩ := hl
    simp only [List.cons.injEq] at he; omega
  · obtain ⟨s', he⟩ := hl
    simp at he
  · obtain ⟨s', he⟩ := hl
    simp only [List.cons.injEq] at he; omega
  · obtain ⟨s', he⟩ := hl
    simp only [List.cons_append, List.cons.injEq] at he
    have := congrArg List.length he.2
    simp at this
  · rfl

theorem kind_text_op {k : Kind} {b : Nat} : k.text ≠ [b] := by
  intro h
  have := kind_text_len k
  rw [h] at this
  simp at this

/-- What a token matching given types is. -/
theorem match_kind {t : LTok} (k : Kind) : Match [k.text] t ↔ t.kind = k ∨ t.text = k.text := by
  simp only [Match, List.mem_singleton]
  exact or_congr_left ⟨kind_text_inj, fun h => by rw [h]⟩

theorem match_op {t : LTok} (hl : LexTok t) {b : Nat} (hb : ¬ letter b) (hb' : b ≠ 33 ∧ b ≠ 36) : Match [[b]] t ↔ t = op b := by
  simp only [Match, List.mem_singleton]
  constructor
  · rintro (h | h)
    · exact absurd h kind_text_op
    · exact text_op hl hb hb' h
  · rintro rfl; exact .inr rfl

/-- The text of a token is long enough. -/
theorem lex_tail1 {t : LTok} (hl : LexTok t) : ∃ x, tail1 t.text = some x := by
  refine ⟨_, tail1_some ?_⟩
  intro h
  unfold LexTok at hl
  rw [h] at hl
  cases hk : t.kind <;> rw [hk] at hl <;> simp at hl

theorem lex_string {t : LTok} (hl : LexTok t) (hk : t.kind = .string ∨ t.kind = .regexp) : ∃ x, innerText t.text = some x := by
  unfold LexTok at hl
  rcases hk with hk | hk <;> rw [hk] at hl <;> simp only at hl
  · obtain ⟨q, s, -, h⟩ := hl
    rw [h]; exact ⟨_, inner_some⟩
  · obtain ⟨s, h⟩ := hl
    rw [h]; exact ⟨_, inner_some⟩

theorem lex_inner {t : LTok} (hl : LexTok t) (hm : Match [Kind.string.text] t) : ∃ x, innerText t.text = some x := by
  rw [match_kind] at hm
  rcases hm with hm | hm
  · exact lex_string hl (.inl hm)
  · rw [hm]; exact inner_len (kind_text_len _)

/-! Directives -/

theorem addFlags_inv (flag : TokenFlags) : ∀ (ts : List LTok) (c : Ctx), Inv c → (∀ t ∈ ts, LexTok t) →
    ∃ c', addFlags flag ts c = some c' ∧ Inv c'
  | [], c, h, _ => ⟨c, rfl, h⟩
  | t :: ts, c, h, hl => by
    obtain ⟨x, hx⟩ := lex_tail1 (hl t (by simp))
    obtain ⟨c1, h1, h2⟩ := addTokenFlag_inv h x flag
    obtain ⟨c2, h3, h4⟩ := addFlags_inv flag ts c1 h2 (fun t ht => hl t (by simp [ht]))
    exact ⟨c2, by rw [addFlags, hx, Option.bind_some, h1, Option.bind_some, h3], h4⟩

theorem addGroups_safe : ∀ (ts : List LTok) (c : Ctx), Inv c → (∀ t ∈ ts, LexTok t) → Safe (addGroups ts c) Inv
  | [], c, h, _ => safe_ok h
  | t :: ts, c, h, hl => by
    obtain ⟨x, hx⟩ := lex_tail1 (hl t (by simp))
    rw [addGroups]
    refine safe_orPanic hx ?_
    simp only
    cases ht : c.tokenIndex.lookup x with
    | some i =>
      refine safe_orPanic (List.getElem?_eq_getElem (h.tokens _ _ ht)) ?_
      split
      · exact safe_error
      · exact addGroups_safe ts _ ⟨fun n i hi => by simpa using h.tokens n i hi, h.extras⟩ (fun t ht => hl t (by simp [ht]))
    | none =>
      have he := addExtraToken_inv h x
      refine safe_orPanic (update_some he.2 _) ?_
      exact addGroups_safe ts _ ⟨he.1.tokens, fun n i hi => by simpa using he.1.extras n i hi⟩ (fun t ht => hl t (by simp [ht]))

theorem addReserved_inv : ∀ (ts : List LTok) (c : Ctx), Inv c → (∀ t ∈ ts, LexTok t ∧ Match [Kind.string.text] t) →
    ∃ c', addReserved ts c = some c' ∧ Inv c'
  | [], c, h, _ => ⟨c, rfl, h⟩
  | t :: ts, c, h, hl => by
    obtain ⟨x, hx⟩ := lex_inner (hl t (by simp)).1 (hl t (by simp)).2
    obtain ⟨c2, h3, h4⟩ := addReserved_inv ts _ (addLiteralToken_inv h x { reserved := true }) (fun t ht => hl t (by simp [ht]))
    exact ⟨c2, by rw [addReserved, hx, Option.bind_some, h3], h4⟩

theorem addLiterals_inv : ∀ (ts : List LTok) (c : Ctx), Inv c →
    (∀ t ∈ ts, LexTok t ∧ Match [Kind.string.text, Kind.tokenName.text] t) → ∃ c', addLiterals ts c = some c' ∧ Inv c'
  | [], c, h, _ => ⟨c, rfl, h⟩
  | t :: ts, c, h, hl => by
    obtain ⟨h1, h2⟩ := hl t (by simp)
    rw [addLiterals]
    split
    · next hk =>
      obtain ⟨x, hx⟩ := lex_tail1 h1
      obtain ⟨c1, h3, h4⟩ := addTokenFlag_inv (c := { c with restrictLiteralTypes := true }) ⟨h.tokens, h.extras⟩ x { noLiterals := true }
      obtain ⟨c2, h5, h6⟩ := addLiterals_inv ts c1 h4 (fun t ht => hl t (by simp [ht]))
      exact ⟨c2, by rw [hx, Option.bind_some, h3, Option.bind_some, h5], h6⟩
    · next hk =>
      have : ∃ x, innerText t.text = some x := by
        simp only [Match, List.mem_cons, List.not_mem_nil, or_false] at h2
        rcases h2 with (h2 | h2) | (h2 | h2)
        · exact lex_string h1 (.inl (kind_text_inj h2))
        · exact absurd (kind_text_inj h2) hk
        · rw [h2]; exact inner_len (kind_text_len _)
        · rw [h2]; exact inner_len (kind_text_len _)
      obtain ⟨x, hx⟩ := this
      obtain ⟨c2, h3, h4⟩ := addLiterals_inv ts _ (addLiteralToken_inv (c := { c with restrictLiterals := true }) ⟨h.tokens, h.extras⟩ x {})
        (fun t ht => hl t (by simp [ht]))
      exact ⟨c2, by rw [hx, Option.bind_some, h3], h4⟩

/-- The feed moves forward. -/
def Fwd (f f' : Feed) : Prop := rest f' <:+ rest f

theorem Fwd.refl (f : Feed) : Fwd f f := List.suffix_refl _

theorem Fwd.trans {f f' f'' : Feed} (h1 : Fwd f f') (h2 : Fwd f' f'') : Fwd f f'' := List.IsSuffix.trans h2 h1

theorem Fwd.cons {f f' : Feed} {x : Except LErr LTok} (h : rest f = x :: rest f') : Fwd f f' := by
  unfold Fwd; rw [h]; exact List.suffix_cons _ _

theorem Fwd.append {f f' : Feed} {x : List (Except LErr LTok)} (h : rest f = x ++ rest f') : Fwd f f' := by
  unfold Fwd; rw [h]; exact List.suffix_append _ _

theorem Fwd.len {f f' : Feed} (h : Fwd f f') : (rest f').length ≤ (rest f).length := List.IsSuffix.length_le h

theorem Fwd.lexed {f f' : Feed} (h : Fwd f f') (hl : Lexed (rest f)) : Lexed (rest f') := lexed_suffix hl h

theorem not_match_eof {types : List (List Nat)} (h1 : Kind.eof.text ∉ types) (h2 : [] ∉ types) : ¬ Match types ⟨.eof, []⟩ := by
  rintro (h | h)
  · exact h1 h
  · exact h2 h

theorem kinds_no_eof (ks : List Kind) (bs : List Nat) (h : Kind.eof ∉ ks) :
    ¬ Match (ks.map Kind.text ++ bs.map fun b => [b]) ⟨.eof, []⟩ := by
  refine not_match_eof ?_ ?_
  · intro hc
    rcases List.mem_append.1 hc with hc | hc
    · obtain ⟨k, hk, he⟩ := List.mem_map.1 hc
      rw [kind_text_inj he] at hk
      exact h hk
    · obtain ⟨b, -, he⟩ := List.mem_map.1 hc
      exact kind_text_op he.symm
  · intro hc
    rcases List.mem_append.1 hc with hc | hc
    · obtain ⟨k, -, he⟩ := List.mem_map.1 hc
      have := kind_text_len k
      rw [he] at this
      simp at this
    · obtain ⟨b, -, he⟩ := List.mem_map.1 hc
      cases he

/-- A list of arguments and a semicolon. -/
theorem listed_safe {types : List (List Nat)} {fuel : Nat} {f : Feed} (hl : Lexed (rest f))
    (hn : ¬ AllMatch types (rest f)) (hf : (rest f).length ≤ fuel) :
    Safe (fetchList fuel types f) fun r => Fwd f r.2 ∧ ∀ t ∈ r.1, LexTok t ∧ Match types t := by
  refine safe_bind (fetchAll_safe fuel f hl hn hf) ?_
  rintro ⟨ts, f1⟩ ⟨h1, h2⟩
  refine safe_bind (need_safe ((Fwd.append h1).lexed hl) (kinds_no_eof [] [59] (by simp))) ?_
  rintro ⟨t, f2⟩ ⟨h3, -⟩
  refine safe_ok ⟨(Fwd.append h1).trans (Fwd.cons h3), ?_⟩
  intro u hu
  exact ⟨hl u (by rw [h1]; exact List.mem_append_left _ (List.mem_map.2 ⟨u, hu, rfl⟩)), h2 u hu⟩

theorem parseDir_safe {fuel : Nat} {t : LTok} {c : Ctx} {f : Feed} (hi : Inv c) (hl : Lexed (rest f))
    (hn : ¬ AllMatch [Kind.string.text, Kind.tokenName.text] (rest f)) (hf : (rest f).length ≤ fuel) :
    Safe (parseDir fuel t c f) fun r => Inv r.1 ∧ Fwd f r.2 := by
  have sub : ∀ types, types ⊆ [Kind.string.text, Kind.tokenName.text] → ¬ AllMatch types (rest f) := by
    intro types hs ha
    apply hn
    intro x hx
    obtain ⟨t, rfl, hm⟩ := ha x hx
    exact ⟨t, rfl, hm.imp (@hs _) (@hs _)⟩
  unfold parseDir
  split
  · unfold parseTokenFlagDir
    refine safe_bind (listed_safe hl (sub _ (by intro x hx; rw [List.mem_singleton] at hx; simp [hx])) hf) ?_
    rintro ⟨ts, f'⟩ ⟨h1, h2⟩
    obtain ⟨c', h3, h4⟩ := addFlags_inv (dirFlag t.text) ts c hi (fun t ht => (h2 t ht).1)
    exact safe_orPanic h3 (safe_ok ⟨h4, h1⟩)
  split
  · unfold parseGroupDir
    refine safe_bind (listed_safe hl (sub _ (by intro x hx; rw [List.mem_singleton] at hx; simp [hx])) hf) ?_
    rintro ⟨ts, f'⟩ ⟨h1, h2⟩
    refine safe_bind (addGroups_safe ts _ ⟨hi.tokens, hi.extras⟩ (fun t ht => (h2 t ht).1)) ?_
    intro c' h3
    exact safe_ok ⟨h3, h1⟩
  split
  · unfold parseReservedDir
    refine safe_bind (listed_safe hl (sub _ (by intro x hx; rw [List.mem_singleton] at hx; simp [hx])) hf) ?_
    rintro ⟨ts, f'⟩ ⟨h1, h2⟩
    obtain ⟨c', h3, h4⟩ := addReserved_inv ts c hi h2
    exact safe_orPanic h3 (safe_ok ⟨h4, h1⟩)
  split
  · unfold parseLiteralDir
    refine safe_bind (listed_safe hl (sub _ (List.Subset.refl _)) hf) ?_
    rintro ⟨ts, f'⟩ ⟨h1, h2⟩
    obtain ⟨c', h3, h4⟩ := addLiterals_inv ts c hi h2
    exact safe_orPanic h3 (safe_ok ⟨h4, h1⟩)
  · exact safe_error

/-! Layers -/

theorem layerArgs_safe : ∀ (fuel : Nat) (f : Feed), Lexed (rest f) → (rest f).length < fuel →
    Safe (layerArgs fuel f) fun r => Fwd f r.2
  | 0, _, _, h => by omega
  | fuel + 1, f, hl, hf => by
    rw [layerArgs]
    refine safe_bind (need_safe hl (kinds_no_eof [.string, .name] [] (by decide))) ?_
    rintro ⟨t, f1⟩ ⟨h1, -⟩
    try dsimp only at *
    have ht : LexTok t := hl t (by rw [h1]; simp)
    have ha : ∃ x, (if t.kind = .string then innerText t.text else some t.text) = some x := by
      split
      · next hk => exact lex_string ht (.inl hk)
      · exact ⟨_, rfl⟩
    obtain ⟨x, hx⟩ := ha
    refine safe_orPanic hx ?_
    have hl1 := (Fwd.cons h1).lexed hl
    refine safe_bind (need_safe hl1 (kinds_no_eof [] [44, 41] (by simp))) ?_
    rintro ⟨u, f2⟩ ⟨h2, -⟩
    try dsimp only at *
    have hf2 := (Fwd.cons h1).trans (Fwd.cons h2)
    split
    · exact safe_ok hf2
    · have : (rest f2).length < fuel := by rw [h1, h2] at hf; simp at hf; omega
      refine safe_bind (layerArgs_safe fuel f2 (hf2.lexed hl) this) ?_
      rintro ⟨args, f3⟩ h3
      try dsimp only at *
      exact safe_ok (hf2.trans h3)

theorem layerCommands_safe : ∀ (fuel : Nat) (f : Feed), Lexed (rest f) → (rest f).length < fuel →
    Safe (layerCommands fuel f) fun r => Fwd f r.2
  | 0, _, _, h => by omega
  | fuel + 1, f, hl, hf => by
    rw [layerCommands]
    refine safe_bind (need_safe hl (kinds_no_eof [.name] [59] (by decide))) ?_
    rintro ⟨t, f1⟩ ⟨h1, -⟩
    try dsimp only at *
    split
    · exact safe_ok (Fwd.cons h1)
    have hl1 := (Fwd.cons h1).lexed hl
    refine safe_bind (need_safe hl1 (kinds_no_eof [] [40] (by simp))) ?_
    rintro ⟨u, f2⟩ ⟨h2, -⟩
    try dsimp only at *
    have hf2 := (Fwd.cons h1).trans (Fwd.cons h2)
    have hl2 := hf2.lexed hl
    have hlen : (rest f2).length + 1 < fuel := by rw [h1, h2] at hf; simp at hf; omega
    -- the next fetch
    have hfetch : ∃ r f3, fetch [opRBrace] false f2 = some (r, f3) ∧ Fwd f2 f3 := by
      cases hr : rest f2 with
      | nil => exact ⟨_, _, fetch_nil hr _ _, Fwd.refl _⟩
      | cons x r =>
        cases x with
        | error e =>
          obtain ⟨f', g1, g2⟩ := fetch_error hr [opRBrace] false
          exact ⟨_, _, g1, Fwd.cons (x := .error e) (by rw [hr, g2])⟩
        | ok v =>
          by_cases hm : Match [opRBrace] v
          · obtain ⟨f', g1, g2⟩ := fetch_match hr hm false
            exact ⟨_, _, g1, Fwd.cons (x := .ok v) (by rw [hr, g2])⟩
          · rw [hr] at hl2
            obtain ⟨-, f', g1, g2⟩ := fetch_other hr (lexTok_eof (lexed_head hl2)) hm
            exact ⟨_, _, g1, by unfold Fwd; rw [g2]⟩
    obtain ⟨r, f3, h3, h4⟩ := hfetch
    refine safe_orPanic h3 ?_
    have hf3 := hf2.trans h4
    have hlen3 := h4.len
    have args : Safe (bindL (layerArgs fuel f3) fun (args, f) =>
        bindL (layerCommands fuel f) fun (cs, f) =>
          .done (.ok (({ command := t.text, arguments := args } : LayerCommand) :: cs, f))) fun r => Fwd f r.2 := by
      refine safe_bind (layerArgs_safe fuel f3 (hf3.lexed hl) (by omega)) ?_
      rintro ⟨args, f4⟩ h5
      try dsimp only at *
      have hf4 := hf3.trans h5
      have := h5.len
      refine safe_bind (layerCommands_safe fuel f4 (hf4.lexed hl) (by omega)) ?_
      rintro ⟨cs, f5⟩ h6
      try dsimp only at *
      exact safe_ok (hf4.trans h6)
    cases r with
    | error e => exact args
    | ok v =>
      cases v with
      | none => exact args
      | some v =>
        refine safe_bind (layerCommands_safe fuel f3 (hf3.lexed hl) (by omega)) ?_
        rintro ⟨cs, f5⟩ h6
        try dsimp only at *
        exact safe_ok (hf3.trans h6)

theorem parseLayerDef_safe {fuel : Nat} {t : LTok} {c : Ctx} {f : Feed} (hl : Lexed (rest f)) (hf : (rest f).length < fuel) :
    Safe (parseLayerDef fuel t c f) fun r => (∃ l, r.1 = { c with layers := l }) ∧ Fwd f r.2 := by
  unfold parseLayerDef
  split
  · exact safe_error
  refine safe_bind (need_safe hl (kinds_no_eof [.name] [] (by decide))) ?_
  rintro ⟨n, f1⟩ ⟨h1, -⟩
  try dsimp only at *
  have := (Fwd.cons h1).len
  refine safe_bind (layerCommands_safe fuel f1 ((Fwd.cons h1).lexed hl) (by omega)) ?_
  rintro ⟨cs, f2⟩ h2
  try dsimp only at *
  exact safe_ok ⟨⟨_, rfl⟩, (Fwd.cons h1).trans h2⟩

/-! Regular expressions -/

theorem joinRe_safe (templates : List (List Nat × List Nat)) : ∀ (ts : List LTok), (∀ t ∈ ts, LexTok t) →
    Safe (joinRe templates ts) fun _ => True
  | [], _ => safe_ok trivial
  | t :: ts, h => by
    have ih := joinRe_safe templates ts (fun t ht => h t (by simp [ht]))
    rw [joinRe.eq_def]
    dsimp only
    cases hk : t.kind with
    | regexp =>
      obtain ⟨x, hx⟩ := lex_string (h t (by simp)) (.inr hk)
      exact safe_orPanic hx (safe_bind ih fun _ _ => safe_ok trivial)
    | name =>
      dsimp only
      cases templates.lookup t.text with
      | none => exact safe_error
      | some x => exact safe_bind ih fun _ _ => safe_ok trivial
    | _ => exact ih

theorem parseReDef_safe {okRe : List Nat → Bool} {fuel : Nat} {c : Ctx} {f : Feed} (hl : Lexed (rest f))
    (hn : ∀ r, rest f = .ok (op 61) :: r → ¬ AllMatch [Kind.regexp.text, Kind.name.text] r) (hf : (rest f).length ≤ fuel) :
    Safe (parseReDef okRe fuel c f) fun r => Fwd f r.2 := by
  unfold parseReDef
  refine safe_bind (need_safe hl (kinds_no_eof [] [61] (by simp))) ?_
  rintro ⟨t, f1⟩ ⟨h1, hm⟩
  try dsimp only at *
  have ht : LexTok t := hl t (by rw [h1]; simp)
  have he : t = op 61 := (match_op ht (by unfold letter; omega) (by omega)).1 hm
  subst he
  have hl1 := (Fwd.cons h1).lexed hl
  have hlen := (Fwd.cons h1).len
  have hre : Safe (fetchRegexp okRe fuel c f1) fun r => Fwd f1 r.2 := by
    unfold fetchRegexp
    refine safe_bind (fetchAll_safe fuel f1 hl1 (hn _ h1) (by omega)) ?_
    rintro ⟨ts, f2⟩ ⟨h2, -⟩
    try dsimp only at *
    have hf2 := Fwd.append h2
    cases ts with
    | nil =>
      refine safe_bind (need_safe (hf2.lexed hl1) (kinds_no_eof [.regexp, .name] [] (by decide))) ?_
      rintro ⟨u, f3⟩ ⟨h3, -⟩
      try dsimp only at *
      exact safe_ok (hf2.trans (Fwd.cons h3))
    | cons u us =>
      refine safe_bind (joinRe_safe c.templates (u :: us) ?_) ?_
      · intro v hv
        exact hl1 v (by rw [h2]; exact List.mem_append_left _ (List.mem_map.2 ⟨v, hv, rfl⟩))
      · intro re _
        split
        · exact safe_ok hf2
        · exact safe_error
  refine safe_bind hre ?_
  rintro ⟨re, f2⟩ h2
  try dsimp only at *
  have hf2 := (Fwd.cons h1).trans h2
  refine safe_bind (need_safe (hf2.lexed hl) (kinds_no_eof [] [59] (by simp))) ?_
  rintro ⟨u, f3⟩ ⟨h3, -⟩
  try dsimp only at *
  exact safe_ok (hf2.trans (Fwd.cons h3))

/-! Node definitions -/

/-- The node being defined is known. -/
def Known (name : List Nat) (c : Ctx) : Prop := ∃ r ∈ c.nodes, r.name = name

theorem known_index {name : List Nat} {c : Ctx} (h : Known name c) : ∃ i, nodeIndex c name = some i := by
  obtain ⟨r, hr, he⟩ := h
  unfold nodeIndex
  cases hx : c.nodes.findIdx? fun r => r.name = name with
  | some i => exact ⟨i, rfl⟩
  | none =>
    rw [List.findIdx?_eq_none_iff] at hx
    have := hx r hr
    simp [he] at this

theorem names_modify (l : List NodeEntry) (i : Nat) (g : NodeEntry → NodeEntry) (hg : ∀ r, (g r).name = r.name) :
    (l.modify i g).map NodeEntry.name = l.map NodeEntry.name := by
  apply List.ext_getElem
  · simp
  · intro k h1 h2
    simp only [List.getElem_map, List.getElem_modify]
    split
    · exact hg _
    · rfl

theorem known_names {name : List Nat} {c : Ctx} : Known name c ↔ name ∈ c.nodes.map NodeEntry.name := by
  unfold Known
  simp only [List.mem_map]

theorem addNode_names (c : Ctx) (name : List Nat) (define : Bool) :
    (∃ l, (declareNode c name define).2 = { c with nodes := l }) ∧ Known name (declareNode c name define).2 ∧
      ∀ m, Known m c → Known m (declareNode c name define).2 := by
  unfold declareNode
  cases h : nodeIndex c name with
  | some i =>
    have hn : ∀ g : Option Chunk, ((c.nodes.modify i fun r => if r.chunk.isNone ∧ define then { r with chunk := g } else r).map NodeEntry.name) =
        c.nodes.map NodeEntry.name := fun g => names_modify _ _ _ (fun r => by split <;> rfl)
    refine ⟨⟨_, rfl⟩, ?_, ?_⟩
    · rw [known_names]
      dsimp only
      rw [hn]
      unfold nodeIndex at h
      rw [List.findIdx?_eq_some_iff_getElem] at h
      obtain ⟨hi, hp, -⟩ := h
      simp only [decide_eq_true_eq] at hp
      rw [List.mem_map]
      exact ⟨_, List.getElem_mem hi, hp⟩
    · intro m hm
      rw [known_names] at hm ⊢
      dsimp only
      rw [hn]
      exact hm
  | none =>
    refine ⟨⟨_, rfl⟩, ⟨_, List.mem_append_right _ (List.mem_singleton.2 rfl), rfl⟩, ?_⟩
    rintro m ⟨r, hr, he⟩
    exact ⟨r, List.mem_append_left _ hr, he⟩

/-- What reading of an expression keeps. -/
def Keeps (name : List Nat) (f : Feed) (c' : Ctx) (f' : Feed) : Prop :=
  Inv c' ∧ Known name c' ∧ Fwd f f' ∧ (rest f').length < (rest f).length

mutual

theorem parseGroup_safe : ∀ (fuel : Nat) (name : List Nat) (c : Ctx) (f : Feed), Inv c → Known name c → Lexed (rest f) →
    3 * (rest f).length + 3 ≤ fuel → Safe (parseGroup fuel name c f) fun r => Keeps name f r.2.1 r.2.2
  | 0, _, _, _, _, _, _, h => by omega
  | fuel + 1, name, c, f, hi, hk, hl, hf => by
    rw [parseGroup]
    refine safe_bind (parseVariants_safe fuel name c f hi hk hl (by omega)) ?_
    rintro ⟨item, c1, f1⟩ ⟨i1, k1, w1, s1⟩
    try dsimp only at *
    have hl1 := w1.lexed hl
    refine safe_bind (tryFetch_safe hl1) ?_
    rintro ⟨t, f2⟩ h
    try dsimp only at *
    have go : ∀ f2, Fwd f1 f2 → Safe (bindL (parseGroup fuel name c1 f2) fun (items, c, f) => .done (.ok (item :: items, c, f)))
        fun r => Keeps name f r.2.1 r.2.2 := by
      intro f2 w2
      have w := w1.trans w2
      have := w2.len
      refine safe_bind (parseGroup_safe fuel name c1 f2 i1 k1 (w.lexed hl) (by omega)) ?_
      rintro ⟨items, c3, f3⟩ ⟨i3, k3, w3, s3⟩
      try dsimp only at *
      exact safe_ok ⟨i3, k3, w.trans w3, by first | omega | (dsimp only; omega)⟩
    rcases h with ⟨rfl, h1, h2⟩ | ⟨u, rfl, h1, h2⟩ | ⟨rfl, h1, h2⟩
    · exact safe_ok ⟨i1, k1, by unfold Fwd; rw [h1]; exact w1, by rw [h1]; exact s1⟩
    · exact go f2 (Fwd.cons h1)
    · exact go f2 (by unfold Fwd; rw [h1, h2])

theorem parseVariants_safe : ∀ (fuel : Nat) (name : List Nat) (c : Ctx) (f : Feed), Inv c → Known name c → Lexed (rest f) →
    3 * (rest f).length + 2 ≤ fuel → Safe (parseVariants fuel name c f) fun r => Keeps name f r.2.1 r.2.2
  | 0, _, _, _, _, _, _, h => by omega
  | fuel + 1, name, c, f, hi, hk, hl, hf => by
    rw [parseVariants]
    refine safe_bind (parseVariant_safe fuel name c f hi hk hl (by omega)) ?_
    rintro ⟨ch, c1, f1⟩ ⟨i1, k1, w1, s1⟩
    try dsimp only at *
    have hl1 := w1.lexed hl
    refine safe_bind (tryFetch_safe hl1) ?_
    rintro ⟨t, f2⟩ h
    try dsimp only at *
    have go : ∀ f2, Fwd f1 f2 → Safe (bindL (moreVariants fuel name c1 f2) fun (chs, c, f) => .done (.ok (Chunk.variant (ch :: chs), c, f)))
        fun r => Keeps name f r.2.1 r.2.2 := by
      intro f2 w2
      have w := w1.trans w2
      have := w2.len
      refine safe_bind (moreVariants_safe fuel name c1 f2 i1 k1 (w.lexed hl) (by omega)) ?_
      rintro ⟨items, c3, f3⟩ ⟨i3, k3, w3, s3⟩
      try dsimp only at *
      exact safe_ok ⟨i3, k3, w.trans w3, by first | omega | (dsimp only; omega)⟩
    rcases h with ⟨rfl, h1, h2⟩ | ⟨u, rfl, h1, h2⟩ | ⟨rfl, h1, h2⟩
    · exact safe_ok ⟨i1, k1, by unfold Fwd; rw [h1]; exact w1, by rw [h1]; exact s1⟩
    · exact go f2 (Fwd.cons h1)
    · exact go f2 (by unfold Fwd; rw [h1, h2])

theorem moreVariants_safe : ∀ (fuel : Nat) (name : List Nat) (c : Ctx) (f : Feed), Inv c → Known name c → Lexed (rest f) →
    3 * (rest f).length + 2 ≤ fuel → Safe (moreVariants fuel name c f) fun r => Keeps name f r.2.1 r.2.2
  | 0, _, _, _, _, _, _, h => by omega
  | fuel + 1, name, c, f, hi, hk, hl, hf => by
    rw [moreVariants]
    refine safe_bind (parseVariant_safe fuel name c f hi hk hl (by omega)) ?_
    rintro ⟨ch, c1, f1⟩ ⟨i1, k1, w1, s1⟩
    try dsimp only at *
    have hl1 := w1.lexed hl
    refine safe_bind (tryFetch_safe hl1) ?_
    rintro ⟨t, f2⟩ h
    try dsimp only at *
    have go : ∀ f2, Fwd f1 f2 → Safe (bindL (moreVariants fuel name c1 f2) fun (chs, c, f) => .done (.ok (ch :: chs, c, f)))
        fun r => Keeps name f r.2.1 r.2.2 := by
      intro f2 w2
      have w := w1.trans w2
      have := w2.len
      refine safe_bind (moreVariants_safe fuel name c1 f2 i1 k1 (w.lexed hl) (by omega)) ?_
      rintro ⟨items, c3, f3⟩ ⟨i3, k3, w3, s3⟩
      try dsimp only at *
      exact safe_ok ⟨i3, k3, w.trans w3, by first | omega | (dsimp only; omega)⟩
    rcases h with ⟨rfl, h1, h2⟩ | ⟨u, rfl, h1, h2⟩ | ⟨rfl, h1, h2⟩
    · exact safe_ok ⟨i1, k1, by unfold Fwd; rw [h1]; exact w1, by rw [h1]; exact s1⟩
    · exact go f2 (Fwd.cons h1)
    · exact go f2 (by unfold Fwd; rw [h1, h2])

theorem parseVariant_safe : ∀ (fuel : Nat) (name : List Nat) (c : Ctx) (f : Feed), Inv c → Known name c → Lexed (rest f) →
    3 * (rest f).length + 1 ≤ fuel → Safe (parseVariant fuel name c f) fun r => Keeps name f r.2.1 r.2.2
  | 0, _, _, _, _, _, _, h => by omega
  | fuel + 1, name, c, f, hi, hk, hl, hf => by
    rw [parseVariant]
    refine safe_bind (need_safe hl (kinds_no_eof [.name, .tokenName, .string] [40, 91, 123] (by decide))) ?_
    rintro ⟨t, f1⟩ ⟨h1, hm⟩
    try dsimp only at *
    have ht : LexTok t := hl t (by rw [h1]; simp)
    have w1 := Fwd.cons h1
    have s1 : (rest f1).length < (rest f).length := by rw [h1]; simp
    have group : Safe (
        let repeated := decide (t.text = opLCurly)
        let optional := decide (t.text ≠ opLBrace)
        let lastToken := if repeated then opRCurly else if optional then opRSquare else opRBrace
        bindL (parseGroup fuel name c f1) fun (items, c, f) =>
          bindL (need [lastToken] f) fun (_, f) => .done (.ok (Chunk.group items optional repeated, c, f)))
        fun r => Keeps name f r.2.1 r.2.2 := by
      dsimp only
      refine safe_bind (parseGroup_safe fuel name c f1 hi hk (w1.lexed hl) (by omega)) ?_
      rintro ⟨items, c2, f2⟩ ⟨i2, k2, w2, s2⟩
      try dsimp only at *
      have hne : ∀ b d : Bool, ¬ Match [if b then opRCurly else if d then opRSquare else opRBrace] ⟨.eof, []⟩ := by
        intro b d
        cases b <;> cases d
        · exact kinds_no_eof [] [41] (by simp)
        · exact kinds_no_eof [] [93] (by simp)
        · exact kinds_no_eof [] [125] (by simp)
        · exact kinds_no_eof [] [125] (by simp)
      refine safe_bind (need_safe ((w1.trans w2).lexed hl) (hne _ _)) ?_
      rintro ⟨u, f3⟩ ⟨h3, -⟩
      try dsimp only at *
      have := (Fwd.cons h3).len
      exact safe_ok ⟨i2, k2, (w1.trans w2).trans (Fwd.cons h3), by first | omega | (dsimp only; omega)⟩
    cases hkd : t.kind with
    | name =>
      dsimp only
      obtain ⟨⟨l, h2⟩, h3, h4⟩ := addNode_names c t.text false
      have hk' := h4 _ hk
      rw [h2] at hk' ⊢
      obtain ⟨j, hj⟩ := known_index hk'
      refine safe_orPanic hj (safe_ok ⟨⟨hi.tokens, hi.extras⟩, ?_, w1, s1⟩)
      rw [known_names] at hk' ⊢
      dsimp only at hk' ⊢
      rw [names_modify l j (fun r => { r with deps := insert (declareNode c t.text false).1 r.deps }) (fun r => rfl)]
      exact hk'
    | tokenName =>
      obtain ⟨x, hx⟩ := lex_tail1 ht
      refine safe_orPanic hx ?_
      split
      · exact safe_ok ⟨hi, hk, w1, s1⟩
      · cases hx : c.tokenIndex.lookup x with
        | none => exact safe_error
        | some i =>
          refine safe_orPanic (List.getElem?_eq_getElem (hi.tokens _ _ hx)) ?_
          split
          · exact safe_error
          · exact safe_ok ⟨hi, hk, w1, s1⟩
    | string =>
      obtain ⟨x, hx⟩ := lex_string ht (.inl hkd)
      refine safe_orPanic hx ?_
      cases hx : c.literalIndex.lookup x with
      | some i => exact safe_ok ⟨hi, hk, w1, s1⟩
      | none =>
        dsimp only
        split
        · exact safe_error
        · obtain ⟨g1, g2⟩ := useLiteralToken_inv hi x {}
          refine safe_ok ⟨g1, ?_, w1, s1⟩
          unfold Known
          rw [g2]
          exact hk
    | _ => exact group

end

theorem parseNodeDef_safe {fuel : Nat} {name : List Nat} {c : Ctx} {f : Feed} (hi : Inv c) (hl : Lexed (rest f))
    (hf : 3 * (rest f).length + 3 ≤ fuel) : Safe (parseNodeDef fuel name c f) fun r => Inv r.1 ∧ Fwd f r.2 := by
  unfold parseNodeDef
  obtain ⟨⟨l, h2⟩, h3, h4⟩ := addNode_names c name true
  dsimp only
  refine safe_bind (need_safe hl (kinds_no_eof [] [61] (by simp))) ?_
  rintro ⟨t, f1⟩ ⟨h1, -⟩
  try dsimp only at *
  have := (Fwd.cons h1).len
  have hi1 : Inv (declareNode c name true).2 := by rw [h2]; exact ⟨hi.tokens, hi.extras⟩
  refine safe_bind (parseGroup_safe fuel name _ f1 hi1 h3 ((Fwd.cons h1).lexed hl) (by omega)) ?_
  rintro ⟨items, c2, f2⟩ ⟨i2, k2, w2, s2⟩
  try dsimp only at *
  have w := (Fwd.cons h1).trans w2
  refine safe_bind (need_safe (w.lexed hl) (kinds_no_eof [] [59] (by simp))) ?_
  rintro ⟨u, f3⟩ ⟨h5, -⟩
  try dsimp only at *
  exact safe_ok ⟨⟨i2.tokens, i2.extras⟩, w.trans (Fwd.cons h5)⟩

/-! The whole description -/

theorem unfinished_suffix {l l' : List (Except LErr LTok)} (h : l' <:+ l) (hu : ¬ Unfinished l) : ¬ Unfinished l' := by
  obtain ⟨p, rfl⟩ := h
  intro hc
  apply hu
  rcases hc with ⟨pre, post, d, rfl, h⟩ | ⟨pre, post, n, rfl, h⟩
  · exact .inl ⟨p ++ pre, post, d, by simp, h⟩
  · exact .inr ⟨p ++ pre, post, n, by simp, h⟩

theorem allMatch_only {l : List (Except LErr LTok)} (hl : Lexed l) {ks : List Kind} (he : Kind.eof ∉ ks)
    (h : AllMatch (ks.map Kind.text) l) : Only ks (ks.map Kind.text) l := by
  intro x hx
  obtain ⟨t, rfl, hm⟩ := h x hx
  refine ⟨t, rfl, ?_⟩
  rcases hm with hm | hm
  · obtain ⟨k, hk, e⟩ := List.mem_map.1 hm
    rw [kind_text_inj e] at hk
    exact .inl hk
  · refine .inr ⟨?_, hm⟩
    obtain ⟨k, hk, e⟩ := List.mem_map.1 hm
    exact text_kind (hl t hx) (fun hc => he (hc ▸ hk)) e.symm

theorem parseHead_safe {okRe : List Nat → Bool} : ∀ (fuel : Nat) (c : Ctx) (f : Feed), Inv c → Lexed (rest f) →
    ¬ Unfinished (rest f) → 3 * (rest f).length + 3 ≤ fuel →
    Safe (parseHead okRe fuel c f) fun r => Inv r.2.1 ∧ Fwd f r.2.2 ∧ (rest r.2.2).length < (rest f).length ∧ r.1.kind = .name ∧ LexTok r.1
  | 0, _, _, _, _, _, h => by omega
  | fuel + 1, c, f, hi, hl, hu, hf => by
    rw [parseHead]
    refine safe_bind (need_safe hl (kinds_no_eof [.name, .dir, .op, .templateName, .tokenName] [] (by decide))) ?_
    rintro ⟨t, f1⟩ ⟨h1, hm⟩
    try dsimp only at *
    have ht : LexTok t := hl t (by rw [h1]; simp)
    have w1 := Fwd.cons h1
    have hl1 := w1.lexed hl
    have s1 : (rest f1).length < (rest f).length := by rw [h1]; simp
    have go : ∀ c2 f2, Inv c2 → Fwd f1 f2 → Safe (parseHead okRe fuel c2 f2)
        fun r => Inv r.2.1 ∧ Fwd f r.2.2 ∧ (rest r.2.2).length < (rest f).length ∧ r.1.kind = .name ∧ LexTok r.1 := by
      intro c2 f2 i2 w2
      have w := w1.trans w2
      have := w2.len
      refine safe_mono (parseHead_safe fuel c2 f2 i2 (w.lexed hl) (unfinished_suffix w hu) (by omega)) ?_
      rintro ⟨u, c3, f3⟩ ⟨i3, w3, s3, k3, l3⟩
      try dsimp only at *
      exact ⟨i3, w.trans w3, by omega, k3, l3⟩
    have re : (t.kind = .tokenName ∨ t.kind = .templateName) → ∀ r, rest f1 = .ok (op 61) :: r →
        ¬ AllMatch [Kind.regexp.text, Kind.name.text] r := by
      intro hk r hr ha
      have hlr : Lexed r := by rw [hr] at hl1; exact lexed_tail hl1
      apply hu
      refine .inr ⟨[], r, t, by rw [h1, hr]; rfl, hk, ?_⟩
      intro x hx
      obtain ⟨u, rfl, hm⟩ := allMatch_only hlr (ks := [.regexp, .name]) (by decide) ha x hx
      refine ⟨u, rfl, .inl ?_⟩
      rcases hm with hm | ⟨hm, -⟩
      · exact hm
      · rw [hm]; simp
    cases hkd : t.kind with
    | name => exact safe_ok ⟨hi, w1, s1, hkd, ht⟩
    | dir =>
      refine safe_bind (parseDir_safe hi hl1 ?_ (by omega)) ?_
      · intro ha
        apply hu
        exact .inl ⟨[], rest f1, t, by rw [h1]; rfl, hkd, allMatch_only hl1 (ks := [.string, .tokenName]) (by decide) ha⟩
      · rintro ⟨c2, f2⟩ ⟨i2, w2⟩
        try dsimp only at *
        exact go c2 f2 i2 w2
    | op =>
      refine safe_bind (parseLayerDef_safe hl1 (by omega)) ?_
      rintro ⟨c2, f2⟩ ⟨⟨l, rfl⟩, w2⟩
      try dsimp only at *
      exact go _ f2 ⟨hi.tokens, hi.extras⟩ w2
    | templateName =>
      have hx : ∃ x, Go.slice t.text 2 t.text.length = some x := by
        unfold LexTok at ht
        rw [hkd] at ht
        obtain ⟨s, hs⟩ := ht
        rw [hs]
        unfold Go.slice
        rw [if_pos (by simp; omega)]
        exact ⟨_, rfl⟩
      obtain ⟨x, hx⟩ := hx
      refine safe_orPanic hx ?_
      split
      · exact safe_error
      · refine safe_bind (parseReDef_safe hl1 (re (.inr hkd)) (by omega)) ?_
        rintro ⟨r, f2⟩ w2
        try dsimp only at *
        exact go _ f2 ⟨hi.tokens, hi.extras⟩ w2
    | tokenName =>
      obtain ⟨x, hx⟩ := lex_tail1 ht
      refine safe_orPanic hx ?_
      have hh : ∃ b, (match c.tokenIndex.lookup x with
            | none => some false
            | some i => (c.tokens[i]?).map fun x => x.re.isSome) = some b := by
        cases hx : c.tokenIndex.lookup x with
        | none => exact ⟨_, rfl⟩
        | some i =>
          dsimp only
          rw [List.getElem?_eq_getElem (hi.tokens _ _ hx)]
          exact ⟨_, rfl⟩
      obtain ⟨b, hb⟩ := hh
      refine safe_orPanic hb ?_
      split
      · exact safe_error
      · refine safe_bind (parseReDef_safe hl1 (re (.inl hkd)) (by omega)) ?_
        rintro ⟨r, f2⟩ w2
        try dsimp only at *
        obtain ⟨c3, h3, h4, -⟩ := addToken_inv hi x r {}
        exact safe_orPanic h3 (go c3 f2 h4 w2)
    | string => exact go c f1 hi (Fwd.refl _)
    | regexp => exact go c f1 hi (Fwd.refl _)
    | eof => exact absurd hkd (lexTok_eof ht)

theorem addExternals_safe : ∀ (ets : List ExtraToken) (c : Ctx), Inv c → Safe (addExternals ets c) Inv
  | [], c, h => safe_ok h
  | et :: ets, c, h => by
    rw [addExternals]
    cases c.extraIndex.lookup et.name with
    | none => exact addExternals_safe ets c h
    | some i =>
      dsimp only
      split
      · obtain ⟨c', h1, h2, -⟩ := addToken_inv h et.name [] et.flags
        exact safe_orPanic h1 (addExternals_safe ets c' h2)
      · exact safe_error

theorem restrictTypes_length (ts : List GToken) : (restrictTypes ts).length = ts.length := by
  induction ts with
  | nil => rfl
  | cons t ts ih =>
    rw [restrictTypes]
    split
    · rfl
    · simp [ih]

theorem finishHead_safe {c : Ctx} (h : Inv c) : Safe (finishHead c) Inv := by
  unfold finishHead
  split
  · exact safe_error
  refine safe_bind (addExternals_safe _ c h) ?_
  intro c1 h1
  refine safe_ok ?_
  have h2 : Inv (if c1.restrictLiteralTypes then { c1 with tokens := restrictTypes c1.tokens } else c1) := by
    split
    · exact ⟨fun n i hi => by simpa [restrictTypes_length] using h1.tokens n i hi, h1.extras⟩
    · exact h1
  generalize (if c1.restrictLiteralTypes then { c1 with tokens := restrictTypes c1.tokens } else c1) = c2 at h2
  have : ∀ (lts : List (List Nat × TokenFlags)) (c : Ctx), Inv c →
      Inv (lts.foldl (fun c lt => (useLiteralToken c lt.1 lt.2).2) c) := by
    intro lts
    induction lts with
    | nil => exact fun c h => h
    | cons lt lts ih => exact fun c h => ih _ (useLiteralToken_inv h _ _).1
  exact this _ _ ⟨h2.tokens, h2.extras⟩

theorem parseBody_safe : ∀ (fuel : Nat) (t : LTok) (c : Ctx) (f : Feed), Inv c → Lexed (rest f) →
    3 * (rest f).length + 4 ≤ fuel → Safe (parseBody fuel t c f) fun _ => True
  | 0, _, _, _, _, _, h => by omega
  | fuel + 1, t, c, f, hi, hl, hf => by
    rw [parseBody]
    split
    · exact safe_ok trivial
    have step : Safe (if t.kind = .op then parseLayerDef fuel t c f
        else if ∃ r ∈ c.nodes, r.name = t.text ∧ r.chunk.isSome then .done (.error .nodeDefined)
        else parseNodeDef fuel t.text c f) fun r => Inv r.1 ∧ Fwd f r.2 := by
      split
      · refine safe_mono (parseLayerDef_safe hl (by omega)) ?_
        rintro ⟨c', f'⟩ ⟨⟨l, rfl⟩, w⟩
        try dsimp only at *
        exact ⟨⟨hi.tokens, hi.extras⟩, w⟩
      · split
        · exact safe_error
        · exact parseNodeDef_safe hi hl (by omega)
    refine safe_bind step ?_
    rintro ⟨c1, f1⟩ ⟨i1, w1⟩
    try dsimp only at *
    have hl1 := w1.lexed hl
    have hlen := w1.len
    unfold need
    cases hr : rest f1 with
    | nil =>
      rw [fetch_nil hr, if_pos (.inl (.inl (by simp)))]
      dsimp only [orPanic, bindL]
      cases fuel with
      | zero => omega
      | succ fuel =>
        rw [parseBody, if_pos rfl]
        exact safe_ok trivial
    | cons x r =>
      cases x with
      | error e =>
        obtain ⟨f', g1, g2⟩ := fetch_error hr [Kind.name.text, Kind.op.text, Kind.eof.text, bytesOf "-eoi-"] true
        rw [g1]; exact safe_error
      | ok u =>
        by_cases hm : Match [Kind.name.text, Kind.op.text, Kind.eof.text, bytesOf "-eoi-"] u
        · obtain ⟨f', g1, g2⟩ := fetch_match hr hm true
          rw [g1]
          dsimp only [orPanic, bindL]
          rw [hr] at hl1 hlen
          simp only [List.length_cons] at hlen
          refine parseBody_safe fuel u c1 f' i1 ?_ ?_
          · rw [g2]; exact lexed_tail hl1
          · rw [g2]; omega
        · rw [hr] at hl1
          obtain ⟨⟨f', g1⟩, -⟩ := fetch_other hr (lexTok_eof (lexed_head hl1)) hm
          rw [g1]; exact safe_error

end Verif.Proof.LangDef
