/-
Reading of grammar descriptions: fetching tokens, termination.
-/
import Verif.Spec.LangDef

namespace Verif.Proof.LangDef

open Verif.Model Verif.Model.LangDef Verif.Spec.LangDef

/-- What is left to read. -/
def rest (f : Feed) : List (Except LErr LTok) :=
  match f.saved with
  | some t => .ok t :: f.inp
  | none => f.inp

/-- A token belongs to a list of types. -/
abbrev Match (types : List (List Nat)) (t : LTok) : Prop := t.kind.text ∈ types ∨ t.text ∈ types

/-- A saved token is not the end of file. -/
def FeedOk (f : Feed) : Prop := ∀ t, f.saved = some t → t.kind ≠ .eof

/-- `rest` tells everything about a feed. -/
theorem next_nil {f : Feed} (h : rest f = []) : next f = (.ok ⟨.eof, []⟩, f) := by
  unfold rest at h
  unfold next
  cases hs : f.saved with
  | some t => rw [hs] at h; cases h
  | none => rw [hs] at h; simp only at h ⊢; rw [h]

theorem next_cons {f : Feed} {x : Except LErr LTok} {r : List (Except LErr LTok)} (h : rest f = x :: r) :
    ∃ f', next f = (x, f') ∧ f'.saved = none ∧ f'.inp = r := by
  unfold rest at h
  unfold next
  cases hs : f.saved with
  | some t =>
    rw [hs] at h
    simp only [List.cons.injEq] at h
    exact ⟨{ f with saved := none }, by rw [← h.1], rfl, h.2⟩
  | none =>
    rw [hs] at h
    simp only at h ⊢
    rw [h]
    exact ⟨_, rfl, rfl, rfl⟩

theorem rest_none {f : Feed} (h : f.saved = none) : rest f = f.inp := by unfold rest; rw [h]

/-- `fetch` at the end. -/
theorem fetch_nil {f : Feed} (h : rest f = []) (types : List (List Nat)) (strict : Bool) :
    fetch types strict f = some (if Match types ⟨.eof, []⟩ ∨ strict = false then .ok (some ⟨.eof, []⟩) else .error .eof, f) := by
  unfold fetch
  rw [next_nil h]
  simp only
  by_cases hm : Match types ⟨.eof, []⟩
  · rw [if_pos hm, if_pos (Or.inl hm)]
  · rw [if_neg hm]
    cases strict <;> simp [hm]

/-- `fetch` of an error. -/
theorem fetch_error {f : Feed} {e : LErr} {r : List (Except LErr LTok)} (h : rest f = .error e :: r) (types : List (List Nat))
    (strict : Bool) : ∃ f', fetch types strict f = some (.error e, f') ∧ rest f' = r := by
  obtain ⟨f', h1, h2, h3⟩ := next_cons h
  refine ⟨f', ?_, by rw [rest_none h2, h3]⟩
  unfold fetch
  rw [h1]

/-- `fetch` of a suitable token. -/
theorem fetch_match {f : Feed} {t : LTok} {r : List (Except LErr LTok)} (h : rest f = .ok t :: r) {types : List (List Nat)}
    (hm : Match types t) (strict : Bool) : ∃ f', fetch types strict f = some (.ok (some t), f') ∧ rest f' = r := by
  obtain ⟨f', h1, h2, h3⟩ := next_cons h
  refine ⟨f', ?_, by rw [rest_none h2, h3]⟩
  unfold fetch
  rw [h1]
  simp only
  exact if_pos hm

/-- `fetch` of another token. -/
theorem fetch_other {f : Feed} {t : LTok} {r : List (Except LErr LTok)} (h : rest f = .ok t :: r) (ht : t.kind ≠ .eof)
    {types : List (List Nat)} (hm : ¬ Match types t) : (∃ f', fetch types true f = some (.error .unexpectedToken, f')) ∧
      ∃ f', fetch types false f = some (.ok none, f') ∧ rest f' = rest f := by
  obtain ⟨f', h1, h2, h3⟩ := next_cons h
  unfold fetch
  rw [h1]
  simp only
  simp only [if_neg hm, if_neg ht]
  refine ⟨⟨_, rfl⟩, { f' with saved := some t }, ?_, ?_⟩
  · simp [put, h2]
  · rw [h]; simp [rest, h3]

/-- A run that returns, with a condition on the result. -/
def Safe {α : Type} (x : LRes α) (q : α → Prop) : Prop := ∃ r, x = .done r ∧ ∀ a, r = .ok a → q a

theorem safe_ok {α : Type} {q : α → Prop} {a : α} (h : q a) : Safe (.done (.ok a)) q :=
  ⟨_, rfl, fun b hb => by cases hb; exact h⟩

theorem safe_error {α : Type} {q : α → Prop} {e : LErr} : Safe (α := α) (.done (.error e)) q :=
  ⟨_, rfl, fun b hb => by cases hb⟩

theorem safe_bind {α β : Type} {x : LRes α} {p : α → Prop} {f : α → LRes β} {q : β → Prop} (h : Safe x p)
    (hf : ∀ a, p a → Safe (f a) q) : Safe (bindL x f) q := by
  obtain ⟨r, rfl, hr⟩ := h
  cases r with
  | ok a => exact hf a (hr a rfl)
  | error e => exact safe_error

theorem safe_mono {α : Type} {x : LRes α} {p q : α → Prop} (h : Safe x p) (hq : ∀ a, p a → q a) : Safe x q := by
  obtain ⟨r, rfl, hr⟩ := h
  exact ⟨r, rfl, fun a ha => hq a (hr a ha)⟩

theorem safe_orPanic {α β : Type} {x : Option α} {f : α → LRes β} {q : β → Prop} {a : α} (h : x = some a) (hf : Safe (f a) q) :
    Safe (orPanic x f) q := by rw [h]; exact hf

/-- Tokens are as the lexer makes them. -/
theorem lexed_tail {x : Except LErr LTok} {r : List (Except LErr LTok)} (h : Lexed (x :: r)) : Lexed r :=
  fun t ht => h t (by simp [ht])

theorem lexed_suffix {l l' : List (Except LErr LTok)} (h : Lexed l) (hs : l' <:+ l) : Lexed l' :=
  fun t ht => h t (hs.subset ht)

theorem lexed_head {t : LTok} {r : List (Except LErr LTok)} (h : Lexed (.ok t :: r)) : LexTok t := h t (by simp)

theorem lexTok_eof {t : LTok} (h : LexTok t) : t.kind ≠ .eof := by
  intro hk
  unfold LexTok at h
  rw [hk] at h
  exact h

/-- A strict fetch: the token is consumed. -/
theorem need_safe {f : Feed} (hl : Lexed (rest f)) {types : List (List Nat)} (he : ¬ Match types ⟨.eof, []⟩) :
    Safe (need types f) fun (t, f') => rest f = .ok t :: rest f' ∧ Match types t := by
  unfold need
  cases hr : rest f with
  | nil =>
    rw [fetch_nil hr]
    simp only [he, Bool.true_eq_false, or_self, if_false]
    exact safe_error
  | cons x r =>
    cases x with
    | error e =>
      obtain ⟨f', h1, h2⟩ := fetch_error hr types true
      rw [h1]; exact safe_error
    | ok t =>
      by_cases hm : Match types t
      · obtain ⟨f', h1, h2⟩ := fetch_match hr hm true
        rw [h1]
        exact safe_ok ⟨by rw [h2], hm⟩
      · rw [hr] at hl
        obtain ⟨⟨f', h1⟩, -⟩ := fetch_other hr (lexTok_eof (lexed_head hl)) hm
        rw [h1]; exact safe_error

/-- A fetch that may give nothing. -/
theorem tryFetch_safe {f : Feed} (hl : Lexed (rest f)) {types : List (List Nat)} :
    Safe (tryFetch types f) fun (t, f') =>
      (t = none ∧ rest f' = rest f ∧ rest f ≠ []) ∨ (∃ u, t = some u ∧ rest f = .ok u :: rest f' ∧ Match types u) ∨
        (t = some ⟨.eof, []⟩ ∧ rest f = [] ∧ rest f' = []) := by
  unfold tryFetch
  cases hr : rest f with
  | nil =>
    rw [fetch_nil hr]
    simp only [or_true, if_true]
    exact safe_ok (.inr (.inr ⟨rfl, trivial, hr⟩))
  | cons x r =>
    cases x with
    | error e =>
      obtain ⟨f', h1, h2⟩ := fetch_error hr types false
      rw [h1]; exact safe_error
    | ok t =>
      by_cases hm : Match types t
      · obtain ⟨f', h1, h2⟩ := fetch_match hr hm false
        rw [h1]
        exact safe_ok (.inr (.inl ⟨t, rfl, by rw [h2], hm⟩))
      · rw [hr] at hl
        obtain ⟨-, f', h1, h2⟩ := fetch_other hr (lexTok_eof (lexed_head hl)) hm
        rw [h1]
        exact safe_ok (.inl ⟨rfl, by rw [h2, hr], by simp⟩)

/-- All remaining tokens are of given types. -/
def AllMatch (types : List (List Nat)) (l : List (Except LErr LTok)) : Prop := ∀ x ∈ l, ∃ t, x = .ok t ∧ Match types t

theorem fetchAll_safe {types : List (List Nat)} : ∀ (fuel : Nat) (f : Feed), Lexed (rest f) → ¬ AllMatch types (rest f) →
    (rest f).length ≤ fuel →
    Safe (fetchAll fuel types f) fun (ts, f') => rest f = ts.map .ok ++ rest f' ∧ ∀ t ∈ ts, Match types t
  | 0, f, hl, hn, hf => by
    have : rest f = [] := List.eq_nil_of_length_eq_zero (by omega)
    rw [this] at hn
    exact absurd (fun x hx => absurd hx (by simp)) hn
  | fuel + 1, f, hl, hn, hf => by
    rw [fetchAll]
    refine safe_bind (tryFetch_safe hl) ?_
    rintro ⟨t, f'⟩ h
    rcases h with ⟨rfl, h1, h2⟩ | ⟨u, rfl, h1, h2⟩ | ⟨rfl, h1, h2⟩
    · exact safe_ok ⟨by simp [h1], by simp⟩
    · rw [h1] at hl hn hf
      refine safe_bind (fetchAll_safe fuel f' (lexed_tail hl) ?_ (by simpa using hf)) ?_
      · intro ha
        apply hn
        intro x hx
        rcases List.mem_cons.1 hx with rfl | hx
        · exact ⟨u, rfl, h2⟩
        · exact ha x hx
      · rintro ⟨ts, f''⟩ ⟨h3, h4⟩
        refine safe_ok ⟨?_, ?_⟩
        · rw [h1, h3]; simp
        · intro t ht
          rcases List.mem_cons.1 ht with rfl | ht
          · exact h2
          · exact h4 t ht
    · rw [h1] at hn
      exact absurd (fun x hx => absurd hx (by simp)) hn

/-- The list never ends if the text does. -/
theorem fetchAll_hangs {types : List (List Nat)} : ∀ (fuel : Nat) (f : Feed), AllMatch types (rest f) →
    fetchAll fuel types f = .timeout
  | 0, _, _ => rfl
  | fuel + 1, f, h => by
    rw [fetchAll]
    unfold tryFetch
    cases hr : rest f with
    | nil =>
      rw [fetch_nil hr]
      simp only [or_true, if_true, orPanic, bindL]
      rw [fetchAll_hangs fuel f h]
    | cons x r =>
      obtain ⟨t, rfl, hm⟩ := h x (by rw [hr]; simp)
      obtain ⟨f', h1, h2⟩ := fetch_match hr hm false
      rw [h1]
      simp only [orPanic, bindL]
      rw [fetchAll_hangs fuel f']
      rw [h2]
      intro y hy
      exact h y (by rw [hr]; simp [hy])

end Verif.Proof.LangDef
