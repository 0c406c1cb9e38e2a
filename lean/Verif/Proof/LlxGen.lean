/-
Lemmas about `Model/LlxGen`.
-/
import Verif.Model.LlxGen
import Verif.Spec.GoText
import Mathlib.Data.List.Chain

namespace Verif.Proof.LlxGen

open Verif.Model Verif.Model.LangDef Verif.Model.LlxGen Verif.Spec Verif.Spec.GoText

/-- Reading `text` in state `st` gives tokens `ts` and leads to state `st'`. -/
abbrev Reads (st : St) (text : List Nat) (ts : List Tok) (st' : St) : Prop := run st text = some (ts, st')

theorem run_append (st : St) (a b : List Nat) :
    run st (a ++ b) = (run st a).bind fun r => (run r.2 b).map fun r' => (r.1 ++ r'.1, r'.2) := by
  induction a generalizing st with
  | nil =>
    simp only [List.nil_append, run, Option.bind_some]
    cases run st b <;> rfl
  | cons x a ih =>
    simp only [List.cons_append, run]
    cases step st x with
    | none => rfl
    | some r =>
      simp only [Option.bind_some, ih]
      cases run r.2 a with
      | none => rfl
      | some r' =>
        simp only [Option.bind_some, Option.map_some]
        cases run r'.2 b with
        | none => rfl
        | some r'' => simp only [Option.map_some, List.append_assoc]

theorem Reads.append {st st' st'' : St} {a b : List Nat} {ts us : List Tok} (h1 : Reads st a ts st') (h2 : Reads st' b us st'') :
    Reads st (a ++ b) (ts ++ us) st'' := by
  unfold Reads
  rw [run_append, h1, Option.bind_some, h2]
  rfl

theorem reads_nil (st : St) : Reads st [] [] st := rfl

theorem reads_one {st st' : St} {b : Nat} {ts : List Tok} (h : step st b = some (ts, st')) : Reads st [b] ts st' := by
  unfold Reads
  simp only [run, h, Option.bind_some, Option.map_some, List.append_nil]

theorem run_cons {st : St} {b : Nat} {t : List Nat} {r : List Tok × St} (h : step st b = some r) :
    run st (b :: t) = (run r.2 t).map fun r' => (r.1 ++ r'.1, r'.2) := by
  rw [run, h, Option.bind_some]

/-- A token is ended by a byte. -/
theorem reads_after {st st' : St} {tok : Tok} {semi : Bool} {b : Nat} {t : List Nat} {ts : List Tok} (h : step st b = after tok semi b)
    (hr : Reads (.start semi) (b :: t) ts st') : Reads st (b :: t) (tok :: ts) st' := by
  unfold Reads at hr ⊢
  rw [run] at hr ⊢
  rw [h, after]
  rw [step] at hr
  cases hf : fresh semi b with
  | none => rw [hf] at hr; cases hr
  | some r =>
    rw [hf, Option.bind_some, Option.map_eq_some_iff] at hr
    obtain ⟨r', hr', he⟩ := hr
    rw [Option.map_some, Option.bind_some, hr', Option.map_some]
    simp only [Prod.mk.injEq] at he
    obtain ⟨rfl, rfl⟩ := he
    rfl

theorem reads_num_end {n : Nat} {b : Nat} {t : List Nat} {ts : List Tok} {st' : St} (hd : isDigit b = false) (hl : isLetter b = false) (h46 : b ≠ 46)
    (hr : Reads (.start true) (b :: t) ts st') : Reads (.num n) (b :: t) (.num n :: ts) st' := by
  refine reads_after ?_ hr
  simp [step, hd, hl, h46]

theorem reads_word_end {w : List Nat} {b : Nat} {t : List Nat} {ts : List Tok} {st' : St} (hd : isDigit b = false) (hl : isLetter b = false)
    (hw : w ∉ keywords) (hr : Reads (.start true) (b :: t) ts st') : Reads (.word w) (b :: t) (.word w :: ts) st' := by
  refine reads_after (semi := true) ?_ hr
  simp [step, hd, hl, hw]

theorem reads_word_end' {w : List Nat} {b : Nat} {text : List Nat} {ts : List Tok} {st' : St} (hd : isDigit b = false) (hl : isLetter b = false)
    (hw : w ∉ keywords) (hr : Reads (.start true) text ts st') (hh : text.head? = some b) : Reads (.word w) text (.word w :: ts) st' := by
  cases text with
  | nil => cases hh
  | cons c t => cases hh; exact reads_word_end hd hl hw hr

/-! Numbers -/

theorem fresh_digit (s : Bool) {d : Nat} (hd : d < 10) : fresh s (48 + d) = some ([], .num d) := by
  have hl : isLetter (48 + d) = false := by simp [isLetter]; omega
  have hg : isDigit (48 + d) = true := by simp [isDigit]; omega
  unfold fresh
  rw [if_neg (by omega), if_neg (by omega), if_neg (by omega), hl, hg]
  simp

theorem reads_dec (s : Bool) (n : Nat) : Reads (.start s) (dec n) [] (.num n) := by
  induction n using Nat.strong_induction_on with
  | _ n ih =>
    rw [dec]
    split
    · next h => exact reads_one (by rw [step]; exact fresh_digit s h)
    · next h =>
      refine (ih (n / 10) (by omega)).append (us := []) (reads_one ?_)
      have hg : isDigit (48 + n % 10) = true := by simp [isDigit]; omega
      rw [step, hg, if_pos rfl, if_neg (by omega)]
      congr 3
      omega

theorem dec_head (n : Nat) : ∃ d t, dec n = (48 + d) :: t ∧ d < 10 := by
  induction n using Nat.strong_induction_on with
  | _ n ih =>
    rw [dec]
    split
    · next h => exact ⟨n, [], rfl, h⟩
    · next h =>
      obtain ⟨d, t, he, hd⟩ := ih (n / 10) (by omega)
      exact ⟨d, t ++ [48 + n % 10], by rw [he]; rfl, hd⟩

theorem reads_decInt (i : Int) : ∃ pre m, Reads (.start false) (decInt i) pre (.num m) ∧ IsExpr (.int i) (pre ++ [.num m]) := by
  cases i with
  | ofNat n => exact ⟨[], n, reads_dec _ n, .nat n⟩
  | negSucc n =>
    refine ⟨[.op 45], n + 1, ?_, .neg (n + 1)⟩
    rw [decInt]
    show Reads _ ([45] ++ dec (n + 1)) ([] ++ [.op 45]) _
    refine Reads.append (st' := .op 45) (by decide +kernel) ?_
    obtain ⟨d, t, he, hd⟩ := dec_head (n + 1)
    have h := reads_dec false (n + 1)
    rw [he] at h ⊢
    refine reads_after ?_ h
    have h1 : (48 + d) ∉ longOps := by
      have : ∀ d < 10, (48 + d) ∉ longOps := by decide +kernel
      exact this d hd
    simp [step, h1]

/-! Names -/

theorem letter_iff (b : Nat) : isName.letter b = isLetter b := by
  rw [Bool.eq_iff_iff]
  simp only [isName.letter, isLetter, Bool.or_eq_true, Bool.and_eq_true, decide_eq_true_eq, beq_iff_eq]
  omega

theorem fresh_letter (s : Bool) {b : Nat} (hb : isLetter b = true) : fresh s b = some ([], .word [b]) := by
  have : 65 ≤ b := by
    simp only [isLetter, decide_eq_true_eq] at hb
    omega
  unfold fresh
  rw [if_neg (by omega), if_neg (by omega), if_neg (by omega), hb]
  rfl

theorem reads_letters {w t : List Nat} (ht : ∀ c ∈ t, isLetter c = true ∨ isDigit c = true) : Reads (.word w) t [] (.word (w ++ t)) := by
  induction t generalizing w with
  | nil => rw [List.append_nil]; exact reads_nil _
  | cons b t ih =>
    have h1 : step (.word w) b = some ([], .word (w ++ [b])) := by
      rw [step, if_pos (ht b (by simp))]
    have h2 := ih (w := w ++ [b]) fun c hc => ht c (by simp [hc])
    rw [List.append_assoc] at h2
    exact (reads_one h1).append h2

theorem reads_name (s : Bool) {w : List Nat} (hw : isName w = true) : Reads (.start s) w [] (.word w) := by
  cases w with
  | nil => cases hw
  | cons b t =>
    simp only [isName, Bool.and_eq_true, letter_iff, List.all_eq_true, Bool.or_eq_true, decide_eq_true_eq] at hw
    refine (reads_one (b := b) (by rw [step]; exact fresh_letter s hw.1)).append (reads_letters fun c hc => ?_)
    rcases hw.2 c hc with h | h
    · exact .inl h
    · exact .inr (by simp [isDigit, h])

/-! Strings -/

theorem reads_plain {acc bs : List Nat} (h : ∀ b ∈ bs, b ≠ 34 ∧ b ≠ 92 ∧ b ≠ 10 ∧ b ≠ 0) : Reads (.str acc) bs [] (.str (acc ++ bs)) := by
  induction bs generalizing acc with
  | nil => rw [List.append_nil]; exact reads_nil _
  | cons b t ih =>
    obtain ⟨h1, h2, h3, h4⟩ := h b (by simp)
    have hs : step (.str acc) b = some ([], .str (acc ++ [b])) := by
      rw [step, if_neg h1, if_neg h2, if_neg (by omega)]
    have ht := ih (acc := acc ++ [b]) fun c hc => h c (by simp [hc])
    rw [List.append_assoc] at ht
    exact (reads_one hs).append ht

theorem hexValue_char {d : Nat} (hd : d < 16) : hexValue (hexChar d) = some d := by
  have : ∀ d < 16, hexValue (hexChar d) = some d := by decide
  exact this d hd

theorem reads_hexs (acc : List Nat) (kind : EscKind) : ∀ k j n, 0 < j → n < 16 ^ k →
    Reads (.hex acc kind (k + j) 0) (hexChars k n) [] (.hex acc kind j n) := by
  intro k
  induction k with
  | zero =>
    intro j n hj hn
    obtain rfl : n = 0 := by simpa using hn
    rw [Nat.zero_add]
    exact reads_nil _
  | succ k ih =>
    intro j n hj hn
    have h1 := ih (j + 1) (n / 16) (by omega) (by rw [pow_succ] at hn; omega)
    rw [show k + 1 + j = k + (j + 1) by omega, hexChars]
    refine h1.append (us := []) (reads_one ?_)
    rw [step, hexValue_char (Nat.mod_lt _ (by omega)), Option.bind_some]
    dsimp only
    rw [if_neg (by omega)]
    congr 3
    omega

theorem reads_hex_last {acc : List Nat} {kind : EscKind} {k n : Nat} (hn : n < 16 ^ (k + 1)) {v : List Nat}
    (hv : match kind with
      | .byte => v = [n]
      | .rune => Text.IsScalar n ∧ v = Text.encodeRune n) :
    Reads (.hex acc kind (k + 1) 0) (hexChars (k + 1) n) [] (.str (acc ++ v)) := by
  rw [hexChars]
  have h1 := reads_hexs acc kind k 1 (n / 16) (by omega) (by rw [pow_succ] at hn; omega)
  refine h1.append (us := []) (reads_one ?_)
  rw [step, hexValue_char (Nat.mod_lt _ (by omega)), Option.bind_some]
  dsimp only
  rw [if_pos (by omega), show n / 16 * 16 + n % 16 = n by omega]
  cases kind with
  | byte => rw [hv]
  | rune => rw [if_pos hv.1, hv.2]

/-- `\` and a letter. -/
theorem reads_escape (acc : List Nat) {b c : Nat} (h : escapes.lookup b = some c) : Reads (.str acc) [92, b] [] (.str (acc ++ [c])) := by
  refine Reads.append (a := [92]) (b := [b]) (ts := []) (us := []) (st' := .esc acc) (reads_one ?_) (reads_one ?_)
  · rw [step, if_neg (by omega), if_pos rfl]
  · rw [step, h]

theorem reads_hexEscape (acc : List Nat) {b k : Nat} {kind : EscKind} (h0 : escapes.lookup b = none) (h : hexEscapes.lookup b = some (kind, k)) :
    Reads (.str acc) [92, b] [] (.hex acc kind k 0) := by
  refine Reads.append (a := [92]) (b := [b]) (ts := []) (us := []) (st' := .esc acc) (reads_one ?_) (reads_one ?_)
  · rw [step, if_neg (by omega), if_pos rfl]
  · rw [step, h0, h]

theorem appendRune_encode {r : Nat} (h : Text.IsScalar r) : appendRune [] r = Text.encodeRune r := by
  unfold appendRune Text.encodeRune
  unfold Text.IsScalar at h
  by_cases h1 : r ≤ 0x7F
  · rw [if_pos h1, if_pos (show r < 0x80 by omega), List.nil_append]
  · rw [if_neg h1, if_neg (show ¬ r < 0x80 by omega)]
    by_cases h2 : r ≤ 0x7FF
    · rw [if_pos h2, if_pos (show r < 0x800 by omega), List.nil_append]
    · rw [if_neg h2, if_neg (show ¬ r < 0x800 by omega)]
      dsimp only
      rw [if_neg (show ¬ (r > 0x10FFFF ∨ 0xD800 ≤ r ∧ r ≤ 0xDFFF) by omega)]
      by_cases h3 : r ≤ 0xFFFF
      · rw [if_pos h3, if_pos (show r < 0x10000 by omega), List.nil_append]
      · rw [if_neg h3, if_neg (show ¬ r < 0x10000 by omega), List.nil_append]

theorem encode_bytes {r b : Nat} (h : Text.IsScalar r) (hb : b ∈ Text.encodeRune r) : (r < 0x80 ∧ b = r) ∨ (0x80 ≤ b ∧ b < 256) := by
  unfold Text.encodeRune at hb
  unfold Text.IsScalar at h
  split at hb
  · simp only [List.mem_singleton] at hb
    omega
  · split at hb
    · simp only [List.mem_cons, List.not_mem_nil, or_false] at hb
      omega
    · split at hb
      · simp only [List.mem_cons, List.not_mem_nil, or_false] at hb
        omega
      · simp only [List.mem_cons, List.not_mem_nil, or_false] at hb
        omega

/-- Control characters are not printable. -/
def Sane (isPrint : Nat → Bool) : Prop := ∀ r < 32, isPrint r = false

theorem reads_escapeRune {isPrint : Nat → Bool} (hp : Sane isPrint) (acc : List Nat) {r : Nat} (hr : Text.IsScalar r) :
    Reads (.str acc) (escapeRune isPrint r) [] (.str (acc ++ Text.encodeRune r)) := by
  have hone : r < 128 → Text.encodeRune r = [r] := fun h => by rw [Text.encodeRune, if_pos h]
  unfold escapeRune
  by_cases h0 : r = 34 ∨ r = 92
  · rw [if_pos h0]
    rcases h0 with rfl | rfl
    · exact reads_escape acc (by decide)
    · exact reads_escape acc (by decide)
  rw [if_neg h0]
  by_cases hpr : isPrint r = true
  · rw [if_pos hpr, appendRune_encode hr]
    refine reads_plain fun b hb => ?_
    have h32 : 32 ≤ r := by
      by_contra hlt
      rw [hp r (by omega)] at hpr
      cases hpr
    rcases encode_bytes hr hb with ⟨-, rfl⟩ | h
    · omega
    · omega
  rw [if_neg hpr]
  by_cases g0 : r = 7
  · rw [if_pos g0, g0]; exact reads_escape acc (by decide)
  rw [if_neg g0]
  by_cases g1 : r = 8
  · rw [if_pos g1, g1]; exact reads_escape acc (by decide)
  rw [if_neg g1]
  by_cases g2 : r = 12
  · rw [if_pos g2, g2]; exact reads_escape acc (by decide)
  rw [if_neg g2]
  by_cases g3 : r = 10
  · rw [if_pos g3, g3]; exact reads_escape acc (by decide)
  rw [if_neg g3]
  by_cases g4 : r = 13
  · rw [if_pos g4, g4]; exact reads_escape acc (by decide)
  rw [if_neg g4]
  by_cases g5 : r = 9
  · rw [if_pos g5, g5]; exact reads_escape acc (by decide)
  rw [if_neg g5]
  by_cases g6 : r = 11
  · rw [if_pos g6, g6]; exact reads_escape acc (by decide)
  rw [if_neg g6]
  by_cases hx : r < 32 ∨ r = 127
  · rw [if_pos hx, hone (by omega)]
    exact (reads_hexEscape (kind := .byte) (k := 2) acc (by decide) (by decide)).append
      (reads_hex_last (k := 1) (by omega) rfl)
  rw [if_neg hx]
  have hv : validRune r = true := by
    unfold Text.IsScalar at hr
    simp only [validRune, Bool.or_eq_true, decide_eq_true_eq, Bool.and_eq_true]
    omega
  rw [if_pos hv]
  dsimp only
  by_cases h16 : r < 0x10000
  · rw [if_pos h16]
    exact (reads_hexEscape (kind := .rune) (k := 4) acc (by decide) (by decide)).append
      (reads_hex_last (k := 3) (by omega) ⟨hr, rfl⟩)
  · rw [if_neg h16]
    exact (reads_hexEscape (kind := .rune) (k := 8) acc (by decide) (by decide)).append
      (reads_hex_last (k := 7) (by unfold Text.IsScalar at hr; omega) ⟨hr, rfl⟩)

/-- What `DecodeRune` returns. -/
theorem decode_cases (b : Nat) (t : List Nat) :
    ((Utf8.decodeRune (b :: t)).2 = 1 ∧ (Utf8.decodeRune (b :: t)).1 = Utf8.runeError) ∨
    (Text.IsScalar (Utf8.decodeRune (b :: t)).1 ∧
      (b :: t) = Text.encodeRune (Utf8.decodeRune (b :: t)).1 ++ (b :: t).drop (Utf8.decodeRune (b :: t)).2) := by
  rw [Utf8.decodeRune.eq_def]
  dsimp only
  by_cases hb : b < 0x80
  · simp only [hb, if_true]
    right
    refine ⟨.inl (by omega), ?_⟩
    rw [Text.encodeRune, if_pos hb]
    rfl
  · simp only [hb, if_false]
    have hfirst : (Utf8.first b).1 = 2 → 0xC2 ≤ b ∧ b ≤ 0xDF ∧ Utf8.first b = (2, 0x80, 0xBF) := by
      unfold Utf8.first; split_ifs <;> simp <;> omega
    have hfirst3 : (Utf8.first b).1 = 3 → 0xE0 ≤ b ∧ b ≤ 0xEF ∧ (b = 0xE0 → (Utf8.first b).2.1 = 0xA0) ∧ (b = 0xED → (Utf8.first b).2.2 = 0x9F) ∧
        0x80 ≤ (Utf8.first b).2.1 ∧ (Utf8.first b).2.2 ≤ 0xBF := by
      unfold Utf8.first; split_ifs <;> simp <;> omega
    have hfirst4 : (Utf8.first b).1 = 4 → 0xF0 ≤ b ∧ b ≤ 0xF4 ∧ (b = 0xF0 → (Utf8.first b).2.1 = 0x90) ∧ (b = 0xF4 → (Utf8.first b).2.2 = 0x8F) ∧
        0x80 ≤ (Utf8.first b).2.1 ∧ (Utf8.first b).2.2 ≤ 0xBF := by
      unfold Utf8.first; split_ifs <;> simp <;> omega
    generalize Utf8.first b = f at *
    split
    · next lo hi b1 t' =>
      obtain ⟨h1, h2, h3⟩ := hfirst rfl
      simp only [Prod.mk.injEq] at h3
      obtain ⟨-, rfl, rfl⟩ := h3
      split
      · next h =>
        right
        refine ⟨.inl (by dsimp only; omega), ?_⟩
        dsimp only
        rw [Text.encodeRune, if_neg (by omega), if_pos (by omega)]
        simp only [List.drop_succ_cons, List.drop_zero, List.cons_append, List.nil_append, List.cons.injEq, and_true]
        omega
      · left; exact ⟨rfl, rfl⟩
    · next lo hi b1 b2 t' =>
      obtain ⟨h1, h2, h3, h4, h5, h6⟩ := hfirst3 rfl
      dsimp only at h3 h4 h5 h6
      split
      · next h =>
        right
        simp only [Utf8.cont, Bool.and_eq_true, decide_eq_true_eq] at h
        obtain ⟨g1, g2, g3, g4⟩ := h
        have hlo : 0x800 ≤ ((b - 0xE0) * 64 + (b1 - 0x80)) * 64 + (b2 - 0x80) := by
          by_cases he : b = 0xE0
          · have := h3 he; omega
          · omega
        have hsc : ((b - 0xE0) * 64 + (b1 - 0x80)) * 64 + (b2 - 0x80) < 0xD800 ∨ 0xE000 ≤ ((b - 0xE0) * 64 + (b1 - 0x80)) * 64 + (b2 - 0x80) := by
          by_cases he : b = 0xED
          · have := h4 he; omega
          · omega
        refine ⟨?_, ?_⟩
        · unfold Text.IsScalar
          dsimp only
          omega
        · dsimp only
          rw [Text.encodeRune, if_neg (by omega), if_neg (by omega), if_pos (by omega)]
          simp only [List.drop_succ_cons, List.drop_zero, List.cons_append, List.nil_append, List.cons.injEq, and_true]
          omega
      · left; exact ⟨rfl, rfl⟩
    · next lo hi b1 b2 b3 t' =>
      obtain ⟨h1, h2, h3, h4, h5, h6⟩ := hfirst4 rfl
      dsimp only at h3 h4 h5 h6
      split
      · next h =>
        right
        simp only [Utf8.cont, Bool.and_eq_true, decide_eq_true_eq] at h
        obtain ⟨g1, g2, ⟨g3, g4⟩, g5, g6⟩ := h
        have hlo : 0x10000 ≤ (((b - 0xF0) * 64 + (b1 - 0x80)) * 64 + (b2 - 0x80)) * 64 + (b3 - 0x80) := by
          by_cases he : b = 0xF0
          · have := h3 he; omega
          · omega
        have hsc : (((b - 0xF0) * 64 + (b1 - 0x80)) * 64 + (b2 - 0x80)) * 64 + (b3 - 0x80) < 0x110000 := by
          by_cases he : b = 0xF4
          · have := h4 he; omega
          · omega
        refine ⟨.inr ⟨by dsimp only; omega, hsc⟩, ?_⟩
        dsimp only
        rw [Text.encodeRune, if_neg (by omega), if_neg (by omega), if_neg (by omega)]
        simp only [List.drop_succ_cons, List.drop_zero, List.cons_append, List.nil_append, List.cons.injEq, and_true]
        omega
      · left; exact ⟨rfl, rfl⟩
    · left; exact ⟨rfl, rfl⟩

theorem reads_quoteLoop {isPrint : Nat → Bool} (hp : Sane isPrint) : ∀ (n : Nat) (s acc : List Nat), s.length ≤ n → (∀ b ∈ s, b < 256) →
    Reads (.str acc) (quoteLoop isPrint s) [] (.str (acc ++ s)) := by
  intro n
  induction n with
  | zero =>
    intro s acc hl _
    obtain rfl : s = [] := List.length_eq_zero_iff.1 (by omega)
    rw [quoteLoop, List.append_nil]
    exact reads_nil _
  | succ n ih =>
    intro s acc hl hb
    cases s with
    | nil => rw [quoteLoop, List.append_nil]; exact reads_nil _
    | cons b t =>
      have hw := Utf8.decodeRune_width_pos b t
      have hlen : ((b :: t).drop (Utf8.decodeRune (b :: t)).2).length ≤ n := by
        rw [List.length_drop]; omega
      have hb' : ∀ c ∈ (b :: t).drop (Utf8.decodeRune (b :: t)).2, c < 256 := fun c hc => hb c (List.mem_of_mem_drop hc)
      rw [quoteLoop]
      split
      · next h =>
        rw [h.1] at hlen hb' ⊢
        have h1 : Reads (.str acc) ([92, 120] ++ hexChars 2 b) [] (.str (acc ++ [b])) :=
          (reads_hexEscape (kind := .byte) (k := 2) acc (by decide) (by decide)).append
            (reads_hex_last (k := 1) (by have := hb b (by simp); omega) rfl)
        have h2 := h1.append (ih _ (acc ++ [b]) hlen hb')
        rw [show acc ++ [b] ++ (b :: t).drop 1 = acc ++ b :: t by simp] at h2
        exact h2
      · next h =>
        rcases decode_cases b t with h' | ⟨hsc, he⟩
        · exact absurd h' h
        · have h2 := (reads_escapeRune hp acc hsc).append (ih _ (acc ++ Text.encodeRune (Utf8.decodeRune (b :: t)).1) hlen hb')
          rw [List.append_assoc, ← he] at h2
          exact h2

theorem reads_quote {isPrint : Nat → Bool} (hp : Sane isPrint) (s : Bool) {x : List Nat} (hx : ∀ b ∈ x, b < 256) :
    Reads (.start s) (quote isPrint x) [.str x] (.start true) := by
  unfold quote
  have h1 : Reads (.start s) [34] [] (.str []) := reads_one (by cases s <;> decide)
  have h2 := reads_quoteLoop hp _ x [] (Nat.le_refl _) hx
  have h3 : Reads (.str x) [34] [.str x] (.start true) := reads_one (by rw [step, if_pos rfl])
  exact (h1.append h2).append h3

/-! Items -/

theorem flags_bits (f : TokenFlags) : flagsNum f = flagBits f := by
  obtain ⟨a, b, c, d, e, g, h⟩ := f
  cases a <;> cases b <;> cases c <;> cases d <;> cases e <;> cases g <;> cases h <;> rfl

theorem reads_num_comma {n : Nat} {text : List Nat} {ts : List Tok} {st' : St} (hr : Reads (.start true) text ts st') (hh : text.head? = some 44) :
    Reads (.num n) text (.num n :: ts) st' := by
  cases text with
  | nil => cases hh
  | cons b t => cases hh; exact reads_num_end (by decide) (by decide) (by decide) hr

theorem reads_num_close {n : Nat} {text : List Nat} {ts : List Tok} {st' : St} (hr : Reads (.start true) text ts st') (hh : text.head? = some 125) :
    Reads (.num n) text (.num n :: ts) st' := by
  cases text with
  | nil => cases hh
  | cons b t => cases hh; exact reads_num_end (by decide) (by decide) (by decide) hr

theorem IsItems.more {e : GoExpr} {items : List (Option (List Nat) × GoExpr)} {ts us : List Tok} (h : IsExpr e ts) (hi : IsItems items us) :
    IsItems ((none, e) :: items) (ts ++ [.op 44] ++ us) := IsItems.cons (k := none) h hi

/-- `text` is an item of a composite literal with a comma and a line end. -/
def IsEntry (text : List Nat) (e : GoExpr) : Prop := ∃ us, Reads (.start false) text (us ++ [.op 44]) (.start false) ∧ IsExpr e us

theorem token_entry {isPrint : Nat → Bool} (hp : Sane isPrint) {t : GToken} (hn : ∀ b ∈ t.name, b < 256) (hr : ∀ b ∈ t.re.getD [], b < 256) :
    IsEntry (tokenText (quote isPrint) t) (tokenExpr t) := by
  refine ⟨[.op 123, .word (bytesOf "Name"), .op 58, .str t.name, .op 44, .word (bytesOf "Re"), .op 58, .str (t.re.getD []), .op 44,
    .word (bytesOf "Group"), .op 58, .num t.group, .op 44, .word (bytesOf "Flags"), .op 58, .num (flagBits t.flags), .op 125], ?_, ?_⟩
  · unfold tokenText
    have h1 : Reads (.start false) (bytesOf "\t\t{Name: ") [.op 123, .word (bytesOf "Name"), .op 58] (.start false) := by decide +kernel
    have h2 := reads_quote hp false hn
    have h3 : Reads (.start true) (bytesOf ", Re: ") [.op 44, .word (bytesOf "Re"), .op 58] (.start false) := by decide +kernel
    have h4 := reads_quote hp false hr
    have h5 : Reads (.start true) (bytesOf ", Group: ") [.op 44, .word (bytesOf "Group"), .op 58] (.start false) := by decide +kernel
    have h6 := reads_dec false t.group
    have h7 : Reads (.num t.group) (bytesOf ", Flags: ") [.num t.group, .op 44, .word (bytesOf "Flags"), .op 58] (.start false) := by
      have h : Reads (.start true) (bytesOf ", Flags: ") [.op 44, .word (bytesOf "Flags"), .op 58] (.start false) := by decide +kernel
      exact reads_num_comma h (by decide +kernel)
    have h8 := reads_dec false (flagsNum t.flags)
    have h9 : Reads (.num (flagsNum t.flags)) (bytesOf "},\n") [.num (flagsNum t.flags), .op 125, .op 44] (.start false) := by
      have h : Reads (.start true) (bytesOf "},\n") [.op 125, .op 44] (.start false) := by decide +kernel
      exact reads_num_close h (by decide +kernel)
    have h := (((((((h1.append h2).append h3).append h4).append h5).append h6).append h7).append h8).append h9
    rw [flags_bits] at h ⊢
    exact h
  · exact IsExpr.lit (t := none) (IsItems.cons (k := some (bytesOf "Name")) (.str _) (IsItems.cons (k := some (bytesOf "Re")) (.str _)
      (IsItems.cons (k := some (bytesOf "Group")) (.nat _) (IsItems.last (k := some (bytesOf "Flags")) (.nat _)))))

theorem node_entry {isPrint : Nat → Bool} (hp : Sane isPrint) {n : List Nat × Nat} (hn : ∀ b ∈ n.1, b < 256) :
    IsEntry (nodeText (quote isPrint) n) (struct [("Name", .str n.1), ("FirstState", .int n.2)]) := by
  refine ⟨[.op 123, .word (bytesOf "Name"), .op 58, .str n.1, .op 44, .word (bytesOf "FirstState"), .op 58, .num n.2, .op 125], ?_, ?_⟩
  · unfold nodeText
    have h1 : Reads (.start false) (bytesOf "\t\t{Name: ") [.op 123, .word (bytesOf "Name"), .op 58] (.start false) := by decide +kernel
    have h2 := reads_quote hp false hn
    have h3 : Reads (.start true) (bytesOf ", FirstState: ") [.op 44, .word (bytesOf "FirstState"), .op 58] (.start false) := by decide +kernel
    have h4 := reads_dec false n.2
    have h5 : Reads (.num n.2) (bytesOf "},\n") [.num n.2, .op 125, .op 44] (.start false) := by
      have h : Reads (.start true) (bytesOf "},\n") [.op 125, .op 44] (.start false) := by decide +kernel
      exact reads_num_close h (by decide +kernel)
    exact (((h1.append h2).append h3).append h4).append h5
  · exact IsExpr.lit (t := none) (IsItems.cons (k := some (bytesOf "Name")) (.str _) (IsItems.last (k := some (bytesOf "FirstState")) (.nat _)))

theorem entries {α : Type} {f : α → List Nat} {g : α → GoExpr} {xs : List α} (h : ∀ x ∈ xs, IsEntry (f x) (g x)) :
    ∃ us, Reads (.start false) (xs.flatMap f) us (.start false) ∧ IsItems ((xs.map g).map fun e => (none, e)) us := by
  induction xs with
  | nil => exact ⟨[], reads_nil _, .nil⟩
  | cons x xs ih =>
    obtain ⟨us, h1, h2⟩ := h x (by simp)
    obtain ⟨vs, h3, h4⟩ := ih fun y hy => h y (by simp [hy])
    refine ⟨us ++ [.op 44] ++ vs, ?_, by simp only [List.map_cons]; exact IsItems.more h2 h4⟩
    rw [List.flatMap_cons]
    exact h1.append h3

/-- Numbers separated by commas: `", " ++ number` pieces. -/
theorem reads_more (n : Int) {m : Nat} : ∃ pre m', Reads (.num m) (bytesOf ", " ++ decInt n) ([.num m, .op 44] ++ pre) (.num m') ∧
    IsExpr (.int n) (pre ++ [.num m']) := by
  obtain ⟨pre, m', h1, h2⟩ := reads_decInt n
  refine ⟨pre, m', ?_, h2⟩
  have h : Reads (.start true) (bytesOf ", ") [.op 44] (.start false) := by decide +kernel
  exact Reads.append (reads_num_comma h (by decide +kernel)) h1

theorem reads_comment {bs : List Nat} (h : 10 ∉ bs) (s : Bool) : Reads (.comment s) bs [] (.comment s) := by
  induction bs with
  | nil => exact reads_nil _
  | cons b t ih =>
    have hs : step (.comment s) b = some ([], .comment s) := by
      rw [step, if_neg]
      rintro rfl
      exact h (by simp)
    exact (reads_one hs).append (ih fun hm => h (by simp [hm]))

theorem dec_no_newline (n : Nat) : 10 ∉ dec n := by
  induction n using Nat.strong_induction_on with
  | _ n ih =>
    rw [dec]
    split
    · simp; omega
    · next h =>
      have := ih (n / 10) (by omega)
      simp only [List.mem_append, List.mem_singleton, not_or]
      exact ⟨this, by omega⟩

theorem comment_newline {text : List Nat} {ts : List Tok} {st : St} (h : Reads (.start false) text ts st) (hh : text.head? = some 10) :
    Reads (.comment false) text ts st := by
  cases text with
  | nil => cases hh
  | cons b t => cases hh; exact h

theorem reads_remark {name : List Nat} (hn : 10 ∉ name) (i : Nat) :
    Reads (.start false) (bytesOf " // " ++ name ++ bytesOf "(" ++ dec i ++ bytesOf ")") [] (.comment false) := by
  have h1 : Reads (.start false) (bytesOf " // ") [] (.comment false) := by decide +kernel
  exact (((h1.append (reads_comment hn false)).append (reads_comment (bs := bytesOf "(") (by decide +kernel) false)).append
    (reads_comment (dec_no_newline i) false)).append (reads_comment (bs := bytesOf ")") (by decide +kernel) false)

/-- The value of a state. -/
def stateExpr (s : GState) : GoExpr := tuple [s.types.toNat, s.lowMulti, s.highMulti, s.lowRule, s.highRule]

theorem state_entry (st : GState) : IsEntry (bytesOf "\t\t{" ++ dec st.types.toNat ++ bytesOf ", " ++ dec st.lowMulti ++ bytesOf ", " ++
    dec st.highMulti ++ bytesOf ", " ++ dec st.lowRule ++ bytesOf ", " ++ dec st.highRule ++ bytesOf "},") (stateExpr st) := by
  refine ⟨[.op 123, .num st.types.toNat, .op 44, .num st.lowMulti, .op 44, .num st.highMulti, .op 44, .num st.lowRule, .op 44,
    .num st.highRule, .op 125], ?_, ?_⟩
  · have h1 : Reads (.start false) (bytesOf "\t\t{") [.op 123] (.start false) := by decide +kernel
    have hc : ∀ n, Reads (.num n) (bytesOf ", ") [.num n, .op 44] (.start false) := by
      intro n
      have h : Reads (.start true) (bytesOf ", ") [.op 44] (.start false) := by decide +kernel
      exact reads_num_comma h (by decide +kernel)
    have he : ∀ n, Reads (.num n) (bytesOf "},") [.num n, .op 125, .op 44] (.start false) := by
      intro n
      have h : Reads (.start true) (bytesOf "},") [.op 125, .op 44] (.start false) := by decide +kernel
      exact reads_num_close h (by decide +kernel)
    exact ((((((((((h1.append (reads_dec false _)).append (hc _)).append (reads_dec false _)).append (hc _)).append
      (reads_dec false _)).append (hc _)).append (reads_dec false _)).append (hc _)).append (reads_dec false _)).append (he _))
  · exact IsExpr.lit (t := none) (IsItems.cons (k := none) (.nat _) (IsItems.cons (k := none) (.nat _) (IsItems.cons (k := none) (.nat _)
      (IsItems.cons (k := none) (.nat _) (IsItems.last (k := none) (.nat _))))))

theorem states_items {nodes : List (List Nat × Nat)} (hn : ∀ n ∈ nodes, 10 ∉ n.1) : ∀ (sts : List GState) (i a b : Nat) (text : List Nat),
    statesText nodes sts i a b = some text →
    ∃ us, Reads (.start false) text us (.start false) ∧ IsItems ((sts.map stateExpr).map fun e => (none, e)) us := by
  intro sts
  induction sts with
  | nil =>
    intro i a b text h
    rw [statesText] at h
    cases h
    exact ⟨[], reads_nil _, .nil⟩
  | cons st sts ih =>
    intro i a b text h
    have hnl : Reads (.start false) (bytesOf "\n") [] (.start false) := by decide +kernel
    obtain ⟨us, h1, h2⟩ := state_entry st
    rw [statesText] at h
    dsimp only at h
    split at h
    · rw [Option.bind_eq_some_iff] at h
      obtain ⟨n, hm, h⟩ := h
      rw [Option.map_eq_some_iff] at h
      obtain ⟨rest, hr, rfl⟩ := h
      obtain ⟨vs, h3, h4⟩ := ih _ _ _ _ hr
      refine ⟨us ++ [.op 44] ++ vs, ?_, by simp only [List.map_cons]; exact IsItems.more h2 h4⟩
      have hc := reads_remark (hn n (List.mem_of_getElem? hm)) i
      have hx := ((h1.append hc).append (comment_newline hnl (by decide +kernel))).append h3
      simp only [List.append_assoc, List.append_nil, List.nil_append] at hx ⊢
      exact hx
    · rw [Option.map_eq_some_iff] at h
      obtain ⟨rest, hr, rfl⟩ := h
      obtain ⟨vs, h3, h4⟩ := ih _ _ _ _ hr
      refine ⟨us ++ [.op 44] ++ vs, ?_, by simp only [List.map_cons]; exact IsItems.more h2 h4⟩
      have hx := (h1.append hnl).append h3
      simp only [List.append_assoc, List.append_nil, List.nil_append] at hx ⊢
      exact hx

theorem rules_items {α : Type} {text : α → List Nat} {e : α → GoExpr} {find : Nat → Option (Nat × Nat)}
    (he : ∀ r, IsEntry (bytesOf "\n\t\t{" ++ text r ++ bytesOf "},") (e r)) : ∀ (rs : List α) (i a b : Nat) (out : List Nat),
    rulesText text find rs i a b = some out → ∀ st : St, st = .start false ∨ st = .comment false →
    ∃ us st', (st' = .start false ∨ st' = .comment false) ∧ Reads st out us st' ∧ IsItems ((rs.map e).map fun e => (none, e)) us := by
  intro rs
  induction rs with
  | nil =>
    intro i a b out h st hst
    rw [rulesText] at h
    cases h
    exact ⟨[], st, hst, reads_nil _, .nil⟩
  | cons r rs ih =>
    intro i a b out h st hst
    obtain ⟨us, h1, h2⟩ := he r
    have h1' : Reads st (bytesOf "\n\t\t{" ++ text r ++ bytesOf "},") (us ++ [.op 44]) (.start false) := by
      rcases hst with rfl | rfl
      · exact h1
      · refine comment_newline h1 ?_
        rw [show bytesOf "\n\t\t{" = 10 :: bytesOf "\t\t{" by decide +kernel]
        rfl
    rw [rulesText] at h
    split at h
    · rw [Option.bind_eq_some_iff] at h
      obtain ⟨n, hm, h⟩ := h
      rw [Option.map_eq_some_iff] at h
      obtain ⟨rest, hr, rfl⟩ := h
      obtain ⟨vs, st', h3, h4, h5⟩ := ih _ _ _ _ hr (.comment false) (.inr rfl)
      refine ⟨us ++ [.op 44] ++ vs, st', h3, ?_, by simp only [List.map_cons]; exact IsItems.more h2 h5⟩
      have hx := (h1'.append (reads_remark (dec_no_newline b) i)).append h4
      simp only [List.append_assoc, List.append_nil, List.nil_append] at hx ⊢
      exact hx
    · rw [Option.map_eq_some_iff] at h
      obtain ⟨rest, hr, rfl⟩ := h
      obtain ⟨vs, st', h3, h4, h5⟩ := ih _ _ _ _ hr (.start false) (.inl rfl)
      exact ⟨us ++ [.op 44] ++ vs, st', h3, h1'.append h4, by simp only [List.map_cons]; exact IsItems.more h2 h5⟩

theorem triple_entry {x y z : List Nat} {a b c : Int} (hx : x = decInt a) (hy : y = decInt b) (hz : z = decInt c) :
    IsEntry (bytesOf "\n\t\t{" ++ (x ++ bytesOf ", " ++ y ++ bytesOf ", " ++ z) ++ bytesOf "},") (tuple [a, b, c]) := by
  subst hx hy hz
  have h1 : Reads (.start false) (bytesOf "\n\t\t{") [.op 123] (.start false) := by decide +kernel
  obtain ⟨pa, ma, ha, ea⟩ := reads_decInt a
  obtain ⟨pb, mb, hb, eb⟩ := reads_more b (m := ma)
  obtain ⟨pc, mc, hc, ec⟩ := reads_more c (m := mb)
  have h : Reads (.start true) (bytesOf "},") [.op 125, .op 44] (.start false) := by decide +kernel
  have hx := (((h1.append ha).append hb).append hc).append (reads_num_close (n := mc) h (by decide +kernel))
  have hl := IsExpr.lit (t := none) (IsItems.cons (k := none) ea (IsItems.cons (k := none) eb (IsItems.last (k := none) ec)))
  refine ⟨_, ?_, hl⟩
  simp only [typeToks, keyToks, List.append_assoc, List.nil_append, List.cons_append, List.append_nil] at hx ⊢
  exact hx

theorem decInt_nat (n : Nat) : dec n = decInt n := rfl

theorem multi_entry (m : MultiRule) : IsEntry (bytesOf "\n\t\t{" ++ multiText m ++ bytesOf "},") (tuple [m.token, m.lowRule, m.highRule]) :=
  triple_entry rfl (decInt_nat _) (decInt_nat _)

theorem rule_entry (r : Rule) : IsEntry (bytesOf "\n\t\t{" ++ ruleText r ++ bytesOf "},") (tuple [r.token, r.state, r.node]) :=
  triple_entry rfl rfl rfl

/-- A field of the grammar with a slice. -/
def IsField (text : List Nat) (name type : String) (items : List GoExpr) : Prop :=
  ∃ us, Reads (.start false) text (keyToks (some (bytesOf name)) ++ us ++ [.op 44]) (.start false) ∧ IsExpr (sliceOf type items) us

/-- Tokens of the type of a slice. -/
def sliceToks (type : String) : List Tok := typeToks (some (.slice (.qualified (bytesOf "grammar") (bytesOf type))))

theorem field_intro {head body tail : List Nat} {name type : String} {items : List GoExpr} {us : List Tok} {st : St}
    (h1 : Reads (.start false) head (keyToks (some (bytesOf name)) ++ sliceToks type ++ [.op 123]) (.start false))
    (h2 : Reads (.start false) body us st) (h3 : IsItems (items.map fun e => (none, e)) us)
    (h4 : Reads st tail [.op 125, .op 44] (.start false)) : IsField (head ++ body ++ tail) name type items := by
  refine ⟨_, ?_, IsExpr.lit h3⟩
  have hx := (h1.append h2).append h4
  unfold sliceToks at hx
  simp only [List.append_assoc, List.cons_append, List.nil_append] at hx ⊢
  exact hx

theorem block_field {α : Type} {head name type : String} {text : α → List Nat} {e : α → GoExpr} {find : Nat → Option (Nat × Nat)} {rs : List α}
    {out : List Nat} (he : ∀ r, IsEntry (bytesOf "\n\t\t{" ++ text r ++ bytesOf "},") (e r)) (h : ruleBlock head text find rs = some out)
    (h1 : Reads (.start false) (bytesOf head) (keyToks (some (bytesOf name)) ++ sliceToks type ++ [.op 123]) (.start false)) :
    IsField out name type (rs.map e) := by
  unfold ruleBlock at h
  split at h
  · next h0 =>
    cases h
    obtain rfl := List.length_eq_zero_iff.1 h0
    have h4 : Reads (.start false) (bytesOf "},\n") [.op 125, .op 44] (.start false) := by decide +kernel
    have := field_intro (items := ([] : List α).map e) h1 (reads_nil _) .nil h4
    rw [List.append_nil] at this
    exact this
  · rw [Option.bind_eq_some_iff] at h
    obtain ⟨n, -, h⟩ := h
    rw [Option.map_eq_some_iff] at h
    obtain ⟨rest, hr, rfl⟩ := h
    obtain ⟨us, st', h2, h3, h4⟩ := rules_items he _ _ _ _ _ hr (.start false) (.inl rfl)
    refine field_intro h1 h3 h4 ?_
    have h5 : Reads (.start false) (bytesOf "\n\t},\n") [.op 125, .op 44] (.start false) := by decide +kernel
    rcases h2 with rfl | rfl
    · exact h5
    · exact comment_newline h5 (by decide +kernel)

/-- The text before the first field. -/
def headText (pkg var : List Nat) : List Nat :=
  bytesOf "// Code generated with llxgen.\n\npackage " ++ pkg ++ bytesOf "\n\nimport \"github.com/ava12/llx/grammar\"\n\nvar " ++ var ++
    bytesOf " = &grammar.Grammar{\n"

/-- Its tokens. -/
def headToks (pkg var : List Nat) : List Tok :=
  [.word (bytesOf "package"), ident pkg, .semi, .word (bytesOf "import"), .str importPath, .semi,
    .word (bytesOf "var"), ident var, .op 61, .op 38] ++ typeToks (some (.qualified (bytesOf "grammar") (bytesOf "Grammar"))) ++ [.op 123]

theorem reads_head {pkg var : List Nat} (hp : isName pkg = true) (hv : isName var = true) (kp : pkg ∉ keywords) (kv : var ∉ keywords) :
    Reads (.start false) (headText pkg var) (headToks pkg var) (.start false) := by
  unfold headText
  have h1 : Reads (.start false) (bytesOf "// Code generated with llxgen.\n\npackage ") [.word (bytesOf "package")] (.start false) := by decide +kernel
  have h2 : Reads (.start true) (bytesOf "\n\nimport \"github.com/ava12/llx/grammar\"\n\nvar ")
    [.semi, .word (bytesOf "import"), .str importPath, .semi, .word (bytesOf "var")] (.start false) := by decide +kernel
  have h3 : Reads (.start true) (bytesOf " = &grammar.Grammar{\n") [.op 61, .op 38, ident (bytesOf "grammar"), .op 46, ident (bytesOf "Grammar"), .op 123]
    (.start false) := by decide +kernel
  have e2 : Reads (.word pkg) (bytesOf "\n\nimport \"github.com/ava12/llx/grammar\"\n\nvar ") (.word pkg :: _) _ :=
    reads_word_end' (b := 10) (by decide) (by decide) kp h2 (by decide +kernel)
  have e3 : Reads (.word var) (bytesOf " = &grammar.Grammar{\n") (.word var :: _) _ :=
    reads_word_end' (b := 32) (by decide) (by decide) kv h3 (by decide +kernel)
  exact (((h1.append (reads_name false hp)).append e2).append (reads_name false hv)).append e3

theorem tokens_field {isPrint : Nat → Bool} (hp : Sane isPrint) {ts : List GToken}
    (h : ∀ t ∈ ts, (∀ b ∈ t.name, b < 256) ∧ ∀ b ∈ t.re.getD [], b < 256) :
    IsField (bytesOf "\tTokens: []grammar.Token{\n" ++ ts.flatMap (tokenText (quote isPrint)) ++ bytesOf "\t},\n") "Tokens" "Token" (ts.map tokenExpr) := by
  obtain ⟨us, h1, h2⟩ := entries (xs := ts) fun t ht => token_entry hp (h t ht).1 (h t ht).2
  exact field_intro (by decide +kernel) h1 h2 (by decide +kernel)

theorem nodes_field {isPrint : Nat → Bool} (hp : Sane isPrint) {ns : List (List Nat × Nat)} (h : ∀ n ∈ ns, ∀ b ∈ n.1, b < 256) :
    IsField (bytesOf "\tNodes: []grammar.Node{\n" ++ ns.flatMap (nodeText (quote isPrint)) ++ bytesOf "\t},\n") "Nodes" "Node"
      (ns.map fun n => struct [("Name", .str n.1), ("FirstState", .int n.2)]) := by
  obtain ⟨us, h1, h2⟩ := entries (xs := ns) fun t ht => node_entry hp (h t ht)
  exact field_intro (by decide +kernel) h1 h2 (by decide +kernel)

/-! The text is always made -/

theorem states_some {nodes : List (List Nat × Nat)} : ∀ (sts : List GState) (i a b : Nat), b < nodes.length ∨ a < i →
    ∃ text, statesText nodes sts i a b = some text := by
  intro sts
  induction sts with
  | nil => intro i a b _; exact ⟨[], rfl⟩
  | cons st sts ih =>
    intro i a b h
    rw [statesText]
    dsimp only
    split
    · next hi =>
      have hb : b < nodes.length := by omega
      rw [List.getElem?_eq_getElem hb, Option.bind_some]
      by_cases hl : b + 1 < nodes.length
      · obtain ⟨rest, hr⟩ := ih (i + 1) nodes[b + 1].2 (b + 1) (.inl hl)
        rw [List.getElem?_eq_getElem hl]
        dsimp only
        rw [hr]
        exact ⟨_, rfl⟩
      · obtain ⟨rest, hr⟩ := ih (i + 1) a (b + 1) (.inr (by omega))
        rw [List.getElem?_eq_none (by omega)]
        dsimp only
        rw [hr]
        exact ⟨_, rfl⟩
    · obtain ⟨rest, hr⟩ := ih (i + 1) a b (by omega)
      rw [hr]
      exact ⟨_, rfl⟩

theorem rules_some {α : Type} {text : α → List Nat} {find : Nat → Option (Nat × Nat)} (hf : ∀ s, (find s).isSome) :
    ∀ (rs : List α) (i a b : Nat), ∃ out, rulesText text find rs i a b = some out := by
  intro rs
  induction rs with
  | nil => intro i a b; exact ⟨[], rfl⟩
  | cons r rs ih =>
    intro i a b
    rw [rulesText]
    split
    · obtain ⟨n, hn⟩ := Option.isSome_iff_exists.1 (hf (b + 1))
      obtain ⟨out, ho⟩ := ih (i + 1) n.1 n.2
      rw [hn, Option.bind_some, ho]
      exact ⟨_, rfl⟩
    · obtain ⟨out, ho⟩ := ih (i + 1) a b
      rw [ho]
      exact ⟨_, rfl⟩

theorem block_some {α : Type} {head : String} {text : α → List Nat} {find : Nat → Option (Nat × Nat)} (hf : ∀ s, (find s).isSome) (rs : List α) :
    ∃ out, ruleBlock head text find rs = some out := by
  unfold ruleBlock
  split
  · exact ⟨_, rfl⟩
  · obtain ⟨n, hn⟩ := Option.isSome_iff_exists.1 (hf 0)
    obtain ⟨out, ho⟩ := rules_some (text := text) hf rs 0 n.1 n.2
    rw [hn, Option.bind_some, ho]
    exact ⟨_, rfl⟩

/-- First multi rules of states are in the table. -/
def MultiIn (t : Tables) : Prop := ∀ st ∈ t.states, st.highMulti ≠ 0 → st.lowMulti < t.multi.length

theorem find_some {t : Tables} (h : MultiIn t) (s : Nat) : (findRuleState t s).isSome := by
  unfold findRuleState
  split
  · next x hx =>
    have hm : x ∈ t.states.zipIdx := List.mem_of_mem_drop (List.mem_of_find?_eq_some hx)
    obtain ⟨st, k⟩ := x
    have hs : st ∈ t.states := List.mem_of_getElem? (List.mk_mem_zipIdx_iff_getElem?.1 hm)
    split
    · next h0 =>
      rw [List.getElem?_eq_getElem (h st hs h0)]
      rfl
    · rfl
  · rfl

theorem addSingles_keeps {get : Int → List Rule} : ∀ (ks : List Int) (t t' : Tables), addSingles get ks t = some t' →
    t'.states = t.states ∧ t'.multi = t.multi := by
  intro ks
  induction ks with
  | nil => intro t t' h; cases h; exact ⟨rfl, rfl⟩
  | cons k ks ih =>
    intro t t' h
    rw [addSingles] at h
    split at h
    · cases h
    · next r rs _ => exact ih { t with rules := t.rules ++ [r] } _ h

theorem addMultis_keeps {get : Int → List Rule} : ∀ (ks : List Int) (n : Nat) (t : Tables),
    (addMultis get ks n t).states = t.states ∧ (addMultis get ks n t).multi.length = t.multi.length + ks.length := by
  intro ks
  induction ks with
  | nil => intro n t; exact ⟨rfl, rfl⟩
  | cons k ks ih =>
    intro n t
    obtain ⟨h1, h2⟩ := ih (n + (get k).length) { t with rules := t.rules ++ get k, multi := t.multi ++ [⟨k, n, n + (get k).length⟩] }
    rw [addMultis, h1, h2]
    simp only [List.length_append, List.length_cons, List.length_nil, true_and]
    omega

theorem buildTables_multi (pr : PR) : ∀ (es : List Entry) (t t' : Tables), MultiIn t → buildTables pr es t = some t' → MultiIn t' := by
  intro es
  induction es with
  | nil => intro t t' h hb; cases hb; exact h
  | cons e es ih =>
    intro t t' h hb
    rw [buildTables, Option.bind_eq_some_iff] at hb
    obtain ⟨t1, h1, h2⟩ := hb
    refine ih t1 t' ?_ h2
    unfold buildState at h1
    dsimp only at h1
    rw [Option.map_eq_some_iff] at h1
    obtain ⟨t2, h3, rfl⟩ := h1
    obtain ⟨h4, h5⟩ := addSingles_keeps _ _ _ h3
    intro st hst h0
    obtain ⟨h6, h7⟩ := addMultis_keeps (get := pr.slot e) (mKeys e.keys (pr.slot e)) t2.rules.length t2
    rw [h6, h4, writeState] at hst
    rw [h7, h5]
    simp only [writeState]
    simp only [List.mem_append, List.mem_singleton] at hst
    rcases hst with hst | rfl
    · have := h st hst h0
      omega
    · dsimp only at h0 ⊢
      split at h0
      · next hpos => rw [if_pos hpos]; omega
      · next hpos => omega

/-! No text of a grammar with layers is a Go file -/

/-- A closing brace is not followed by an opening one. -/
def NotReopened (a b : Tok) : Prop := ¬ (a = .op 125 ∧ b = .op 123)

/-- Joining lists at a token that is not a brace of the wrong kind. -/
theorem chain_join {x y : List Tok} (h1 : x.IsChain NotReopened) (h2 : y.IsChain NotReopened)
    (h : (∀ t ∈ x.getLast?, t ≠ .op 125) ∨ (∀ t ∈ y.head?, t ≠ .op 123)) : (x ++ y).IsChain NotReopened := by
  rw [List.isChain_append]
  refine ⟨h1, h2, fun a ha b hb hab => ?_⟩
  rcases h with h | h
  · exact h a ha hab.1
  · exact h b hb hab.2

theorem type_chain (t : GoType) : t.toks.IsChain NotReopened ∧ ∀ x ∈ t.toks.getLast?, x ≠ .op 125 := by
  induction t with
  | name n => simp [GoType.toks, ident]
  | qualified p n => simp [GoType.toks, ident, NotReopened]
  | slice t ih =>
    rw [GoType.toks]
    refine ⟨chain_join (by simp [NotReopened]) ih.1 (.inl (by simp)), ?_⟩
    intro x hx
    rw [List.getLast?_append] at hx
    cases h : t.toks.getLast? with
    | none =>
      rw [h] at hx
      simp at hx
      subst hx
      simp
    | some y =>
      rw [h] at hx
      simp at hx
      subst hx
      exact ih.2 y (by rw [h]; rfl)

theorem typeToks_chain (t : Option GoType) : (typeToks t).IsChain NotReopened ∧ ∀ x ∈ (typeToks t).getLast?, x ≠ .op 125 := by
  cases t with
  | none => simp [typeToks]
  | some t => exact type_chain t

theorem keyToks_chain (k : Option (List Nat)) : (keyToks k).IsChain NotReopened ∧ ∀ x ∈ (keyToks k).getLast?, x ≠ .op 125 := by
  cases k with
  | none => simp [keyToks]
  | some t => simp [keyToks, ident, NotReopened]

mutual

theorem expr_chain {e : GoExpr} {us : List Tok} : IsExpr e us → us.IsChain NotReopened
  | .str s => by simp
  | .nat n => by simp
  | .neg n => by simp [NotReopened]
  | .lit (t := t) h => by
    have h1 := items_chain h
    have h2 := typeToks_chain t
    exact chain_join (chain_join (chain_join h2.1 (by simp) (.inl h2.2)) h1 (.inl (by simp [List.getLast?_append]))) (by simp) (.inr (by simp))

theorem items_chain {items : List (Option (List Nat) × GoExpr)} {us : List Tok} : IsItems items us → us.IsChain NotReopened
  | .nil => by simp
  | .last (k := k) h => chain_join (keyToks_chain k).1 (expr_chain h) (.inl (keyToks_chain k).2)
  | .cons (k := k) h hi => by
    have h1 := chain_join (keyToks_chain k).1 (expr_chain h) (.inl (keyToks_chain k).2)
    exact chain_join (chain_join h1 (by simp) (.inr (by simp))) (items_chain hi) (.inl (by simp [List.getLast?_append]))

end

theorem file_chain {pkg var : List Nat} {e : GoExpr} {ts : List Tok} (h : IsFile pkg var e ts) : ts.IsChain NotReopened := by
  obtain ⟨-, us, h1, rfl⟩ := h
  refine chain_join (chain_join ?_ (expr_chain h1) (.inl (by simp))) (by simp) (.inr (by simp))
  simp [NotReopened, ident]

theorem lex_prefix {a b : List Nat} {us : List Tok} {st : St} (h : Reads (.start false) a us st) {ts : List Tok} (hl : lex (a ++ b) = some ts) :
    us <+: ts := by
  unfold lex at hl
  rw [run_append, h, Option.bind_some, Option.bind_eq_some_iff] at hl
  obtain ⟨r, hr, hl⟩ := hl
  rw [Option.map_eq_some_iff] at hr
  obtain ⟨r', -, rfl⟩ := hr
  split at hl
  · cases hl
    exact ⟨r'.1, rfl⟩
  · cases hl

/-! The text is UTF-8 -/

/-- A text of Unicode scalar values. -/
def IsUtf8 (text : List Nat) : Prop := ∃ rs, (∀ r ∈ rs, Text.IsScalar r) ∧ text = Text.encode rs

theorem utf8_append {a b : List Nat} (ha : IsUtf8 a) (hb : IsUtf8 b) : IsUtf8 (a ++ b) := by
  obtain ⟨rs, h1, rfl⟩ := ha
  obtain ⟨rs', h2, rfl⟩ := hb
  refine ⟨rs ++ rs', ?_, by simp [Text.encode]⟩
  intro r hr
  rcases List.mem_append.1 hr with hr | hr
  · exact h1 r hr
  · exact h2 r hr

theorem utf8_ascii {a : List Nat} (h : ∀ b ∈ a, b < 128) : IsUtf8 a := by
  refine ⟨a, fun r hr => .inl (by have := h r hr; omega), ?_⟩
  unfold Text.encode
  induction a with
  | nil => rfl
  | cons b t ih =>
    rw [List.flatMap_cons, ← ih fun c hc => h c (by simp [hc]), Text.encodeRune, if_pos (h b (by simp))]
    rfl

theorem utf8_flatMap {α : Type} {f : α → List Nat} {xs : List α} (h : ∀ x ∈ xs, IsUtf8 (f x)) : IsUtf8 (xs.flatMap f) := by
  induction xs with
  | nil => exact ⟨[], by simp, rfl⟩
  | cons x xs ih =>
    rw [List.flatMap_cons]
    exact utf8_append (h x (by simp)) (ih fun y hy => h y (by simp [hy]))

theorem hexChars_ascii (k n : Nat) : ∀ b ∈ hexChars k n, b < 128 := by
  induction k generalizing n with
  | zero => simp [hexChars]
  | succ k ih =>
    intro b hb
    rw [hexChars, List.mem_append, List.mem_singleton] at hb
    rcases hb with hb | rfl
    · exact ih _ b hb
    · unfold hexChar
      split <;> omega

theorem utf8_escapeRune {isPrint : Nat → Bool} {r : Nat} (hr : Text.IsScalar r) : IsUtf8 (escapeRune isPrint r) := by
  have hh : ∀ x k n, x < 128 → IsUtf8 ([92, x] ++ hexChars k n) := by
    intro x k n hx
    refine utf8_ascii fun b hb => ?_
    rcases List.mem_append.1 hb with hb | hb
    · simp at hb; omega
    · exact hexChars_ascii _ _ b hb
  have ht : ∀ x, x < 128 → IsUtf8 [92, x] := by
    intro x hx
    refine utf8_ascii fun b hb => ?_
    simp at hb; omega
  unfold escapeRune
  by_cases h0 : r = 34 ∨ r = 92
  · rw [if_pos h0]; exact ht _ (by omega)
  rw [if_neg h0]
  by_cases hpr : isPrint r = true
  · rw [if_pos hpr, appendRune_encode hr]
    exact ⟨[r], by simpa using hr, by simp [Text.encode]⟩
  rw [if_neg hpr]
  by_cases g0 : r = 7
  · rw [if_pos g0]; exact ht _ (by omega)
  rw [if_neg g0]
  by_cases g1 : r = 8
  · rw [if_pos g1]; exact ht _ (by omega)
  rw [if_neg g1]
  by_cases g2 : r = 12
  · rw [if_pos g2]; exact ht _ (by omega)
  rw [if_neg g2]
  by_cases g3 : r = 10
  · rw [if_pos g3]; exact ht _ (by omega)
  rw [if_neg g3]
  by_cases g4 : r = 13
  · rw [if_pos g4]; exact ht _ (by omega)
  rw [if_neg g4]
  by_cases g5 : r = 9
  · rw [if_pos g5]; exact ht _ (by omega)
  rw [if_neg g5]
  by_cases g6 : r = 11
  · rw [if_pos g6]; exact ht _ (by omega)
  rw [if_neg g6]
  by_cases hx : r < 32 ∨ r = 127
  · rw [if_pos hx]; exact hh _ _ _ (by omega)
  rw [if_neg hx]
  dsimp only
  by_cases h16 : (if validRune r = true then r else Utf8.runeError) < 0x10000
  · rw [if_pos h16]; exact hh _ _ _ (by omega)
  · rw [if_neg h16]; exact hh _ _ _ (by omega)

theorem utf8_quoteLoop {isPrint : Nat → Bool} : ∀ (n : Nat) (s : List Nat), s.length ≤ n → IsUtf8 (quoteLoop isPrint s) := by
  intro n
  induction n with
  | zero =>
    intro s hl
    obtain rfl : s = [] := List.length_eq_zero_iff.1 (by omega)
    rw [quoteLoop]
    exact utf8_ascii (by simp)
  | succ n ih =>
    intro s hl
    cases s with
    | nil => rw [quoteLoop]; exact utf8_ascii (by simp)
    | cons b t =>
      have hw := Utf8.decodeRune_width_pos b t
      have hlen : ((b :: t).drop (Utf8.decodeRune (b :: t)).2).length ≤ n := by
        rw [List.length_drop]; omega
      rw [quoteLoop]
      refine utf8_append ?_ (ih _ hlen)
      split
      · next h =>
        refine utf8_ascii fun b hb => ?_
        rcases List.mem_append.1 hb with hb | hb
        · simp at hb; omega
        · exact hexChars_ascii _ _ b hb
      · next h =>
        rcases decode_cases b t with h' | ⟨hsc, -⟩
        · exact absurd h' h
        · exact utf8_escapeRune hsc

theorem utf8_quote {isPrint : Nat → Bool} (s : List Nat) : IsUtf8 (quote isPrint s) :=
  utf8_append (utf8_append (utf8_ascii (by simp)) (utf8_quoteLoop _ s (Nat.le_refl _))) (utf8_ascii (by simp))

theorem dec_ascii (n : Nat) : ∀ b ∈ dec n, b < 128 := by
  induction n using Nat.strong_induction_on with
  | _ n ih =>
    intro b hb
    rw [dec] at hb
    split at hb
    · simp at hb; omega
    · next h =>
      simp only [List.mem_append, List.mem_singleton] at hb
      rcases hb with hb | rfl
      · exact ih (n / 10) (by omega) b hb
      · omega

theorem utf8_dec (n : Nat) : IsUtf8 (dec n) := utf8_ascii (dec_ascii n)

theorem utf8_decInt (n : Int) : IsUtf8 (decInt n) := by
  cases n with
  | ofNat n => exact utf8_dec n
  | negSucc n => exact utf8_append (a := [45]) (utf8_ascii (by simp)) (utf8_dec _)

/-- Proves that a concatenation is UTF-8. -/
macro "utf8_parts" : tactic => `(tactic| repeat' first
  | with_reducible assumption
  | with_reducible exact utf8_quote _
  | with_reducible exact utf8_dec _
  | with_reducible exact utf8_decInt _
  | with_reducible refine utf8_append ?_ ?_
  | exact utf8_ascii (by decide +kernel))

theorem utf8_states {nodes : List (List Nat × Nat)} (hn : ∀ n ∈ nodes, IsUtf8 n.1) : ∀ (sts : List GState) (i a b : Nat) (text : List Nat),
    statesText nodes sts i a b = some text → IsUtf8 text := by
  intro sts
  induction sts with
  | nil =>
    intro i a b text h
    rw [statesText] at h
    cases h
    exact utf8_ascii (by simp)
  | cons st sts ih =>
    intro i a b text h
    rw [statesText] at h
    dsimp only at h
    split at h
    · rw [Option.bind_eq_some_iff] at h
      obtain ⟨n, hm, h⟩ := h
      rw [Option.map_eq_some_iff] at h
      obtain ⟨rest, hr, rfl⟩ := h
      have h1 := ih _ _ _ _ hr
      have h2 := hn n (List.mem_of_getElem? hm)
      utf8_parts
    · rw [Option.map_eq_some_iff] at h
      obtain ⟨rest, hr, rfl⟩ := h
      have h1 := ih _ _ _ _ hr
      utf8_parts

theorem utf8_rules {α : Type} {text : α → List Nat} {find : Nat → Option (Nat × Nat)} (ht : ∀ r, IsUtf8 (text r)) :
    ∀ (rs : List α) (i a b : Nat) (out : List Nat), rulesText text find rs i a b = some out → IsUtf8 out := by
  intro rs
  induction rs with
  | nil =>
    intro i a b out h
    rw [rulesText] at h
    cases h
    exact utf8_ascii (by simp)
  | cons r rs ih =>
    intro i a b out h
    rw [rulesText] at h
    have h2 := ht r
    split at h
    · rw [Option.bind_eq_some_iff] at h
      obtain ⟨n, hm, h⟩ := h
      rw [Option.map_eq_some_iff] at h
      obtain ⟨rest, hr, rfl⟩ := h
      have h1 := ih _ _ _ _ hr
      utf8_parts
    · rw [Option.map_eq_some_iff] at h
      obtain ⟨rest, hr, rfl⟩ := h
      have h1 := ih _ _ _ _ hr
      utf8_parts

theorem utf8_block {α : Type} {head : String} {text : α → List Nat} {find : Nat → Option (Nat × Nat)} {rs : List α} {out : List Nat}
    (hh : ∀ b ∈ bytesOf head, b < 128) (ht : ∀ r, IsUtf8 (text r)) (h : ruleBlock head text find rs = some out) : IsUtf8 out := by
  have e1 : IsUtf8 (bytesOf "},\n") := utf8_ascii (by decide +kernel)
  have e2 : IsUtf8 (bytesOf "\n\t},\n") := utf8_ascii (by decide +kernel)
  unfold ruleBlock at h
  split at h
  · cases h
    exact utf8_append (utf8_ascii hh) e1
  · rw [Option.bind_eq_some_iff] at h
    obtain ⟨n, -, h⟩ := h
    rw [Option.map_eq_some_iff] at h
    obtain ⟨rest, hr, rfl⟩ := h
    exact utf8_append (utf8_append (utf8_ascii hh) (utf8_rules ht _ _ _ _ _ hr)) e2

theorem name_ascii {w : List Nat} (hw : isName w = true) : ∀ b ∈ w, b < 128 := by
  cases w with
  | nil => cases hw
  | cons b t =>
    simp only [isName, Bool.and_eq_true, List.all_eq_true, Bool.or_eq_true, decide_eq_true_eq, isName.letter, beq_iff_eq] at hw
    intro c hc
    rcases List.mem_cons.1 hc with rfl | hc
    · omega
    · have := hw.2 c hc
      omega

/-! Tokens of a file determine the value -/

theorem typeToks_det {t t' : Option GoType} {r r' : List Tok} (h : typeToks t ++ Tok.op 123 :: r = typeToks t' ++ Tok.op 123 :: r') :
    t = t' ∧ r = r' := by
  have key : ∀ (t t' : GoType) (r r' : List Tok), t.toks ++ Tok.op 123 :: r = t'.toks ++ Tok.op 123 :: r' → t = t' ∧ r = r' := by
    intro t
    induction t with
    | name n =>
      intro t' r r' h
      cases t' with
      | name m => simp [GoType.toks, ident] at h; simp [h]
      | qualified a b => simp [GoType.toks, ident] at h
      | slice a => simp [GoType.toks, ident] at h
    | qualified a b =>
      intro t' r r' h
      cases t' with
      | name m => simp [GoType.toks, ident] at h
      | qualified a b => simp [GoType.toks, ident] at h; simp [h]
      | slice a => simp [GoType.toks, ident] at h
    | slice a ih =>
      intro t' r r' h
      cases t' with
      | name m => simp [GoType.toks, ident] at h
      | qualified a b => simp [GoType.toks, ident] at h
      | slice b =>
        simp only [GoType.toks, List.append_assoc, List.cons_append, List.nil_append, List.cons.injEq, true_and] at h
        obtain ⟨rfl, h2⟩ := ih _ _ _ h
        exact ⟨rfl, h2⟩
  have no : ∀ (t : GoType) (r r' : List Tok), t.toks ++ r ≠ Tok.op 123 :: r' := by
    intro t r r' h
    cases t <;> simp [GoType.toks, ident] at h
  cases t with
  | none =>
    cases t' with
    | none => simpa [typeToks] using h
    | some t' => exact absurd h.symm (no _ _ _)
  | some t =>
    cases t' with
    | none => exact absurd h (no _ _ _)
    | some t' =>
      obtain ⟨rfl, h2⟩ := key _ _ _ _ h
      exact ⟨rfl, h2⟩

/-- An expression does not begin like a key or a closing brace. -/
theorem expr_start {e : GoExpr} {us : List Tok} (h : IsExpr e us) (rest : List Tok) :
    (∀ r, us ++ rest ≠ Tok.op 125 :: r) ∧ ∀ n r, us ++ rest ≠ Tok.word n :: Tok.op 58 :: r := by
  cases h with
  | str s => simp
  | nat n => simp
  | neg n => simp
  | lit h =>
    rename_i t items ts
    cases t with
    | none => simp [typeToks]
    | some t => cases t <;> simp [typeToks, GoType.toks, ident]

theorem keyToks_det {k k' : Option (List Nat)} {e e' : GoExpr} {us us' r r' : List Tok} (h1 : IsExpr e us) (h2 : IsExpr e' us')
    (h : keyToks k ++ (us ++ r) = keyToks k' ++ (us' ++ r')) : k = k' ∧ us ++ r = us' ++ r' := by
  cases k with
  | none =>
    cases k' with
    | none => exact ⟨rfl, h⟩
    | some n => exact absurd h ((expr_start h1 r).2 _ _)
  | some n =>
    cases k' with
    | none => exact absurd h.symm ((expr_start h2 r').2 _ _)
    | some m => simpa [keyToks, ident] using h

mutual

theorem expr_det {e : GoExpr} {us : List Tok} : IsExpr e us → ∀ (e' : GoExpr) (us' r r' : List Tok), IsExpr e' us' →
    us ++ r = us' ++ r' → e = e' ∧ r = r'
  | .str s => fun e' us' r r' h' h => by
    cases h' with
    | str s' => simpa using h
    | nat n => simp at h
    | neg n => simp at h
    | lit h' =>
      rename_i t items ts
      cases t with
      | none => simp [typeToks] at h
      | some t => cases t <;> simp [typeToks, GoType.toks, ident] at h
  | .nat n => fun e' us' r r' h' h => by
    cases h' with
    | str s' => simp at h
    | nat m => simpa using h
    | neg n => simp at h
    | lit h' =>
      rename_i t items ts
      cases t with
      | none => simp [typeToks] at h
      | some t => cases t <;> simp [typeToks, GoType.toks, ident] at h
  | .neg n => fun e' us' r r' h' h => by
    cases h' with
    | str s' => simp at h
    | nat m => simp at h
    | neg m => simpa using h
    | lit h' =>
      rename_i t items ts
      cases t with
      | none => simp [typeToks] at h
      | some t => cases t <;> simp [typeToks, GoType.toks, ident] at h
  | .lit (t := t) hi => fun e' us' r r' h' h => by
    cases h' with
    | str s' => cases t with
      | none => simp [typeToks] at h
      | some t => cases t <;> simp [typeToks, GoType.toks, ident] at h
    | nat m => cases t with
      | none => simp [typeToks] at h
      | some t => cases t <;> simp [typeToks, GoType.toks, ident] at h
    | neg m => cases t with
      | none => simp [typeToks] at h
      | some t => cases t <;> simp [typeToks, GoType.toks, ident] at h
    | lit hi' =>
      simp only [List.append_assoc, List.cons_append, List.nil_append] at h
      obtain ⟨rfl, h2⟩ := typeToks_det h
      obtain ⟨rfl, rfl⟩ := items_det hi _ _ _ _ hi' h2
      exact ⟨rfl, rfl⟩

theorem items_det {items : List (Option (List Nat) × GoExpr)} {us : List Tok} : IsItems items us →
    ∀ (items' : List (Option (List Nat) × GoExpr)) (us' r r' : List Tok), IsItems items' us' →
    us ++ Tok.op 125 :: r = us' ++ Tok.op 125 :: r' → items = items' ∧ r = r'
  | .nil => fun items' us' r r' h' h => by
    have no : ∀ {k : Option (List Nat)} {e : GoExpr} {ts rest : List Tok}, IsExpr e ts → Tok.op 125 :: r ≠ keyToks k ++ (ts ++ rest) := by
      intro k e ts rest he h
      cases k with
      | none => exact (expr_start he rest).1 _ h.symm
      | some k => simp [keyToks, ident] at h
    cases h' with
    | nil => simpa using h
    | last h' =>
      rw [List.append_assoc] at h
      exact absurd h (no h')
    | cons h' hi' =>
      simp only [List.append_assoc] at h
      exact absurd h (no h')
  | .last (k := k) he => fun items' us' r r' h' h => by
    cases h' with
    | nil =>
      cases k with
      | none => exact absurd h ((expr_start he _).1 _)
      | some k => simp [keyToks, ident] at h
    | last he' =>
      simp only [List.append_assoc] at h
      obtain ⟨rfl, h2⟩ := keyToks_det he he' h
      obtain ⟨rfl, h3⟩ := expr_det he _ _ _ _ he' h2
      cases h3
      exact ⟨rfl, rfl⟩
    | cons he' hi' =>
      simp only [List.append_assoc] at h
      obtain ⟨rfl, h2⟩ := keyToks_det he he' h
      obtain ⟨rfl, h3⟩ := expr_det he _ _ _ _ he' h2
      simp at h3
  | .cons (k := k) he hi => fun items' us' r r' h' h => by
    cases h' with
    | nil =>
      simp only [List.append_assoc] at h
      cases k with
      | none => exact absurd h ((expr_start he _).1 _)
      | some k => simp [keyToks, ident] at h
    | last he' =>
      simp only [List.append_assoc] at h
      obtain ⟨rfl, h2⟩ := keyToks_det he he' h
      obtain ⟨rfl, h3⟩ := expr_det he _ _ _ _ he' h2
      simp at h3
    | cons he' hi' =>
      simp only [List.append_assoc] at h
      obtain ⟨rfl, h2⟩ := keyToks_det he he' h
      obtain ⟨rfl, h3⟩ := expr_det he _ _ _ _ he' h2
      simp only [List.cons_append, List.nil_append, List.cons.injEq, true_and] at h3
      obtain ⟨rfl, rfl⟩ := items_det hi _ _ _ _ hi' h3
      exact ⟨rfl, rfl⟩

end

theorem file_det {pkg var pkg' var' : List Nat} {e e' : GoExpr} {ts : List Tok} (h : IsFile pkg var e ts) (h' : IsFile pkg' var' e' ts) :
    pkg = pkg' ∧ var = var' ∧ e = e' := by
  obtain ⟨-, us, h1, rfl⟩ := h
  obtain ⟨-, us', h1', h2⟩ := h'
  simp only [ident, List.cons_append, List.nil_append, List.cons.injEq, Tok.word.injEq, true_and] at h2
  obtain ⟨rfl, rfl, h2⟩ := h2
  exact ⟨rfl, rfl, (expr_det h1 _ _ _ _ h1' h2).1⟩

end Verif.Proof.LlxGen
