/-
C04-C08: positions in a source and newline normalisation.
-/
import Verif.Proof.SourcePos
import Verif.Proof.Normalize

namespace Verif.Props

open Verif.Model Verif.Spec.Text
open Verif.Model.Source (Wf clamp startsOf IsIdx firstLine)
open Verif.Model.Utf8 (width runeCount)

/-- Line and column of offset `p` of text `c`: negative offset is 0, offset beyond the text is its end. -/
def expectedLineCol (c : List Nat) (p : Int) : Int × Int :=
  let before := c.take (if p < 0 then 0 else if p > c.length then c.length else p.toNat)
  (1 + (before.count 10 : Nat), 1 + (runeCount (lastLine before) : Nat))

/-- A history of calls of `LineCol` for the same source: final source and all answers. -/
def askLineCol (s : Source) : List Int → Option (Source × List (Int × Int))
  | [] => some (s, [])
  | p :: ps => do
    let (s', l, c) ← s.lineCol p
    let (s'', as) ← askLineCol s' ps
    return (s'', (l, c) :: as)

theorem lineCol_expected {s : Source} (h : Wf s) (p : Int) :
    ∃ s', s.lineCol p = some (s', expectedLineCol s.content p) ∧ Wf s' ∧ s'.content = s.content := by
  obtain ⟨prev, e, h1, h2⟩ := Source.lineCol_spec h p
  refine ⟨{ s with prevLineIndex := prev }, ?_, ⟨h.starts, h1, h2⟩, rfl⟩
  rw [e]
  have : (if p < 0 then 0 else if p > s.content.length then s.content.length else p.toNat) = clamp s.content p := by
    unfold clamp
    split
    · omega
    · split <;> omega
  simp only [expectedLineCol, this, Int.add_comm 1]

theorem askLineCol_expected {s : Source} (h : Wf s) (qs : List Int) :
    ∃ s', askLineCol s qs = some (s', qs.map (expectedLineCol s.content)) ∧ Wf s' ∧ s'.content = s.content := by
  induction qs generalizing s with
  | nil => exact ⟨s, rfl, h, rfl⟩
  | cons p ps ih =>
    obtain ⟨s1, e1, w1, c1⟩ := lineCol_expected h p
    obtain ⟨s2, e2, w2, c2⟩ := ih w1
    refine ⟨s2, ?_, w2, by rw [c2, c1]⟩
    unfold askLineCol
    rw [e1]
    simp only [Option.bind_eq_bind, Option.bind_some, e2, Option.pure_def, c1]
    rfl

/-- **C04**. Whatever the content and the history of queries, every answer of `LineCol` is 1 + the number of
newlines before the (clamped) position and 1 + the number of runes between the last of these newlines and the
position. There are no panics. -/
theorem C04_lineCol (name : String) (content : List Nat) (qs : List Int) :
    ∃ s s', Source.new name content = some s ∧
      askLineCol s qs = some (s', qs.map (expectedLineCol content)) := by
  obtain ⟨s, e, w, hc, _⟩ := Source.new_wf name content
  obtain ⟨s', e', _⟩ := askLineCol_expected w qs
  exact ⟨s, s', e, by rw [e', hc]⟩

/-- **C04** for well-formed UTF-8 texts, in terms of runes: position after the runes `pre` of a text
`pre ++ suf` is line 1 + number of newlines in `pre`, column 1 + number of runes after the last newline. -/
theorem C04_lineCol_utf8 (name : String) (pre suf : List Nat) (h : ∀ r ∈ pre ++ suf, IsScalar r) :
    ∃ s s', Source.new name (encode (pre ++ suf)) = some s ∧
      s.lineCol (encode pre).length = some (s', 1 + (pre.count 10 : Int), 1 + ((lastLine pre).length : Int)) := by
  obtain ⟨s, e, w, hc, _⟩ := Source.new_wf name (encode (pre ++ suf))
  obtain ⟨s', e', _⟩ := lineCol_expected w (encode pre).length
  refine ⟨s, s', e, ?_⟩
  rw [e', hc]
  have hap : encode (pre ++ suf) = encode pre ++ encode suf := by simp [encode]
  have hsc : ∀ r ∈ pre, IsScalar r := fun r hr => h r (by simp [hr])
  have henc : ∀ r, 10 ∈ encodeRune r → r = 10 := by
    intro r hr
    unfold encodeRune at hr
    split at hr
    · simp at hr; omega
    · split at hr
      · simp at hr; omega
      · split at hr <;> simp at hr <;> omega
  have hcount : ∀ l : List Nat, (encode l).count 10 = l.count 10 := by
    intro l
    induction l with
    | nil => rfl
    | cons r l ih =>
      have : encode (r :: l) = encodeRune r ++ encode l := by simp [encode]
      rw [this, List.count_append, ih, List.count_cons]
      by_cases hr : r = 10
      · subst hr; simp [encodeRune]; omega
      · have : (encodeRune r).count 10 = 0 := List.count_eq_zero.2 fun hm => hr (henc r hm)
        rw [this]; simp [hr]
  have hno : ∀ l : List Nat, 10 ∉ l → 10 ∉ encode l := by
    intro l hl
    rw [← List.count_eq_zero, hcount, List.count_eq_zero]; exact hl
  have hlast : lastLine (encode pre) = encode (lastLine pre) ∧ ∀ r ∈ lastLine pre, IsScalar r := by
    have split : ∀ l : List Nat, 10 ∉ l ∨ ∃ a b, l = a ++ 10 :: b ∧ 10 ∉ b := by
      intro l
      induction l with
      | nil => simp
      | cons x l ih =>
        rcases ih with ih | ⟨a, b, rfl, hb⟩
        · by_cases hx : x = 10
          · subst hx; exact Or.inr ⟨[], l, rfl, ih⟩
          · left; simp only [List.mem_cons, not_or]; exact ⟨fun e => hx e.symm, ih⟩
        · exact Or.inr ⟨x :: a, b, rfl, hb⟩
    rcases split pre with hp | ⟨a, b, rfl, hb⟩
    · rw [Source.lastLine_no_nl hp, Source.lastLine_no_nl (hno _ hp)]; exact ⟨rfl, hsc⟩
    · have : encode (a ++ 10 :: b) = encode a ++ 10 :: encode b := by simp [encode, encodeRune]
      rw [this, Source.lastLine_append_nl hb, Source.lastLine_append_nl (hno _ hb)]
      exact ⟨rfl, fun r hr => hsc r (by simp [hr])⟩
  simp only [expectedLineCol, hap]
  rw [if_neg (by omega), if_neg (by simp), Int.toNat_natCast, List.take_left, hcount, hlast.1,
    Utf8.runeCount_encode _ hlast.2]

/-- Texts with multi-byte runes and several lines: the hypotheses are satisfiable and the answer is not trivial. -/
example : (∀ r ∈ [97, 0x44F, 10, 0x20AC, 0x1F600] ++ [98], IsScalar r) ∧
    [97, 0x44F, 10, 0x20AC, 0x1F600].count 10 = 1 ∧ (lastLine [97, 0x44F, 10, 0x20AC, 0x1F600]).length = 2 := by
  refine ⟨?_, by decide, by decide⟩
  simp [IsScalar]

/-- **C05**. Answer for a position does not depend on queries made before. -/
theorem C05_history_independent (name : String) (content : List Nat) (qs qs' : List Int) (p : Int) :
    ∃ s s1 s1' s2 s2' lc, Source.new name content = some s ∧
      (askLineCol s qs).map Prod.fst = some s1 ∧ s1.lineCol p = some (s2, lc) ∧
      (askLineCol s qs').map Prod.fst = some s1' ∧ s1'.lineCol p = some (s2', lc) := by
  obtain ⟨s, e, w, hc, _⟩ := Source.new_wf name content
  obtain ⟨s1, e1, w1, c1⟩ := askLineCol_expected w qs
  obtain ⟨s1', e1', w1', c1'⟩ := askLineCol_expected w qs'
  obtain ⟨s2, e2, _⟩ := lineCol_expected w1 p
  obtain ⟨s2', e2', _⟩ := lineCol_expected w1' p
  refine ⟨s, s1, s1', s2, s2', expectedLineCol content p, e, ?_, ?_, ?_, ?_⟩
  · rw [e1]; rfl
  · rw [e2, c1, hc]
  · rw [e1']; rfl
  · rw [e2', c1', hc]

/-- Different histories really leave different caches: the independence is not vacuous. -/
example : (Source.new "" [10, 97, 97]).bind (fun s => (askLineCol s [2]).map fun r => r.1.prevLineIndex) ≠
    (Source.new "" [10, 97, 97]).bind (fun s => (askLineCol s []).map fun r => r.1.prevLineIndex) := by
  decide +kernel

/-- Offset of line and column in text `c`. -/
def expectedPos (c : List Nat) (line col : Int) : Nat :=
  if line ≤ 0 ∨ col ≤ 0 then 0
  else match (splitLines c)[(line - 1).toNat]? with
    | none => c.length
    | some l => lineStart (splitLines c) (line - 1).toNat + skipRunes width (col - 1).toNat l

/-- **C06**. `Pos` is 0 for line or column below 1, content length for a line that does not exist, else the offset
reached from the line start by skipping `col - 1` runes of this line (stopping at its end); it lies within the
content and (for existing lines) within the line. -/
theorem C06_pos (name : String) (content : List Nat) (line col : Int) :
    ∃ s, Source.new name content = some s ∧ s.pos line col = some (expectedPos content line col : Int) ∧
      expectedPos content line col ≤ content.length := by
  obtain ⟨s, e, w, hc, _⟩ := Source.new_wf name content
  refine ⟨s, e, ?_, ?_⟩
  · rw [Source.pos_spec w, hc]
    unfold expectedPos
    by_cases h : line ≤ 0 ∨ col ≤ 0
    · simp only [if_pos h]; rfl
    · simp only [if_neg h]
      cases (splitLines content)[(line - 1).toNat]? <;> rfl
  · unfold expectedPos
    split
    · omega
    · rename_i h
      by_cases hl : (line - 1).toNat < (splitLines content).length
      · rw [Source.splitLines_get content _ hl]
        have h1 := Source.starts_le (Source.starts_lineStart content _ hl)
        have h2 := Source.skipRunes_le (col - 1).toNat
          (firstLine (content.drop (lineStart (splitLines content) (line - 1).toNat)))
        have h3 := Source.firstLine_drop_length (c := content) (lineStart (splitLines content) (line - 1).toNat)
        simp only
        omega
      · rw [List.getElem?_eq_none (by omega)]

/-- Meaning of `splitLines` and `lineStart` used in C06: lines contain no newlines, joined by newlines they give the
content back, and there is one line more than newlines. -/
theorem C06_lines (content : List Nat) :
    (∀ l ∈ splitLines content, 10 ∉ l) ∧ [10].intercalate (splitLines content) = content ∧
      (splitLines content).length = content.count 10 + 1 := by
  refine ⟨?_, ?_, Source.splitLines_length content⟩
  · induction content with
    | nil => simp [splitLines]
    | cons b t ih =>
      by_cases h : b = 10
      · simp only [splitLines, h, if_true, List.mem_cons]
        rintro l (rfl | hl)
        · simp
        · exact ih l hl
      · obtain ⟨l, ls, e1, e2⟩ := Source.splitLines_cons h t
        rw [e2]
        rw [e1] at ih
        intro x hx
        rcases List.mem_cons.1 hx with rfl | hx
        · simp only [List.mem_cons, not_or]
          exact ⟨fun e => h e.symm, ih l (by simp)⟩
        · exact ih x (by simp [hx])
  · induction content with
    | nil => simp [splitLines]
    | cons b t ih =>
      by_cases h : b = 10
      · simp only [splitLines, h, if_true]
        cases e : splitLines t with
        | nil => exact absurd e (Source.splitLines_ne t)
        | cons l ls =>
          rw [e] at ih
          rw [List.intercalate_cons_cons, ih]; rfl
      · obtain ⟨l, ls, e1, e2⟩ := Source.splitLines_cons h t
        rw [e2]
        rw [e1] at ih
        cases ls with
        | nil => simp at ih ⊢; exact ih
        | cons l' ls =>
          rw [List.intercalate_cons_cons] at ih ⊢
          rw [← ih]; simp

example : splitLines [97, 10, 0xD1, 0x8F, 98, 10] = [[97], [0xD1, 0x8F, 98], []] ∧
    expectedPos [97, 10, 0xD1, 0x8F, 98, 10] 2 2 = 4 ∧ expectedPos [97, 10, 0xD1, 0x8F, 98, 10] 2 9 = 5 := by
  decide +kernel

/-- **C07**, first half. `Pos` of `LineCol` of an offset is the same offset, if a rune starts there or it is the
end of content. -/
theorem C07_pos_of_lineCol (name : String) (content : List Nat) (p : Nat) (hp : Boundary width content p) :
    ∃ s s' line col, Source.new name content = some s ∧ s.lineCol p = some (s', line, col) ∧
      s'.pos line col = some (p : Int) := by
  obtain ⟨s, e, w, hc, _⟩ := Source.new_wf name content
  obtain ⟨s', e', w', hc'⟩ := lineCol_expected w p
  obtain ⟨n, hn⟩ := hp
  have hple : p ≤ content.length := hn ▸ Source.skipRunes_le n content
  have hexp : expectedLineCol content p =
      (1 + ((content.take p).count 10 : Int), 1 + (runeCount (lastLine (content.take p)) : Int)) := by
    unfold expectedLineCol
    rw [if_neg (by omega), if_neg (by omega), Int.toNat_natCast]
  rw [hc, hexp] at e'
  refine ⟨s, s', _, _, e, e', ?_⟩
  rw [Source.pos_spec w', hc', hc]
  rw [if_neg (by omega)]
  obtain ⟨k, hk⟩ := Source.exists_idx content p
  have hkl := Source.idx_eq hk
  have hst := Source.starts_lineStart content k hkl
  rw [hk.count, hk.lastLine hst, show ((1 + (k : Int) - 1).toNat) = k by omega, Source.splitLines_get content k hkl]
  simp only
  generalize hs : lineStart (splitLines content) k = st at *
  have hno := hk.no_nl hst
  have hle : st ≤ p := by obtain ⟨x, h1, h2, _⟩ := hk; rw [hst] at h1; cases h1; exact h2
  have hnl : st = 0 ∨ content[st - 1]? = some 10 := by
    rcases (Source.starts_get content k st).1 hst with h | h
    · exact Or.inl h.1
    · exact Or.inr h.2.2.1
  obtain ⟨m, hm⟩ := Source.boundary_drop (n := n) hnl (by omega)
  rw [← hn] at hm
  rw [List.drop_take, hm] at hno
  have hfl := Source.boundary_firstLine hno
  have hq : skipRunes width m (content.drop st) ≤ (firstLine (content.drop st)).length := by
    rw [← hfl]; exact Source.skipRunes_le _ _
  obtain ⟨r1, r2⟩ := Source.runeCount_take_skip m (firstLine (content.drop st))
  rw [List.drop_take, hm, ← Source.take_firstLine _ _ hq, ← hfl, r1,
    show ((1 + ((min m (runeCount (firstLine (content.drop st))) : Nat) : Int) - 1).toNat) =
      min m (runeCount (firstLine (content.drop st))) by omega, r2, hfl, ← hm]
  congr 1; omega

/-- **C07**, second half. `LineCol` of `Pos` of an existing line and of a column from 1 to one past the last rune of
the line is the same line and column. -/
theorem C07_lineCol_of_pos (name : String) (content : List Nat) (line col : Nat) (l : List Nat)
    (hline : 1 ≤ line) (hl : (splitLines content)[line - 1]? = some l)
    (hcol : 1 ≤ col) (hcol' : col ≤ runeCount l + 1) :
    ∃ s s' p, Source.new name content = some s ∧ s.pos line col = some p ∧
      s.lineCol p = some (s', (line : Int), (col : Int)) := by
  obtain ⟨s, e, w, hc, _⟩ := Source.new_wf name content
  have hlt : line - 1 < (splitLines content).length := (List.getElem?_eq_some_iff.1 hl).1
  have hl' := Source.splitLines_get content _ hlt
  have hpos := Source.pos_spec w line col
  rw [if_neg (by omega), hc, show ((line : Int) - 1).toNat = line - 1 by omega, hl'] at hpos
  obtain ⟨s', e', w', hc'⟩ := lineCol_expected w
    ((lineStart (splitLines content) (line - 1) + skipRunes width ((col : Int) - 1).toNat
      (firstLine (content.drop (lineStart (splitLines content) (line - 1)))) : Nat) : Int)
  refine ⟨s, s', _, e, hpos, ?_⟩
  rw [e', hc]
  rw [hl'] at hl
  have hll := Option.some.inj hl
  have hq := Source.skipRunes_le ((col : Int) - 1).toNat
    (firstLine (content.drop (lineStart (splitLines content) (line - 1))))
  have hidx := Source.isIdx_of hlt hq
  have hst := Source.starts_lineStart content _ hlt
  have hb := Source.firstLine_drop_length (c := content) (lineStart (splitLines content) (line - 1))
  have hs := Source.starts_le hst
  obtain ⟨r1, r2⟩ := Source.runeCount_take_skip ((col : Int) - 1).toNat
    (firstLine (content.drop (lineStart (splitLines content) (line - 1))))
  unfold expectedLineCol
  rw [if_neg (by omega), if_neg (by omega), Int.toNat_natCast]
  simp only
  rw [hidx.count, hidx.lastLine hst, List.drop_take, Nat.add_sub_cancel_left, ← Source.take_firstLine _ _ hq, r1, hll]
  congr 2
  congr 1 <;> omega

example : Boundary width [97, 10, 0xD1, 0x8F, 98, 10] 4 ∧ ¬ Boundary width [97, 10, 0xD1, 0x8F, 98, 10] 3 := by
  refine ⟨⟨3, by decide +kernel⟩, ?_⟩
  rintro ⟨n, hn⟩
  match n with
  | 0 => simp [skipRunes] at hn
  | 1 => simp [skipRunes, width, Utf8.decodeRune] at hn
  | 2 => simp [skipRunes, width, Utf8.decodeRune] at hn
  | n + 3 =>
    have h : skipRunes width (n + 3) [97, 10, 0xD1, 0x8F, 98, 10] = 4 + skipRunes width n [98, 10] := by
      have e1 : width [97, 10, 0xD1, 0x8F, 98, 10] = 1 := by decide +kernel
      have e2 : width [10, 0xD1, 0x8F, 98, 10] = 1 := by decide +kernel
      have e3 : width [0xD1, 0x8F, 98, 10] = 2 := by decide +kernel
      rw [Source.skipRunes_cons, e1, List.drop_succ_cons, List.drop_zero, Source.skipRunes_cons, e2,
        List.drop_succ_cons, List.drop_zero, Source.skipRunes_cons, e3]
      simp only [List.drop_succ_cons, List.drop_zero]
      omega
    omega

example : (splitLines [97, 10, 0xD1, 0x8F, 98, 10])[2 - 1]? = some [0xD1, 0x8F, 98] ∧
    3 ≤ runeCount [0xD1, 0x8F, 98] + 1 := by decide +kernel

/-- **C08**. `NormalizeNls` is the left to right textual replacement of `\r\n` and `\r` with `\n`; the result has no
`\r`, normalising twice changes nothing. -/
theorem C08_normalizeNls (content : List Nat) :
    normalizeNls content = some (normalize content) ∧ 13 ∉ normalize content ∧
      normalizeNls (normalize content) = some (normalize content) := by
  refine ⟨normalizeNls_eq content, normalize_no_cr content, ?_⟩
  rw [normalizeNls_eq, normalize_id (normalize_no_cr content)]

example : normalize [97, 13, 10, 13, 13, 10, 98, 10, 13] = [97, 10, 10, 10, 98, 10, 10] := by decide +kernel

end Verif.Props
