/-
C46: reading of a grammar description returns.
-/
import Verif.Proof.LangDefRun

namespace Verif.Props

open Verif.Model Verif.Model.LangDef Verif.Spec.LangDef Verif.Proof.LangDef

/-- C46: reading of a description returns a result or an error, without a panic, unless the text ends inside a list of arguments
of a directive or inside a regular expression. The number of steps is linear. Missing: unfinished texts, see
`C46_directive_violated` and `C46_regexp_violated`. -/
theorem C46_returns_partial (okRe : List Nat → Bool) {inp : List (Except LErr LTok)} (hl : Lexed inp) (hu : ¬ Unfinished inp)
    {fuel : Nat} (hf : 3 * inp.length + 5 ≤ fuel) : ∃ r, LangDef.read okRe fuel inp = .done r := by
  have hr : rest { inp := inp } = inp := rfl
  have : Safe (LangDef.read okRe fuel inp) fun _ => True := by
    unfold LangDef.read
    refine safe_bind (parseHead_safe fuel {} { inp := inp } ⟨by simp, by simp⟩ hl hu (by rw [hr]; omega)) ?_
    rintro ⟨t, c, f⟩ ⟨i1, w1, s1, -, -⟩
    dsimp only at *
    rw [hr] at s1
    refine safe_bind (finishHead_safe i1) ?_
    intro c2 i2
    exact parseBody_safe fuel t c2 f i2 (w1.lexed hl) (by omega)
  obtain ⟨r, h, -⟩ := this
  exact ⟨r, h⟩

/-- C46 does not hold: a directive without a semicolon at the end of the text is read forever. -/
theorem C46_directive_violated (okRe : List Nat → Bool) (fuel : Nat) {ts : List LTok} (ht : ∀ t ∈ ts, t.kind = .tokenName) :
    LangDef.read okRe fuel (.ok ⟨.dir, sideDir⟩ :: ts.map .ok) = .timeout := by
  unfold LangDef.read
  cases fuel with
  | zero => rfl
  | succ fuel =>
    rw [parseHead]
    obtain ⟨f', h1, h2⟩ := fetch_match (f := { inp := .ok ⟨.dir, sideDir⟩ :: ts.map .ok }) (t := ⟨.dir, sideDir⟩) (r := ts.map .ok) rfl
      (types := [Kind.name.text, Kind.dir.text, Kind.op.text, Kind.templateName.text, Kind.tokenName.text]) (.inl (by simp)) true
    unfold need
    rw [h1]
    dsimp only [orPanic, bindL]
    rw [parseDir, if_pos (by simp), parseTokenFlagDir, fetchList, fetchAll_hangs fuel f']
    · rfl
    · rw [h2]
      intro x hx
      obtain ⟨t, hm, rfl⟩ := List.mem_map.1 hx
      exact ⟨t, rfl, .inl (by rw [ht t hm]; simp)⟩

/-- C46 does not hold: a definition of a token without a semicolon at the end of the text is read forever. -/
theorem C46_regexp_violated (okRe : List Nat → Bool) (fuel : Nat) {b : Nat} {name : List Nat} {ts : List LTok}
    (ht : ∀ t ∈ ts, t.kind = .regexp ∨ t.kind = .name) :
    LangDef.read okRe fuel (.ok ⟨.tokenName, 36 :: b :: name⟩ :: .ok (op 61) :: ts.map .ok) = .timeout := by
  unfold LangDef.read
  cases fuel with
  | zero => rfl
  | succ fuel =>
    rw [parseHead]
    obtain ⟨f1, h1, h2⟩ := fetch_match (f := { inp := .ok ⟨.tokenName, 36 :: b :: name⟩ :: .ok (op 61) :: ts.map .ok })
      (t := ⟨.tokenName, 36 :: b :: name⟩) (r := .ok (op 61) :: ts.map .ok) rfl
      (types := [Kind.name.text, Kind.dir.text, Kind.op.text, Kind.templateName.text, Kind.tokenName.text]) (.inl (by simp)) true
    unfold need
    rw [h1]
    dsimp only [orPanic, bindL]
    rw [tail1_some (by simp)]
    obtain ⟨f2, h3, h4⟩ := fetch_match h2 (types := [opEqu]) (.inr (by simp [op, opEqu])) true
    simp only [List.tail_cons, orPanic, List.lookup_nil, parseReDef, need, h3, bindL, fetchRegexp]
    rw [fetchAll_hangs fuel f2]
    · simp
    · rw [h4]
      intro x hx
      obtain ⟨t, hm, rfl⟩ := List.mem_map.1 hx
      refine ⟨t, rfl, .inl ?_⟩
      rcases ht t hm with h | h <;> rw [h] <;> simp

/-- `!side $s; $s = / +/; $n = /a/; root = $n, {'a'};`. -/
def descSample : List (Except LErr LTok) :=
  [.ok ⟨.dir, bytesOf "!side"⟩, .ok ⟨.tokenName, bytesOf "$s"⟩, .ok (op 59),
    .ok ⟨.tokenName, bytesOf "$s"⟩, .ok (op 61), .ok ⟨.regexp, bytesOf "/ +/"⟩, .ok (op 59),
    .ok ⟨.tokenName, bytesOf "$n"⟩, .ok (op 61), .ok ⟨.regexp, bytesOf "/a/"⟩, .ok (op 59),
    .ok ⟨.name, bytesOf "root"⟩, .ok (op 61), .ok ⟨.tokenName, bytesOf "$n"⟩, .ok (op 44), .ok (op 123),
    .ok ⟨.string, bytesOf "'a'"⟩, .ok (op 125), .ok (op 59)]

/-- An input ending with an operator other than `=` is finished. -/
theorem finished_op {inp : List (Except LErr LTok)} {b : Nat} (hb : b ≠ 61) : ¬ Unfinished (inp ++ [.ok (op b)]) := by
  rintro (⟨pre, post, d, h, hd, ho⟩ | ⟨pre, post, n, h, hn, ho⟩)
  · rcases List.eq_nil_or_concat post with rfl | ⟨p, x, rfl⟩
    · have := List.append_inj' h rfl
      simp only [List.cons.injEq, Except.ok.injEq, and_true] at this
      rw [← this.2] at hd
      cases hd
    · rw [List.concat_eq_append] at h ho
      have h2 : inp ++ [.ok (op b)] = (pre ++ .ok d :: p) ++ [x] := by rw [h]; simp
      have := List.append_inj' h2 rfl
      simp only [List.cons.injEq, and_true] at this
      obtain ⟨t, e, hk⟩ := ho x (by simp)
      rw [← this.2] at e
      cases e
      simp [op] at hk
  · rcases List.eq_nil_or_concat post with rfl | ⟨p, x, rfl⟩
    · have h2 : inp ++ [.ok (op b)] = (pre ++ [.ok n]) ++ [.ok (op 61)] := by rw [h]; simp
      have := List.append_inj' h2 rfl
      simp only [List.cons.injEq, Except.ok.injEq, and_true, op, LTok.mk.injEq, true_and] at this
      exact hb this.2
    · rw [List.concat_eq_append] at h ho
      have h2 : inp ++ [.ok (op b)] = (pre ++ .ok n :: .ok (op 61) :: p) ++ [x] := by rw [h]; simp
      have := List.append_inj' h2 rfl
      simp only [List.cons.injEq, and_true] at this
      obtain ⟨t, e, hk⟩ := ho x (by simp)
      rw [← this.2] at e
      cases e
      simp [op] at hk

theorem descSample_lexed : Lexed descSample := by
  intro t ht
  simp only [descSample, List.mem_cons, Except.ok.injEq, List.not_mem_nil, or_false] at ht
  have b1 : bytesOf "$s" = [36, 115] := by decide +kernel
  have b2 : bytesOf "$n" = [36, 110] := by decide +kernel
  have b3 : bytesOf "!side" = [33, 115, 105, 100, 101] := by decide +kernel
  have b4 : bytesOf "/ +/" = 47 :: [32, 43] ++ [47] := by decide +kernel
  have b5 : bytesOf "/a/" = 47 :: [97] ++ [47] := by decide +kernel
  have b6 : bytesOf "root" = 114 :: [111, 111, 116] := by decide +kernel
  have b7 : bytesOf "'a'" = 39 :: [97] ++ [39] := by decide +kernel
  rcases ht with rfl | rfl | rfl | rfl | rfl | rfl | rfl | rfl | rfl | rfl | rfl | rfl | rfl | rfl | rfl | rfl | rfl | rfl | rfl
  · exact ⟨_, b3⟩
  · exact ⟨_, b1⟩
  · exact ⟨59, by decide, rfl⟩
  · exact ⟨_, b1⟩
  · exact ⟨61, by decide, rfl⟩
  · exact ⟨_, b4⟩
  · exact ⟨59, by decide, rfl⟩
  · exact ⟨_, b2⟩
  · exact ⟨61, by decide, rfl⟩
  · exact ⟨_, b5⟩
  · exact ⟨59, by decide, rfl⟩
  · exact ⟨_, _, by unfold letter; omega, b6⟩
  · exact ⟨61, by decide, rfl⟩
  · exact ⟨_, b2⟩
  · exact ⟨44, by decide, rfl⟩
  · exact ⟨123, by decide, rfl⟩
  · exact ⟨39, _, .inr rfl, b7⟩
  · exact ⟨125, by decide, rfl⟩
  · exact ⟨59, by decide, rfl⟩

example : Lexed descSample ∧ ¬ Unfinished descSample :=
  ⟨descSample_lexed, finished_op (inp := descSample.dropLast) (b := 59) (by decide)⟩

/-- The result for the sample. -/
example : (match LangDef.read (fun _ => true) 70 descSample with
    | .done (.ok c) => decide (c.tokens.map (·.name) = [bytesOf "s", bytesOf "n", bytesOf "a"] ∧
        c.tokens.map (·.flags.side) = [true, false, false] ∧ c.nodes.map (·.name) = [bytesOf "root"])
    | _ => false) = true := by decide +kernel

end Verif.Props
