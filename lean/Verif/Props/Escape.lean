/-
C45: string literals of grammar descriptions.
-/
import Verif.Proof.Escape

namespace Verif.Props

open Verif.Model Verif.Spec.Escape Verif.Proof.Escape

/-- C45: decoding of a double-quoted literal always stops without a panic; it succeeds exactly when the text between quotes is
made of plain bytes and known escapes with all the digits and valid code points, and then the result is the text denoted by the
literal, in quotes. Here `\x##` is a rune, see `C45_byte_violated`. -/
theorem C45_decode {body : List Nat} (hb : Body body) (fuel : Nat) (hf : body.length + 1 < fuel) :
    ∃ x, processString fuel (34 :: body ++ [34]) = .done x ∧
      ∀ r, x = .ok r ↔ ∃ r', Denotes asRune body r' ∧ r = 34 :: r' ++ [34] := by
  unfold processString
  simp only [List.cons_append, Go.index, Int.le_refl, if_true, Int.toNat_zero, List.getElem?_cons_zero, orPanic, ne_eq,
    not_true_eq_false, false_or, List.mem_cons, List.mem_append, List.not_mem_nil, or_false,
    show (92 : Nat) ≠ 34 from by decide]
  by_cases h : 92 ∈ body
  · rw [if_neg (by simpa using h)]
    obtain ⟨f, rfl⟩ : ∃ f, fuel = f + 1 := ⟨fuel - 1, by omega⟩
    rw [loop_plain f 34 (by decide)]
    exact loop_spec body.length body _ _ (Nat.le_refl _) hb (by omega)
  · rw [if_pos (by simpa using h)]
    refine ⟨_, rfl, ?_⟩
    intro r
    simp only [Except.ok.injEq, denotes_plain hb h]
    constructor
    · rintro rfl; exact ⟨body, rfl, rfl⟩
    · rintro ⟨r', rfl, rfl⟩; rfl

/-- C45: single-quoted literals are taken as they are. -/
theorem C45_single_quoted (fuel : Nat) (t : List Nat) : processString fuel (39 :: t) = .done (.ok (39 :: t)) := by
  simp [processString, Go.index, orPanic]

/-- C45: a literal that denotes a text according to the documentation is decoded to this text, unless it uses `\x##` for bytes
128-255. Missing: these bytes, see `C45_byte_violated`. -/
theorem C45_documented_partial {body r : List Nat} (hb : Body body) (hd : Denotes asLowByte body r) (fuel : Nat)
    (hf : body.length + 1 < fuel) : processString fuel (34 :: body ++ [34]) = .done (.ok (34 :: r ++ [34])) := by
  obtain ⟨x, e1, e2⟩ := C45_decode hb fuel hf
  rw [e1, (e2 _).2 ⟨r, low_rune hd, rfl⟩]

/-- C45 does not hold for bytes 128-255: `"\xff"` is the byte 255 according to the documentation, the result is the UTF-8
encoding of U+00FF. -/
theorem C45_byte_violated : ∃ body r : List Nat, Body body ∧ Denotes asByte body r ∧
    ∀ fuel, processString fuel (34 :: body ++ [34]) ≠ .done (.ok (34 :: r ++ [34])) := by
  refine ⟨[92, 120, 102, 102], [255], .pair (.plain (by decide) (by decide) (.plain (by decide) (by decide) .nil)),
    .x (ds := [102, 102]) (t := []) (b := [255]) (n := 255) ?_ rfl rfl .nil, ?_⟩
  · exact .snoc (ds := [102]) (n := 15) (d := 15) (.snoc (ds := []) (n := 0) (d := 15) .nil (by decide)) (by decide)
  · intro fuel
    match fuel with
    | 0 => decide +kernel
    | 1 => decide +kernel
    | n + 2 =>
      have : processString (n + 2) (34 :: [92, 120, 102, 102] ++ [34]) = .done (.ok (34 :: [195, 191] ++ [34])) := rfl
      rw [this]
      decide

/-- `"a\n\x41\u20ac\\"`. -/
def escapeSample : List Nat := [97, 92, 110, 92, 120, 52, 49, 92, 117, 50, 48, 97, 99, 92, 92]

example : Body escapeSample ∧ processString 20 (34 :: escapeSample ++ [34]) =
    .done (.ok (34 :: [97, 10, 65, 226, 130, 172, 92] ++ [34])) := by
  refine ⟨?_, by decide +kernel⟩
  exact .plain (by decide) (by decide) (.pair (.pair (.plain (by decide) (by decide) (.plain (by decide) (by decide)
    (.pair (.plain (by decide) (by decide) (.plain (by decide) (by decide) (.plain (by decide) (by decide)
      (.plain (by decide) (by decide) (.pair .nil))))))))))

example : Denotes asLowByte [97, 92, 120, 52, 49] [97, 65] ∧ Body [97, 92, 120, 52, 49] :=
  ⟨.plain (by decide) (by decide) (.x (ds := [52, 49]) (t := []) (b := [65]) (n := 65)
    (.snoc (ds := [52]) (n := 4) (d := 1) (.snoc (ds := []) (n := 0) (d := 4) .nil (by decide)) (by decide)) rfl ⟨by decide, rfl⟩ .nil),
   .plain (by decide) (by decide) (.pair (.plain (by decide) (by decide) (.plain (by decide) (by decide) .nil)))⟩

/-- Wrong escapes are rejected: `"\q"`, `"\x4"`, `"\ud800"`. -/
example : processString 9 [34, 92, 113, 34] = .done (.error .escape) ∧ processString 9 [34, 92, 120, 52, 34] = .done (.error .escape) ∧
    processString 9 [34, 92, 117, 100, 56, 48, 48, 34] = .done (.error .rune) := by decide +kernel

end Verif.Props
