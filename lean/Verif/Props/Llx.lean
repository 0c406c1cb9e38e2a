/-
C48: construction of errors.
-/
import Verif.Model.Llx

namespace Verif.Props

open Verif.Model

/-- **C48**. Code, name, line and column are kept as given; the text about the position is appended exactly when
name, line and column are all known (non-zero). -/
theorem C48_newError (code : Nat) (msg name : String) (line col : Int) :
    let e := newError code msg name line col
    e.code = code ∧ e.sourceName = name ∧ e.line = line ∧ e.col = col ∧
    (name ≠ "" ∧ line ≠ 0 ∧ col ≠ 0 →
      e.message = msg ++ " in " ++ name ++ " at line " ++ toString line ++ " col " ++ toString col) ∧
    (¬ (name ≠ "" ∧ line ≠ 0 ∧ col ≠ 0) → e.message = msg) := by
  refine ⟨rfl, rfl, rfl, rfl, ?_, ?_⟩
  · intro h
    simp only [newError]
    rw [if_pos h]
    simp [String.append_assoc]
  · intro h
    simp only [newError]
    rw [if_neg h]

/-- **C48** for `FormatErrorPos`: the position is taken from the argument; `FormatError` never has a position. -/
theorem C48_formatError (pos : String × Int × Int) (code : Nat) (msg : String) :
    formatErrorPos pos code msg = newError code msg pos.1 pos.2.1 pos.2.2 ∧
    formatError code msg = { code := code, message := msg, sourceName := "", line := 0, col := 0 } := by
  exact ⟨rfl, by simp [formatError, newError]⟩

example : (newError 3 "m" "f" 2 5).message = "m in f at line 2 col 5" := by decide +kernel
example : (newError 3 "m" "f" 2 0).message = "m" := by decide +kernel

end Verif.Props
