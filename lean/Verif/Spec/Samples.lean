/-
Specification of splitting a file into samples (`/repo/examples/grammar/grammar.go`, lines 10-24), independent of the model.
-/

namespace Verif.Spec.Samples

/-- Lines of a text with their newlines (the last line may have none). -/
def lines : List Nat → List (List Nat)
  | [] => []
  | b :: t =>
    if b = 10 then [10] :: lines t
    else match lines t with
      | [] => [[b]]
      | l :: ls => (b :: l) :: ls

/-- The separator: non-spacing characters that start the first line. -/
def separator (line : List Nat) : List Nat := line.takeWhile (32 < ·)

/-- Lines between separator lines; `acc` are lines of the current sample. -/
def groups (sep : List Nat) (acc : List (List Nat)) : List (List Nat) → List (List (List Nat))
  | [] => if acc.isEmpty then [] else [acc]
  | l :: ls => if sep.isPrefixOf l then acc :: groups sep [] ls else groups sep (acc ++ [l]) ls

/-- Lines of samples of a text. -/
def sampleLines (text : List Nat) : List (List (List Nat)) :=
  match lines text with
  | [] => []
  | first :: rest => groups (separator first) [] rest

/-- A text without its last newline. -/
def dropNl (s : List Nat) : List Nat := if s.getLast? = some 10 then s.dropLast else s

/-- Documented samples: "the last LF character preceding the separator is not included in the sample". -/
def documented (text : List Nat) : List (List Nat) := (sampleLines text).map fun ls => dropNl ls.flatten

end Verif.Spec.Samples
