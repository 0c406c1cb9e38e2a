/-
Model of the data types of `grammar/grammar.go`.
-/
import Verif.Model.Sorted
import Mathlib.Data.Finset.Lattice.Basic
import Verif.Model.Lexer

namespace Verif.Model

/-- `/repo/grammar/grammar.go` line 30, `RootNode`. -/
def rootNode : Nat := 0
/-- `/repo/grammar/grammar.go` line 38, `MaxTokenType`. -/
def maxTokenType : Nat := 63
/-- `/repo/grammar/grammar.go` line 119, `AnyToken`. -/
def anyToken : Int := -1
/-- `/repo/grammar/grammar.go` line 122, `FinalState`. -/
def finalState : Int := -1
/-- `/repo/grammar/grammar.go` line 125, `SameNode`. -/
def sameNode : Int := -1

/-- `/repo/grammar/grammar.go` lines 40-41 and 59-86, `TokenFlags` (one Boolean per bit). -/
structure TokenFlags where
  literal : Bool := false
  external : Bool := false
  side : Bool := false
  error : Bool := false
  caseless : Bool := false
  reserved : Bool := false
  noLiterals : Bool := false
deriving Repr, DecidableEq, Inhabited

/-- `/repo/grammar/grammar.go` lines 43-57, type `Token`; names and texts are byte lists, `re` is `none` for an empty
expression. -/
structure GToken where
  name : List Nat
  re : Option (List Nat)
  group : Nat := 0
  flags : TokenFlags := {}
deriving Repr, DecidableEq, Inhabited

/-- `/repo/grammar/grammar.go` lines 126-136, type `Rule`. -/
structure Rule where
  token : Int
  state : Int
  node : Int
deriving Repr, DecidableEq, Inhabited

/-- `/repo/grammar/grammar.go` lines 138-148, type `MultiRule`. -/
structure MultiRule where
  token : Int
  lowRule : Nat
  highRule : Nat
deriving Repr, DecidableEq, Inhabited

/-- `/repo/grammar/grammar.go` lines 150-170, type `State`. -/
structure GState where
  types : BitVec 64
  lowMulti : Nat
  highMulti : Nat
  lowRule : Nat
  highRule : Nat
deriving Repr, DecidableEq, Inhabited

end Verif.Model
