/-
Specification of error reporting: token hooks that may only fail in an allowed way.
-/
import Verif.Model.Pipeline

namespace Verif.Spec

open Verif.Model

variable {η : Type}

/-- The hook panics instead of returning an error that is not allowed. -/
def strictProg (allowed : Nat → Bool) : HookProg η → HookProg η
  | .ret st emit extra => .ret st emit extra
  | .fail st e => if allowed e then .fail st e else .crash
  | .crash => .crash
  | .peek k => .peek fun r => strictProg allowed (k r)
  | .read k => .read fun s p => strictProg allowed (k s p)
  | .call c k => .call c (strictProg allowed k)

/-- All hooks of a layer panic instead of returning errors that are not allowed. -/
def strictLayer (allowed : Nat → Bool) (layer : TokenLayer η) : TokenLayer η :=
  layer.map fun h => h.map fun hook => fun st tok => strictProg allowed (hook st tok)

/-- The only hook error allowed is the given one. -/
def only (x : PErr) (e : Nat) : Bool := x = .hook e

end Verif.Spec
