/-
Conditions on token hooks: how many tokens a hook may add, and what it may do to be safe.
-/
import Verif.Model.Pipeline
import Verif.Spec.Panics

namespace Verif.Spec

open Verif Verif.Model

variable {η : Type}

/-- Every run of the hook obeys the conditions: `ret` for results, `fail` for variables after an error, `call` for changes of
sources, `crash` for panics of the hook itself; `answer` says what may be peeked. -/
def Sure (answer : Except PErr (Option Token) → Prop) (ret : η → Bool → List Token → Prop) (fail : η → Prop)
    (call : QueueCall → Prop) (crash : Prop) : HookProg η → Prop
  | .ret st emit extra => ret st emit extra
  | .fail st _ => fail st
  | .crash => crash
  | .peek k => ∀ r, answer r → Sure answer ret fail call crash (k r)
  | .read k => ∀ s p, Sure answer ret fail call crash (k s p)
  | .call c k => call c ∧ Sure answer ret fail call crash k

/-- The change of sources only goes forward: it skips a part of the current source or the whole of it. -/
def Forward : QueueCall → Prop
  | .skip _ => True
  | .next => True
  | _ => False

/-- Hooks of other layers owe not more than before. -/
def OthersOwe (φ : Nat → η → Nat) (i : Nat) (st st' : η) : Prop := ∀ j, j ≠ i → φ j st' ≤ φ j st

/-- The hook of layer `i` (there are `i` layers below it) adds finitely many tokens. `φ i st` is the number of tokens that the
layer owes: it has taken them and has not given them yet. With every token but the end of input it may take
or make `K` more. At the end of input it gives all it owes and then the end of input. Sources only go forward. `last` means that it is
the hook for the end of input. -/
def HookBound (φ : Nat → η → Nat) (K i : Nat) (last : Prop) (hook : TokenHook η) : Prop :=
  ∀ st (t : Token), (t.type = eoiTokenType ↔ last) → Sure (fun _ => True)
    (fun st' emit extra => OthersOwe φ i st st' ∧
      if t.type = eoiTokenType then φ i st' = 0 ∧ ∃ xs es, extra = xs ++ es ∧ (∀ x ∈ xs, x.type ≠ eoiTokenType) ∧
        (∀ x ∈ es, x.type = eoiTokenType) ∧ xs.length ≤ φ i st ∧ (emit = true → xs = [])
      else extra.length + φ i st' ≤ φ i st + K ∧ ∀ x ∈ extra, x.type ≠ eoiTokenType)
    (fun st' => OthersOwe φ i st st' ∧ φ i st' ≤ φ i st + (if t.type = eoiTokenType then 0 else K))
    Forward True (hook st t)

/-- `HookBound` for all hooks of all layers; the list begins with the topmost layer. -/
def HooksBound (φ : Nat → η → Nat) (K : Nat) : List (TokenLayer η) → Prop
  | [] => True
  | layer :: rest => (∀ (j : Nat) h, layer[j]? = some (some h) → HookBound φ K rest.length (j = 0) h) ∧ HooksBound φ K rest

/-- The change adds no sources. -/
def Inside : QueueCall → Prop
  | .append _ => False
  | .prepend _ => False
  | _ => True

/-- The hook never panics by itself when the variables are in `Q` and peeking gives a token of one of `n` types or a special one, or an error; it keeps `Q`
and adds no sources. -/
def HookSafe (n : Nat) (Q : η → Prop) (hook : TokenHook η) : Prop :=
  ∀ st (t : Token), Q st → KnownType n t → Sure (fun r => r ≠ .ok none ∧ ∀ t, r = .ok (some t) → KnownType n t)
    (fun st' _ _ => Q st') Q Inside False (hook st t)

/-- All hooks of the layers are safe; layers have places for special tokens (layers made by `newTokenLayer` do). -/
def HooksSafe (n : Nat) (Q : η → Prop) (layers : List (TokenLayer η)) : Prop :=
  ∀ layer ∈ layers, 4 ≤ layer.length ∧ ∀ h, some h ∈ layer → HookSafe n Q h

end Verif.Spec
