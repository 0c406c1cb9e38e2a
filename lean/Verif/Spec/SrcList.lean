/-
Specification of a source queue as a list of sources with saved positions; independent of the model.
The first element is the current source.
-/

namespace Verif.Spec.SrcList

/-- A state of the queue. `σ` is the type of sources. -/
abbrev State (σ : Type) := List (σ × Nat)

/-- Calls of the queue API that change its state. `restore k` restores the snapshot taken by the `k`-th (from 0)
call of `Snapshot` and does nothing if there was no such call. -/
inductive Op (σ : Type)
  | append (s : Option σ)
  | prepend (s : Option σ)
  | next
  | skip (n : Int)
  | rewind (n : Int)
  | seek (p : Int)
  | snapshot
  | restore (k : Nat)

variable {σ : Type} (len : σ → Nat)

/-- A non-empty source is added to the end; the only empty source is replaced; an empty source is added only to a
queue without sources or in place of another empty source. -/
def append (l : State σ) (s : σ) : State σ :=
  match l with
  | [] => [(s, 0)]
  | (c, p) :: rest =>
    if len c = 0 then (s, 0) :: rest
    else if len s = 0 then l
    else (c, p) :: rest ++ [(s, 0)]

/-- A non-empty source is added to the beginning, and the same rules about empty sources. -/
def prepend (l : State σ) (s : σ) : State σ :=
  match l with
  | [] => [(s, 0)]
  | (c, p) :: rest =>
    if len c = 0 then (s, 0) :: rest
    else if len s = 0 then l
    else (s, 0) :: (c, p) :: rest

/-- Change of position in the current source. -/
def move (f : σ → Nat → Nat) : State σ → State σ
  | [] => []
  | (c, p) :: rest => (c, f c p) :: rest

/-- New state and (for `next` only) whether there is a current source. Second part of the state is the list of
snapshots taken so far. -/
def step (st : State σ × List (State σ)) : Op σ → (State σ × List (State σ)) × Option Bool
  | .append none => (st, none)
  | .append (some s) => ((append len st.1 s, st.2), none)
  | .prepend none => (st, none)
  | .prepend (some s) => ((prepend len st.1 s, st.2), none)
  | .next => ((st.1.tail, st.2), some (!st.1.tail.isEmpty))
  | .skip n => ((move (fun c p => if n ≤ 0 then p else min (p + n.toNat) (len c)) st.1, st.2), none)
  | .rewind n => ((move (fun _ p => p - n.toNat) st.1, st.2), none)
  | .seek n => ((move (fun c _ => min n.toNat (len c)) st.1, st.2), none)
  | .snapshot => ((st.1, st.2 ++ [st.1]), none)
  | .restore k => ((st.2.getD k st.1, st.2), none)

/-- State after a history. -/
def run (st : State σ × List (State σ)) : List (Op σ) → State σ × List (State σ)
  | [] => st
  | op :: ops => run (step len st op).1 ops

end Verif.Spec.SrcList
