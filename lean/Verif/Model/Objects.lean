/-
Node hooks made of objects (`/repo/parser/hooks.go` lines 20-42, `NodeHookInstance`): every instance has its own state, calls
of its methods change it, `EndNode` returns a value.

States of instances and returned values are obtained by repeating the calls of layer 0 from the log one after another. A value returned
by `EndNode` is identified by the position of this call in the log.
-/
import Verif.Spec.Fold

namespace Verif.Model

open Verif.Spec (HookClass)

variable {σ ι ρ : Type}

/-- Instances and values. -/
structure Objects (ι ρ : Type) where
  insts : Nat → Option ι := fun _ => none
  vals : Nat → Option ρ := fun _ => none

/-- New state of an instance. -/
def Objects.put (o : Objects ι ρ) (k : Nat) (s : ι) : Objects ι ρ := { o with insts := fun n => if n = k then some s else o.insts n }

/-- New value. -/
def Objects.return (o : Objects ι ρ) (k : Nat) (r : ρ) : Objects ι ρ := { o with vals := fun n => if n = k then some r else o.vals n }

/-- A call of layer 0 made at moment `k`. -/
def objectCall (c : HookClass ι ρ) (o : Objects ι ρ) (k : Nat) : Event → Except Nat (Objects ι ρ)
  | .make 0 node tok => (c.make node tok).map (o.put k)
  | .newNode 0 inst node tok =>
    match o.insts inst with
    | some s => (c.newNode s node tok).map (o.put inst)
    | none => .ok o
  | .token 0 inst tok =>
    match o.insts inst with
    | some s => (c.token s tok).map (o.put inst)
    | none => .ok o
  | .endNode 0 inst =>
    match o.insts inst with
    | some s => (c.endNode s).map (o.return k)
    | none => .ok o
  | .handleNode 0 inst node (some res) =>
    match o.insts inst, o.vals res with
    | some s, some r => (c.handleNode s node r).map (o.put inst)
    | _, _ => .ok o
  | _ => .ok o

/-- Objects after all calls; there are no calls after an error. -/
def objectsAfter (c : HookClass ι ρ) (log : List Event) : Objects ι ρ :=
  log.zipIdx.foldl (fun o p => match objectCall c o p.2 p.1 with
    | .ok o => o
    | .error _ => o) {}

/-- Hooks of layer 0 are objects of the class, one for every node; hooks of other layers are arbitrary. -/
def withObjects (c : HookClass ι ρ) (env : PEnv σ) : PEnv σ :=
  { env with
    watchNodes := true
    layers := max 1 env.layers
    hooked := fun l i => l == 0 || env.hooked l i
    onMake := fun log e => match e with
      | .make 0 node tok => (objectCall c (objectsAfter c log) log.length (.make 0 node tok)).map fun _ => true
      | e => env.onMake log e
    onCall := fun log e => match e with
      | .newNode 0 inst node tok => (objectCall c (objectsAfter c log) log.length (.newNode 0 inst node tok)).map fun _ => none
      | .token 0 inst tok => (objectCall c (objectsAfter c log) log.length (.token 0 inst tok)).map fun _ => none
      | .endNode 0 inst => (objectCall c (objectsAfter c log) log.length (.endNode 0 inst)).map fun _ => some log.length
      | .handleNode 0 inst node res => (objectCall c (objectsAfter c log) log.length (.handleNode 0 inst node res)).map fun _ => none
      | e => env.onCall log e }

end Verif.Model
