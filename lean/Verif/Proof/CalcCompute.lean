/-
Expressions made by the calculator have the values of written expressions.
-/
import Verif.Spec.Calc

namespace Verif.Proof.Calc

open Verif.Model Verif.Model.Calc Verif.Spec.Calc
open Verif.Model.Tree (bindRun)

variable {α : Type}

/-- The expression has this value in any memory. -/
def Const (A : Arith α) (ex : Ex α) (v : α) : Prop := ∀ fs call scopes vars, valueWith A fs call (scopes ++ [vars]) ex = some (.ok v)

/-- Signs of sums or of products. -/
def OpKind (sum : Bool) (op : Nat) : Prop := if sum then op = 43 ∨ op = 45 else op = 42 ∨ op = 47

/-- The written operation. -/
def bin (op : Nat) (a b : Ex α) : Ex α :=
  if op = 43 then .add a b else if op = 45 then .sub a b else if op = 42 then .mul a b else .div a b

mutual

/-- The expression of the program stands for the written one. -/
inductive Repr (A : Arith α) : Expr α → Ex α → Prop
  | num {ex v} : Const A ex v → Repr A (.number v) ex
  | var {n} : Repr A (.varName n) (.var n)
  | powOne {b x} : Repr A b x → Repr A (.power b (.number A.one)) x
  | pow {b e x y} : Repr A b x → Repr A e y → Repr A (.power b e) (.pow x y)
  | chain {k v ops ex} : ReprChain A k v ops ex → Repr A (.chain v ops) ex
  | call {n args exs} : ReprArgs A args exs → Repr A (.funcCall n args) (.call n exs)

/-- The chain stands for the written sum or product. -/
inductive ReprChain (A : Arith α) : Bool → α → List (OpVal α) → Ex α → Prop
  | const {k v ex} : Const A ex v → ReprChain A k v [] ex
  | firstSum {e ex} : Repr A e ex → ReprChain A true A.zero [.mk 43 e] ex
  | firstNeg {e ex} : Repr A e ex → ReprChain A true A.zero [.mk 45 e] (.neg ex)
  | firstPro {e ex} : Repr A e ex → ReprChain A false A.one [.mk 42 e] ex
  | addConst {k v ops op w a b} : ReprChain A k v ops a → OpKind k op → Const A b w → ReprChain A k (update A v w op) ops (bin op a b)
  | add {k v ops op e a b} : ReprChain A k v ops a → OpKind k op → Repr A e b → ReprChain A k v (ops ++ [.mk op e]) (bin op a b)

/-- Arguments stand for written ones. -/
inductive ReprArgs (A : Arith α) : List (Expr α) → List (Ex α) → Prop
  | nil : ReprArgs A [] []
  | cons {e ex es exs} : Repr A e ex → ReprArgs A es exs → ReprArgs A (e :: es) (ex :: exs)

end

/-- The context of the program for the given scopes. -/
def ctxOf (scopes : List (List Nat → Option α)) (vars : List Nat → Option α) (funcs : List Nat → Option (Function α)) : RunContext α :=
  scopes.map (fun s => { vars := s }) ++ [{ vars := vars, functions := funcs }]

/-- The result in an unchanged context. -/
def lift {β : Type} (c : RunContext α) : Option (Except CalcErr β) → Run (RunContext α × Except CalcErr β)
  | some r => .done (c, r)
  | none => .timeout

theorem lift_next {β γ : Type} (c : RunContext α) (x : Option (Except CalcErr β)) (f : β → Option (Except CalcErr γ)) :
    lift c (next x f) = thenCompute (lift c x) fun c v => lift c (f v) := by
  match x with
  | some (.ok v) => rfl
  | some (.error e) => rfl
  | none => rfl

theorem variableOf_eq (scopes : List (List Nat → Option α)) (vars : List Nat → Option α) (funcs : List Nat → Option (Function α))
    (n : List Nat) : variableOf (ctxOf scopes vars funcs) n = match lookup (scopes ++ [vars]) n with
      | some v => .ok v
      | none => .error (.unknownVar n) := by
  induction scopes with
  | nil =>
    simp only [ctxOf, List.map_nil, List.nil_append, variableOf, lookup]
    cases vars n <;> rfl
  | cons s ss ih =>
    rw [ctxOf, List.map_cons, List.cons_append, List.cons_append, variableOf, lookup]
    dsimp only
    cases s n with
    | some v => rfl
    | none => exact ih

theorem functionOf_eq (scopes : List (List Nat → Option α)) (vars : List Nat → Option α) (funcs : List Nat → Option (Function α))
    (n : List Nat) : functionOf (ctxOf scopes vars funcs) n = match funcs n with
      | some f => .ok f
      | none => .error (.unknownFunc n) := by
  induction scopes with
  | nil =>
    simp only [ctxOf, List.map_nil, List.nil_append, functionOf]
    cases funcs n <;> rfl
  | cons s ss ih =>
    rw [ctxOf, List.map_cons, List.cons_append, functionOf]
    exact ih

theorem thenCompute_lift {β γ : Type} {c : RunContext α} {x : Option (Except CalcErr β)}
    {f g : RunContext α → β → Run (RunContext α × Except CalcErr γ)} (h : ∀ v, f c v = g c v) :
    thenCompute (lift c x) f = thenCompute (lift c x) g := by
  match x with
  | some (.ok v) => exact h v
  | some (.error e) => rfl
  | none => rfl

theorem thenCompute_assoc {β γ δ : Type} (x : Run (RunContext α × Except CalcErr β)) (f : RunContext α → β → Run (RunContext α × Except CalcErr γ))
    (g : RunContext α → γ → Run (RunContext α × Except CalcErr δ)) :
    thenCompute (thenCompute x f) g = thenCompute x fun c v => thenCompute (f c v) g := by
  match x with
  | .panic => rfl
  | .timeout => rfl
  | .done (c, .ok v) => rfl
  | .done (c, .error e) => rfl

theorem computeOps_append (A : Arith α) (call : RunContext α → Function α → List α → Outcome α) (c : RunContext α) (v : α)
    (a b : List (OpVal α)) : computeOps A call c v (a ++ b) = thenCompute (computeOps A call c v a) fun c v => computeOps A call c v b := by
  induction a generalizing c v with
  | nil => simp only [List.nil_append, computeOps]; rfl
  | cons x a ih =>
    obtain ⟨op, e⟩ := x
    rw [List.cons_append, computeOps, computeOps, thenCompute_assoc]
    congr 1
    funext c' v'
    exact ih _ _

theorem update_comm {A : Arith α} (hA : Lawful A) {k : Bool} {p q : Nat} (hp : OpKind k p) (hq : OpKind k q) (x y z : α) :
    update A (update A x y p) z q = update A (update A x z q) y p := by
  cases k with
  | true =>
    rcases hp with rfl | rfl <;> rcases hq with rfl | rfl
    · exact hA.add_add x y z
    · exact hA.add_sub x y z
    · exact (hA.add_sub x z y).symm
    · exact hA.sub_sub x y z
  | false =>
    rcases hp with rfl | rfl <;> rcases hq with rfl | rfl
    · exact hA.mul_mul x y z
    · exact hA.mul_div x y z
    · exact (hA.mul_div x z y).symm
    · exact hA.div_div x y z

/-- Operations of the chain. -/
def OpVal.op : OpVal α → Nat
  | .mk op _ => op

theorem chain_kinds {A : Arith α} : {k : Bool} → {v : α} → {ops : List (OpVal α)} → {ex : Ex α} → ReprChain A k v ops ex →
    ∀ o ∈ ops, OpKind k (OpVal.op o)
  | _, _, _, _, .const _ => fun o ho => by cases ho
  | _, _, _, _, .firstSum _ => fun o ho => by rw [List.mem_singleton] at ho; subst ho; exact .inl rfl
  | _, _, _, _, .firstNeg _ => fun o ho => by rw [List.mem_singleton] at ho; subst ho; exact .inr rfl
  | _, _, _, _, .firstPro _ => fun o ho => by rw [List.mem_singleton] at ho; subst ho; exact .inl rfl
  | _, _, _, _, .addConst h _ _ => chain_kinds h
  | _, _, _, _, .add h hk _ => fun o ho => by
    rcases List.mem_append.mp ho with ho | ho
    · exact chain_kinds h o ho
    · rw [List.mem_singleton] at ho; subst ho; exact hk

/-- A constant operand may be taken at once. -/
theorem computeOps_const {A : Arith α} (hA : Lawful A) (call : RunContext α → Function α → List α → Outcome α) {k : Bool} {op : Nat} (hop : OpKind k op)
    (w : α) {ops : List (OpVal α)} (hk : ∀ o ∈ ops, OpKind k (OpVal.op o)) (c : RunContext α) (v : α) :
    computeOps A call c (update A v w op) ops = thenCompute (computeOps A call c v ops) fun c v => .done (c, .ok (update A v w op)) := by
  induction ops generalizing c v with
  | nil => simp only [computeOps]; rfl
  | cons x ops ih =>
    obtain ⟨p, e⟩ := x
    rw [computeOps, computeOps, thenCompute_assoc]
    congr 1
    funext c' v'
    rw [update_comm hA hop (show OpKind k p from hk (.mk p e) (by simp)), ih (fun o ho => hk o (by simp [ho]))]

section

variable {A : Arith α} (hA : Lawful A) {fs : List Nat → Option (Def α)} {scall : List Nat → Def α → List α → Option (Except CalcErr α)}
  {scopes : List (List Nat → Option α)} {vars : List Nat → Option α} {funcs : List Nat → Option (Function α)}
  {call : RunContext α → Function α → List α → Outcome α}

/-- Calls of functions have the same results. -/
def CallsAgree (fs : List Nat → Option (Def α)) (scall : List Nat → Def α → List α → Option (Except CalcErr α)) (c : RunContext α)
    (funcs : List Nat → Option (Function α)) (call : RunContext α → Function α → List α → Outcome α) : Prop :=
  ∀ n, match fs n, funcs n with
    | none, none => True
    | some d, some f => ∀ vs, call c f vs = lift c (scall n d vs)
    | _, _ => False

theorem bin_value {op : Nat} {k : Bool} (hop : OpKind k op) (a b : Ex α) (sc : List (List Nat → Option α)) :
    valueWith A fs scall sc (bin op a b) =
      next (valueWith A fs scall sc a) fun x => next (valueWith A fs scall sc b) fun y => some (.ok (update A x y op)) := by
  cases k with
  | true => rcases hop with rfl | rfl <;> simp only [bin, update, valueWith, reduceIte, reduceCtorEq] <;> rfl
  | false => rcases hop with rfl | rfl <;> simp only [bin, update, valueWith, reduceIte, reduceCtorEq] <;> rfl

include hA

mutual

theorem repr_value (hc : CallsAgree fs scall (ctxOf scopes vars funcs) funcs call) : {e : Expr α} → {ex : Ex α} → Repr A e ex →
    computeWith A call (ctxOf scopes vars funcs) e = lift (ctxOf scopes vars funcs) (valueWith A fs scall (scopes ++ [vars]) ex)
  | _, _, .num h => by rw [computeWith, h]; rfl
  | _, _, .var => by
    rw [computeWith, valueWith, variableOf_eq]
    cases lookup (scopes ++ [vars]) _ <;> rfl
  | _, _, .powOne (b := b) (x := x) h => by
    rw [computeWith, repr_value hc h]
    simp only [computeWith]
    match valueWith A fs scall (scopes ++ [vars]) x with
    | some (.ok v) => simp only [lift, thenCompute, bindRun, hA.pow_one]
    | some (.error e) => rfl
    | none => rfl
  | _, _, .pow h1 h2 => by
    rw [computeWith, repr_value hc h1, valueWith, lift_next]
    refine thenCompute_lift fun v => ?_
    rw [repr_value hc h2, lift_next]
    rfl
  | _, _, .chain h => by rw [computeWith]; exact chain_value hc h
  | _, _, .call (n := n) h => by
    have := hc n
    rw [computeWith, functionOf_eq, valueWith]
    revert this
    cases fs n with
    | none =>
      cases funcs n with
      | none => intro _; rfl
      | some f => exact fun h => h.elim
    | some d =>
      cases funcs n with
      | none => exact fun h => h.elim
      | some f =>
        intro this
        dsimp only
        rw [args_value hc h, lift_next]
        match valuesWith A fs scall (scopes ++ [vars]) _ with
        | some (.ok v) => exact this v
        | some (.error e) => rfl
        | none => rfl

theorem chain_value (hc : CallsAgree fs scall (ctxOf scopes vars funcs) funcs call) : {k : Bool} → {v : α} → {ops : List (OpVal α)} →
    {ex : Ex α} → ReprChain A k v ops ex →
    computeOps A call (ctxOf scopes vars funcs) v ops = lift (ctxOf scopes vars funcs) (valueWith A fs scall (scopes ++ [vars]) ex)
  | _, _, _, _, .const h => by rw [computeOps, h]; rfl
  | _, _, _, _, .firstSum (ex := x) h => by
    rw [computeOps, repr_value hc h]
    match valueWith A fs scall (scopes ++ [vars]) x with
    | some (.ok v) => simp only [lift, thenCompute, bindRun, computeOps, update, if_true, hA.zero_add]
    | some (.error e) => rfl
    | none => rfl
  | _, _, _, _, .firstNeg (ex := x) h => by
    rw [computeOps, repr_value hc h, valueWith]
    match valueWith A fs scall (scopes ++ [vars]) x with
    | some (.ok v) => simp [lift, thenCompute, bindRun, computeOps, update, next]
    | some (.error e) => rfl
    | none => rfl
  | _, _, _, _, .firstPro (ex := x) h => by
    rw [computeOps, repr_value hc h]
    match valueWith A fs scall (scopes ++ [vars]) x with
    | some (.ok v) => simp [lift, thenCompute, bindRun, computeOps, update, hA.one_mul]
    | some (.error e) => rfl
    | none => rfl
  | _, _, _, _, .addConst h hk hb => by
    rw [computeOps_const hA call hk _ (chain_kinds h), chain_value hc h, bin_value hk, lift_next]
    simp only [hb fs scall _ _]
    rfl
  | _, _, _, _, .add h hk hb => by
    rw [computeOps_append, chain_value hc h, bin_value hk, lift_next]
    refine thenCompute_lift fun v => ?_
    rw [computeOps, repr_value hc hb, lift_next]
    refine thenCompute_lift fun v => ?_
    rw [computeOps]
    rfl

theorem args_value (hc : CallsAgree fs scall (ctxOf scopes vars funcs) funcs call) : {es : List (Expr α)} → {exs : List (Ex α)} →
    ReprArgs A es exs →
    computeArgs A call (ctxOf scopes vars funcs) es = lift (ctxOf scopes vars funcs) (valuesWith A fs scall (scopes ++ [vars]) exs)
  | _, _, .nil => by rw [computeArgs, valuesWith]; rfl
  | _, _, .cons h1 h2 => by
    rw [computeArgs, repr_value hc h1, valuesWith, lift_next]
    refine thenCompute_lift fun v => ?_
    rw [args_value hc h2, lift_next]
    rfl

end

end

theorem number_value (A : Arith α) : (e : Expr α) → e.isNumber = true → ∃ v, ∀ call c, computeWith A call c e = .done (c, .ok v)
  | .number v, _ => ⟨v, fun call c => by rw [computeWith]⟩
  | .chain v [], _ => ⟨v, fun call c => by rw [computeWith, computeOps]⟩
  | .chain v (o :: os), h => by simp [Expr.isNumber] at h
  | .power b x, h => by
    rw [Expr.isNumber, Bool.and_eq_true] at h
    obtain ⟨y, hy⟩ := number_value A b h.1
    obtain ⟨z, hz⟩ := number_value A x h.2
    refine ⟨A.pow y z, fun call c => ?_⟩
    rw [computeWith, hy]
    simp only [thenCompute, bindRun]
    rw [hz]
  | .varName _, h => by simp [Expr.isNumber] at h
  | .assignment _ _, h => by simp [Expr.isNumber] at h
  | .funcDef _ _ _, h => by simp [Expr.isNumber] at h
  | .funcCall _ _, h => by simp [Expr.isNumber] at h

/-- An expression that is a number stands for a constant. -/
theorem number_const {A : Arith α} (hA : Lawful A) {e : Expr α} {ex : Ex α} (h : Repr A e ex) (hn : e.isNumber = true) :
    ∃ v, (∀ call c, computeWith A call c e = .done (c, .ok v)) ∧ Const A ex v := by
  obtain ⟨v, hv⟩ := number_value A e hn
  refine ⟨v, hv, fun fs scall scopes vars => ?_⟩
  have := repr_value hA (fs := fs) (scall := scall) (scopes := scopes) (vars := vars)
    (funcs := fun n => (fs n).map fun d => ⟨n, [], .number A.zero⟩)
    (call := fun c f vs => match fs f.name with
      | some d => lift c (scall f.name d vs)
      | none => .timeout) (by
      intro n
      dsimp only
      cases hn : fs n with
      | none => trivial
      | some d =>
        dsimp only [Option.map_some]
        intro vs
        rw [hn]) h
  rw [hv] at this
  revert this
  match valueWith A fs scall (scopes ++ [vars]) ex with
  | some (.ok w) => intro h; cases h; rfl
  | some (.error e) => intro h; cases h
  | none => intro h; cases h

theorem argVars_eq (names : List (List Nat)) (vs : List α) : argVars names vs = scopeOf names vs := by
  have key : ∀ (l : List (List Nat × α)) (init : List Nat → Option α) (n : List Nat),
      l.foldl (fun m p => setKey m p.1 p.2) init n = (l.reverse.lookup n).or (init n) := by
    intro l
    induction l using List.reverseRecOn with
    | nil => intro init n; rfl
    | append_singleton l p ih =>
      intro init n
      obtain ⟨k, v⟩ := p
      rw [List.foldl_append, List.reverse_append]
      simp only [List.foldl_cons, List.foldl_nil, List.reverse_singleton, List.singleton_append, List.lookup, setKey]
      by_cases h : n = k
      · subst h; simp
      · rw [if_neg h, ih]
        rw [show (n == k) = false by simpa using h]
  funext n
  rw [argVars, key, scopeOf]
  simp

/-- Functions of the program stand for written ones. -/
def FuncsAgree (A : Arith α) (fs : List Nat → Option (Def α)) (funcs : List Nat → Option (Function α)) : Prop :=
  ∀ n, match fs n, funcs n with
    | none, none => True
    | some d, some f => f.name = n ∧ f.argNames = d.args ∧ Repr A f.body d.body
    | _, _ => False

/-- Values computed by the program. -/
theorem compute_value {A : Arith α} (hA : Lawful A) {fs : List Nat → Option (Def α)} {funcs : List Nat → Option (Function α)}
    (hf : FuncsAgree A fs funcs) (vars : List Nat → Option α) (fuel : Nat) (scopes : List (List Nat → Option α)) {e : Expr α} {ex : Ex α}
    (h : Repr A e ex) :
    compute A fuel (ctxOf scopes vars funcs) e = lift (ctxOf scopes vars funcs) (value A fs fuel (scopes ++ [vars]) ex) := by
  induction fuel generalizing scopes e ex with
  | zero =>
    rw [compute, value]
    refine repr_value hA ?_ h
    intro n
    have := hf n
    revert this
    cases fs n <;> cases funcs n <;> simp [lift]
  | succ fuel ih =>
    rw [compute, value]
    refine repr_value hA ?_ h
    intro n
    have := hf n
    revert this
    cases fs n with
    | none => cases funcs n <;> simp
    | some d =>
      cases funcs n with
      | none => simp
      | some f =>
        rintro ⟨rfl, h2, h3⟩ vs
        rw [callFunction, h2]
        dsimp only
        by_cases hl : vs.length = d.args.length
        · rw [if_neg (by simpa using hl), if_pos hl, argVars_eq]
          rw [show ({ vars := scopeOf d.args vs } : RunFrame α) :: ctxOf scopes vars funcs = ctxOf (scopeOf d.args vs :: scopes) vars funcs from rfl,
            ih _ h3, List.cons_append]
          cases value A fs fuel (scopeOf d.args vs :: (scopes ++ [vars])) d.body <;> rfl
        · rw [if_pos hl, if_neg hl]
          rfl

end Verif.Proof.Calc
