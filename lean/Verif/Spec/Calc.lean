/-
Specification of the calculator: expressions with usual precedence and associativity, and their values.

See `examples/calc/internal/grammar.llx` and the help text in `examples/calc/calc.go`.
-/
import Verif.Model.Calc.Lib

namespace Verif.Spec.Calc

open Verif.Model Verif.Model.Calc

variable {α : Type}

/-- Expressions. -/
inductive Ex (α : Type)
  | num (v : α)
  | var (name : List Nat)
  | neg (a : Ex α)
  | add (a b : Ex α)
  | sub (a b : Ex α)
  | mul (a b : Ex α)
  | div (a b : Ex α)
  | pow (a b : Ex α)
  | call (name : List Nat) (args : List (Ex α))

/-- Commands. -/
inductive Cmd (α : Type)
  | value (e : Ex α)
  | assign (name : List Nat) (e : Ex α)
  | define (name : List Nat) (args : List (List Nat)) (body : Ex α)

/-- Token types: `$number` -/
def IsNumber (t : Token) : Prop := t.type = 1
/-- `$name` -/
def IsName (t : Token) : Prop := t.type = 2
/-- A sign: a token `$op` or `$minus` with the given character. -/
def IsSign (c : Char) (t : Token) : Prop := (t.type = 3 ∨ t.type = 4) ∧ t.content = [c.toNat]

/-- What tokens captured by regular expressions in lines 5-8 of `grammar.llx` look like: a number contains a digit, a name begins with a letter, a
sign is one character. -/
def Lexed (t : Token) : Prop :=
  (t.type = 1 ∧ t.typeName = "number" ∧ ∃ c ∈ t.content, 48 ≤ c ∧ c ≤ 57) ∨
  (t.type = 2 ∧ t.typeName = "name" ∧ ∃ c cs, t.content = c :: cs ∧ (65 ≤ c ∧ c ≤ 90 ∨ 97 ≤ c ∧ c ≤ 122)) ∨
  (t.type = 3 ∧ t.typeName = "op" ∧ ∃ c : Char, c ∈ "(),=*/^+-".toList ∧ t.content = [c.toNat]) ∨
  (t.type = 4 ∧ t.typeName = "minus" ∧ t.content = ['-'.toNat])

mutual

/-- The tokens are a written sum: products with signs `+` and `-` between them, which are performed from left to right; the first one may have
the sign `-`. `num` gives values of numbers. -/
inductive IsSum (num : List Nat → Except Nat α) : Ex α → List Token → Prop
  | one {e ts} : IsPro num e ts → IsSum num e ts
  | neg {e t ts} : IsSign '-' t → IsPro num e ts → IsSum num (.neg e) (t :: ts)
  | add {a b t ts us} : IsSum num a ts → IsSign '+' t → IsPro num b us → IsSum num (.add a b) (ts ++ t :: us)
  | sub {a b t ts us} : IsSum num a ts → IsSign '-' t → IsPro num b us → IsSum num (.sub a b) (ts ++ t :: us)

/-- The tokens are a written product: powers with signs `*` and `/` between them, which are performed from left to right. -/
inductive IsPro (num : List Nat → Except Nat α) : Ex α → List Token → Prop
  | one {e ts} : IsPow num e ts → IsPro num e ts
  | mul {a b t ts us} : IsPro num a ts → IsSign '*' t → IsPow num b us → IsPro num (.mul a b) (ts ++ t :: us)
  | div {a b t ts us} : IsPro num a ts → IsSign '/' t → IsPow num b us → IsPro num (.div a b) (ts ++ t :: us)

/-- The tokens are a written power; `^` is performed from right to left. -/
inductive IsPow (num : List Nat → Except Nat α) : Ex α → List Token → Prop
  | one {e ts} : IsVal num e ts → IsPow num e ts
  | pow {a b t ts us} : IsVal num a ts → IsSign '^' t → IsPow num b us → IsPow num (.pow a b) (ts ++ t :: us)

/-- The tokens are a number, a name, a function call or an expression in parentheses. -/
inductive IsVal (num : List Nat → Except Nat α) : Ex α → List Token → Prop
  | num {t v} : IsNumber t → num t.content = .ok v → IsVal num (.num v) [t]
  | var {t} : IsName t → IsVal num (.var t.content) [t]
  | paren {e l ts r} : IsSign '(' l → IsSum num e ts → IsSign ')' r → IsVal num e (l :: ts ++ [r])
  | call0 {f l r} : IsName f → IsSign '(' l → IsSign ')' r → IsVal num (.call f.content []) [f, l, r]
  | call {f l es ts r} : IsName f → IsSign '(' l → AreSums num es ts → IsSign ')' r → IsVal num (.call f.content es) (f :: l :: ts ++ [r])

/-- The tokens are one or more expressions with commas between them. -/
inductive AreSums (num : List Nat → Except Nat α) : List (Ex α) → List Token → Prop
  | one {e ts} : IsSum num e ts → AreSums num [e] ts
  | more {es e ts t us} : AreSums num es ts → IsSign ',' t → IsSum num e us → AreSums num (es ++ [e]) (ts ++ t :: us)

end

/-- The tokens are one or more names with commas between them. -/
inductive AreNames : List (List Nat) → List Token → Prop
  | one {t} : IsName t → AreNames [t.content] [t]
  | more {ns t n ts} : AreNames ns ts → IsSign ',' t → IsName n → AreNames (ns ++ [n.content]) (ts ++ [t, n])

/-- The tokens are a written command. -/
inductive IsCmd (num : List Nat → Except Nat α) : Cmd α → List Token → Prop
  | value {e ts} : IsSum num e ts → IsCmd num (.value e) ts
  | assign {x q e ts} : IsName x → IsSign '=' q → IsSum num e ts → IsCmd num (.assign x.content e) (x :: q :: ts)
  | define0 {f l r q e ts} : IsName f → IsSign '(' l → IsSign ')' r → IsSign '=' q → IsSum num e ts →
      IsCmd num (.define f.content [] e) (f :: l :: r :: q :: ts)
  | define {f l ns us r q e ts} : IsName f → IsSign '(' l → AreNames ns us → IsSign ')' r → IsSign '=' q → IsSum num e ts →
      IsCmd num (.define f.content ns e) (f :: l :: us ++ r :: q :: ts)

/-- A function of the calculator. -/
structure Def (α : Type) where
  args : List (List Nat)
  body : Ex α

/-- A value is searched for in the listed scopes. -/
def lookup : List (List Nat → Option α) → List Nat → Option α
  | [], _ => none
  | s :: ss, n =>
    match s n with
    | some v => some v
    | none => lookup ss n

/-- Values of variables with the given names. -/
def scopeOf (names : List (List Nat)) (vs : List α) : List Nat → Option α := fun n => (names.zip vs).reverse.lookup n

/-- The next step is done after a successful one; `none` means that the depth of calls is not enough. -/
def next {β γ : Type} (x : Option (Except CalcErr β)) (f : β → Option (Except CalcErr γ)) : Option (Except CalcErr γ) :=
  match x with
  | some (.ok v) => f v
  | some (.error e) => some (.error e)
  | none => none

mutual

/-- The value of an expression or the first error; operands are computed from left to right. `call` gives values of functions. -/
def valueWith (A : Arith α) (fs : List Nat → Option (Def α)) (call : List Nat → Def α → List α → Option (Except CalcErr α))
    (scopes : List (List Nat → Option α)) : Ex α → Option (Except CalcErr α)
  | .num v => some (.ok v)
  | .var n =>
    match lookup scopes n with
    | some v => some (.ok v)
    | none => some (.error (.unknownVar n))
  | .neg a => next (valueWith A fs call scopes a) fun x => some (.ok (A.sub A.zero x))
  | .add a b => next (valueWith A fs call scopes a) fun x => next (valueWith A fs call scopes b) fun y => some (.ok (A.add x y))
  | .sub a b => next (valueWith A fs call scopes a) fun x => next (valueWith A fs call scopes b) fun y => some (.ok (A.sub x y))
  | .mul a b => next (valueWith A fs call scopes a) fun x => next (valueWith A fs call scopes b) fun y => some (.ok (A.mul x y))
  | .div a b => next (valueWith A fs call scopes a) fun x => next (valueWith A fs call scopes b) fun y => some (.ok (A.div x y))
  | .pow a b => next (valueWith A fs call scopes a) fun x => next (valueWith A fs call scopes b) fun y => some (.ok (A.pow x y))
  | .call n args =>
    match fs n with
    | none => some (.error (.unknownFunc n))
    | some d => next (valuesWith A fs call scopes args) (call n d)

/-- Values of expressions or the first error. -/
def valuesWith (A : Arith α) (fs : List Nat → Option (Def α)) (call : List Nat → Def α → List α → Option (Except CalcErr α))
    (scopes : List (List Nat → Option α)) : List (Ex α) → Option (Except CalcErr (List α))
  | [] => some (.ok [])
  | e :: es => next (valueWith A fs call scopes e) fun v => next (valuesWith A fs call scopes es) fun vs => some (.ok (v :: vs))

end

/-- The value of an expression; nested calls are not deeper than `depth`. The body of a function is computed with arguments visible; then
variables visible at the place of the call are searched. -/
def value (A : Arith α) (fs : List Nat → Option (Def α)) : Nat → List (List Nat → Option α) → Ex α → Option (Except CalcErr α)
  | 0, scopes => valueWith A fs (fun _ _ _ => none) scopes
  | depth + 1, scopes => valueWith A fs (fun n d vs =>
      if vs.length = d.args.length then value A fs depth (scopeOf d.args vs :: scopes) d.body
      else some (.error (.wrongArgNumber n d.args.length vs.length))) scopes

/-- Variables and functions of the calculator. -/
structure Memory (α : Type) where
  vars : List Nat → Option α := fun _ => none
  funcs : List Nat → Option (Def α) := fun _ => none

/-- What a command does. -/
def perform (A : Arith α) (depth : Nat) (m : Memory α) : Cmd α → Option (Memory α × Except CalcErr α)
  | .value e => (value A m.funcs depth [m.vars] e).map fun r => (m, r)
  | .assign x e => (value A m.funcs depth [m.vars] e).map fun r =>
      match r with
      | .ok v => ({ m with vars := fun n => if n = x then some v else m.vars n }, .ok v)
      | .error e => (m, .error e)
  | .define f args e => some ({ m with funcs := fun n => if n = f then some ⟨args, e⟩ else m.funcs n }, .ok A.zero)

/-- Results of commands performed one after another. -/
def performAll (A : Arith α) (depth : Nat) : Memory α → List (Cmd α) → Option (List (Except CalcErr α))
  | _, [] => some []
  | m, c :: cs => (perform A depth m c).bind fun r => (performAll A depth r.1 cs).map fun rs => r.2 :: rs

/-- Tokens from the lexer: captured ones, side tokens (spaces), and special ones. Spaces are skipped. -/
def FromLexer {σ : Type} (env : PEnv σ) : Prop :=
  env.passSides = false ∧ ∀ src types src' t, env.pull src types = .done (src', .ok (some t)) →
    Lexed t ∨ t.type = 0 ∨ t.type = eofTokenType ∨ t.type = eoiTokenType

/-- Laws of exact arithmetic. -/
structure Lawful (A : Arith α) : Prop where
  zero_add : ∀ x, A.add A.zero x = x
  one_mul : ∀ x, A.mul A.one x = x
  pow_one : ∀ x, A.pow x A.one = x
  add_add : ∀ x y z, A.add (A.add x y) z = A.add (A.add x z) y
  add_sub : ∀ x y z, A.sub (A.add x y) z = A.add (A.sub x z) y
  sub_sub : ∀ x y z, A.sub (A.sub x y) z = A.sub (A.sub x z) y
  mul_mul : ∀ x y z, A.mul (A.mul x y) z = A.mul (A.mul x z) y
  mul_div : ∀ x y z, A.div (A.mul x y) z = A.mul (A.div x z) y
  div_div : ∀ x y z, A.div (A.div x y) z = A.div (A.div x z) y

end Verif.Spec.Calc
