/-
C71: the calculator.
-/
import Mathlib.Algebra.Field.Rat
import Verif.Proof.CalcAhead
import Verif.Proof.CalcPerform
import Verif.Proof.CalcUnique
import Verif.Props.SoundOn
import Verif.Props.Fold

namespace Verif.Props

open Verif.Model Verif.Model.Calc Verif.Spec Verif.Spec.Ebnf Verif.Spec.Calc Verif.Proof Verif.Proof.Calc

variable {α : Type}

/-- The compiled description of the calculator language is the generated grammar. -/
theorem calc_compiled : Compiled id find tokens bodies (List.range 8) (List.range 8) (List.range 8) 100 grammar := by
  refine ⟨by decide +kernel, ?_, ?_, List.Perm.refl _, List.Perm.refl _⟩
  · simp [bodies, nameTok, numberTok, lParen, rParen, comma, equals, minus, plus, times, divide, caret, WF, WFs, IsBody]
  · simp [bodies, nameTok, numberTok, lParen, rParen, comma, equals, minus, plus, times, divide, caret, refs, refsAll]

theorem calc_loops : ∀ c ∈ bodies, LoopOk true c := by
  simp [bodies, nameTok, numberTok, lParen, rParen, comma, equals, minus, plus, times, divide, caret, LoopOk, LoopOkSeq, LoopOkAny]

theorem calc_safeMachines : SafeMachines bodies (List.range 8) (List.range 8) 100 :=
  safe_of_check (fun c hc => (calc_compiled.wf c hc).1) (by decide +kernel)

theorem calc_distinct : DistinctLiterals grammar := distinct_of (by decide +kernel)

theorem calc_feeds {σ : Type} {env : PEnv σ} (hg : env.g = grammar) (h : FromLexer env) : Feeds env Given := by
  intro src types src' tok hp he hs t ht
  subst ht
  rcases h.2 src types src' t hp with h1 | h1 | h1 | h1
  · exact .inl h1
  · refine absurd ⟨?_, by rw [h.1]; simp⟩ hs
    rw [hg]
    simp only [Grammar.isSideToken, Option.any_some, h1]
    decide
  · exact absurd (by simp [h1]) he
  · exact .inr h1

/-- Consumed tokens are captured ones. -/
theorem leaves_lexed {upper : List Nat → List Nat} {w : List Sym} {items : List Item}
    (h : Spells (Stands grammar upper) (fun t => grammar.isSideType t.type = true) Word w items) (hw : ∀ x ∈ w, x ≠ Sym.eoi)
    (hl : ∀ t ∈ leavesOf items, Given (some t)) : ∀ t ∈ leavesOf items, Lexed t := by
  induction h with
  | nil => intro t ht; simp [leavesOf] at ht
  | @side t w items hs _ ih =>
    intro t' ht'
    rw [leaves_tok] at ht' hl
    rcases hl t (by simp) t rfl with h1 | h1
    · rw [lexed_notSide h1] at hs; cases hs
    · rw [h1] at hs; exact absurd hs (by decide)
  | @tok x t w items hr _ ih =>
    intro t' ht'
    rw [leaves_tok] at ht' hl
    rcases List.mem_cons.mp ht' with rfl | ht'
    · rcases hl t' (by simp) t' rfl with h1 | h1
      · exact h1
      · cases x with
        | tok k =>
          exfalso
          rcases hr with ⟨h0, -⟩ | ⟨h2, -⟩
          · rw [h1] at h0; revert h0; decide
          · rw [h1] at h2; simp [eoiTokenType] at h2
        | eoi => exact absurd rfl (hw .eoi (by simp))
        | node i => exact absurd hr (by simp [Stands])
    · exact ih (fun x hx => hw x (by simp [hx])) (fun t ht => hl t (by simp [ht])) t' ht'
  | @node i start u its w items hu _ _ ihu ih =>
    intro t ht
    rw [leaves_node] at ht hl
    rcases List.mem_append.mp ht with ht | ht
    · exact ihu (word_noEoi hu) (fun t ht => hl t (by simp [ht])) t ht
    · exact ih (fun x hx => hw x (by simp [hx])) (fun t ht => hl t (by simp [ht])) t ht

/-- The parser of the calculator succeeds with the expression after consuming the tokens. -/
def ReadAs (A : Arith α) (num : List Nat → Except Nat α) (e : Option (Expr α)) (ts : List Token) : Prop :=
  ∃ (σ : Type) (env : PEnv σ) (fuel : Nat) (src : σ) (pos : SrcPos) (pc : PC σ) (k : Nat), env.g = grammar ∧ FromLexer env ∧
    parse (withObjects (hooks A num) env) fuel src pos = .done (.ok pc) ∧ pc.lastResult = some k ∧
    (objectsAfter (hooks A num) pc.log).vals k = some e ∧ ts = (consumedBy pc.steps).reduceOption

theorem names_tokens {ns : List (List Nat)} {ts : List Token} (h : AreNames ns ts) : ∀ n ∈ ns, ∃ t ∈ ts, t.content = n := by
  induction h with
  | one _ => intro n hn; rw [List.mem_singleton] at hn; exact ⟨_, by simp, hn.symm⟩
  | more _ _ _ ih =>
    intro n hn
    rcases List.mem_append.mp hn with hn | hn
    · obtain ⟨t, h1, h2⟩ := ih n hn
      exact ⟨t, by simp [h1], h2⟩
    · rw [List.mem_singleton] at hn; exact ⟨_, by simp, hn.symm⟩

theorem cmd_names {num : List Nat → Except Nat α} {cmd : Cmd α} {ts : List Token} (h : IsCmd num cmd ts) (hf : ∀ t ∈ ts, t.content ≠ funcText) :
    funcText ∉ Cmd.names cmd := by
  intro hm
  cases h with
  | value _ => simp [Cmd.names] at hm
  | assign _ _ _ => simp [Cmd.names] at hm
  | define0 _ _ _ _ _ =>
    simp only [Cmd.names, List.mem_cons, List.not_mem_nil, or_false] at hm
    exact hf _ (by simp) hm.symm
  | define _ _ hn _ _ _ =>
    simp only [Cmd.names, List.mem_cons] at hm
    rcases hm with hm | hm
    · exact hf _ (by simp) hm.symm
    · obtain ⟨t, h1, h2⟩ := names_tokens hn _ hm
      exact hf t (by simp [h1]) h2

theorem read_cmd {A : Arith α} (hA : Lawful A) {num : List Nat → Except Nat α} {r : Option (Expr α)} {ts : List Token} (h : ReadAs A num r ts) :
    ∃ cmd, IsCmd num cmd ts ∧ (funcText ∉ Cmd.names cmd → ∃ e, r = some e ∧ ReprCmd A e cmd) := by
  obtain ⟨σ, env, fuel, src, pos, pc, k, hg, hlex, hp, h1, h2, rfl⟩ := h
  have hg' : (withObjects (hooks A num) env).g = grammar := hg
  have hlex' : FromLexer (withObjects (hooks A num) env) := hlex
  obtain ⟨items, h3, ⟨w, h4, h5⟩, h6, h7⟩ := accepted_tree calc_compiled calc_loops calc_safeMachines calc_distinct _ hg'
    (calc_feeds hg' hlex') (by rw [hg']; exact calc_safe _) hp
  obtain ⟨k', r', e1, e2, e3⟩ := fold_of_closed h7
  rw [h1] at e1; cases e1
  rw [h2] at e2; cases e2
  rw [← h3]
  exact root_good hA h4 h5 (leaves_lexed h5 (word_noEoi h4) h6) e3

/-- C71, partial: tokens of any successfully parsed input are a written command: an expression with usual precedence of operators, an
assignment or a definition of a function; the command is performed as the mathematical one, in any sequence of inputs: the results are
the values of expressions, where values of variables and functions are the last assigned ones. Parsing is done with the generated
grammar, the parser with lookaheads and node hooks of the calculator. Missing: the name `func` in definitions (see
`C71_func_is_lost`); arithmetic is exact (see `C71_rounding`); the depth of calls is bounded by any number, deeper calls are out of the
stack. -/
theorem C71_calculator_partial {A : Arith α} (hA : Lawful A) {num : List Nat → Except Nat α} {rs : List (Option (Expr α))} {tss : List (List Token)}
    (h : List.Forall₂ (ReadAs A num) rs tss) (hf : ∀ ts ∈ tss, ∀ t ∈ ts, t.content ≠ funcText) (depth : Nat) :
    ∃ cmds es, List.Forall₂ (IsCmd num) cmds tss ∧ rs = es.map some ∧
      computeAll A depth [{}] es = match performAll A depth {} cmds with
        | some vs => .done vs
        | none => .timeout := by
  have key : ∃ cmds es, List.Forall₂ (IsCmd num) cmds tss ∧ rs = es.map some ∧ List.Forall₂ (ReprCmd A) es cmds := by
    induction h with
    | nil => exact ⟨[], [], .nil, rfl, .nil⟩
    | @cons r ts rs tss h1 _ ih =>
      obtain ⟨cmds, es, h2, rfl, h3⟩ := ih fun ts hts => hf ts (by simp [hts])
      obtain ⟨cmd, h4, h5⟩ := read_cmd hA h1
      obtain ⟨e, rfl, h6⟩ := h5 (cmd_names h4 (hf ts (by simp)))
      exact ⟨cmd :: cmds, e :: es, .cons h4 h2, rfl, .cons h6 h3⟩
  obtain ⟨cmds, es, h1, h2, h3⟩ := key
  refine ⟨cmds, es, h1, h2, ?_⟩
  have run : ∀ (m : Memory α) c, Holds A m c → computeAll A depth c es = match performAll A depth m cmds with
      | some vs => .done vs
      | none => .timeout := by
    clear h1 h2 h hf
    induction h3 with
    | nil => intro m c _; rfl
    | @cons e cmd es cmds h4 _ ih =>
      intro m c hc
      have := perform_cmd hA hc depth h4
      rw [computeAll, performAll]
      generalize compute A depth c e = o at this
      generalize perform A depth m cmd = x at this
      match o, x, this with
      | .timeout, none, _ => rfl
      | .done (c', r), some (m', r'), ⟨h5, h6⟩ =>
        subst h6
        simp only [Tree.bindRun, Option.bind_some]
        rw [ih m' c' h5]
        cases performAll A depth m' cmds <;> rfl
  refine run {} [{}] ⟨fun _ => none, rfl, ?_⟩
  intro n
  trivial

/-- C71: tokens can be read as a command in one way only, so the commands of `C71_calculator_partial` are the ones that are written. -/
theorem C71_one_reading {num : List Nat → Except Nat α} {cmd cmd' : Cmd α} {ts : List Token} (h : IsCmd num cmd ts) (h' : IsCmd num cmd' ts) :
    cmd = cmd' := CalcUnique.cmd_unique h h'

/-- Tokens of the calculator language. -/
def calcTokens (text : String) : List Token :=
  text.toList.map fun c =>
    if c.isDigit then { type := 1, typeName := "number", content := [c.toNat], pos := ⟨none, 0⟩ }
    else if c.isAlpha then { type := 2, typeName := "name", content := [c.toNat], pos := ⟨none, 0⟩ }
    else if c = '-' then { type := 4, typeName := "minus", content := [c.toNat], pos := ⟨none, 0⟩ }
    else { type := 3, typeName := "op", content := [c.toNat], pos := ⟨none, 0⟩ }

/-- One-digit numbers. -/
def digitOf (β : Type) [NatCast β] : List Nat → Except Nat β
  | [c] => .ok ((c - 48 : Nat) : β)
  | _ => .error 0

/-- A check of `Lexed`. -/
def isLexed (t : Token) : Bool :=
  decide ((t.type = 1 ∧ t.typeName = "number" ∧ ∃ c ∈ t.content, 48 ≤ c ∧ c ≤ 57) ∨
  (t.type = 2 ∧ t.typeName = "name" ∧ ∃ c ∈ t.content.head?, (65 ≤ c ∧ c ≤ 90 ∨ 97 ≤ c ∧ c ≤ 122)) ∨
  (t.type = 3 ∧ t.typeName = "op" ∧ ∃ c ∈ "(),=*/^+-".toList, t.content = [c.toNat]) ∨
  (t.type = 4 ∧ t.typeName = "minus" ∧ t.content = ['-'.toNat]))

theorem isLexed_spec {t : Token} (h : isLexed t = true) : Lexed t := by
  rcases of_decide_eq_true h with h | ⟨h1, h2, c, h3, h4⟩ | h | h
  · exact .inl h
  · refine .inr (.inl ⟨h1, h2, ?_⟩)
    cases hc : t.content with
    | nil => rw [hc] at h3; cases h3
    | cons d ds => rw [hc] at h3; cases h3; exact ⟨_, _, rfl, h4⟩
  · exact .inr (.inr (.inl h))
  · exact .inr (.inr (.inr h))

/-- A stream of captured tokens. -/
def calcEnv : PEnv (List Token) where
  g := grammar
  upper := id
  pull := fun s _ => match s with
    | [] => .done ([], .ok (some eoiToken))
    | t :: ts => .done (ts, if isLexed t then .ok (some t) else .error (.wrongToken t))
  unread := fun s t => some (t :: s)

theorem calcEnv_lexer : FromLexer calcEnv := by
  refine ⟨rfl, fun src types src' t h => ?_⟩
  cases src with
  | nil => cases h; exact .inr (.inr (.inr rfl))
  | cons t' ts =>
    simp only [calcEnv, Run.done.injEq, Prod.mk.injEq] at h
    obtain ⟨-, h⟩ := h
    split at h
    · rename_i hl
      cases h
      exact .inl (isLexed_spec hl)
    · cases h

/-- What the calculator reads. -/
def calcRead (A : Arith α) (num : List Nat → Except Nat α) (ts : List Token) : Option (Expr α) :=
  match parse (withObjects (hooks A num) calcEnv) 200 ts ⟨none, 0⟩ with
  | .done (.ok pc) =>
    if (consumedBy pc.steps).reduceOption = ts then (pc.lastResult.bind (objectsAfter (hooks A num) pc.log).vals).join else none
  | _ => none

theorem calcRead_spec {A : Arith α} {num : List Nat → Except Nat α} {ts : List Token} {e : Expr α} (h : calcRead A num ts = some e) :
    ReadAs A num (some e) ts := by
  unfold calcRead at h
  split at h
  · rename_i pc hp
    split at h
    · rename_i hts
      rw [Option.join_eq_some_iff, Option.bind_eq_some_iff] at h
      obtain ⟨k, h1, h2⟩ := h
      exact ⟨_, calcEnv, _, _, _, pc, k, rfl, calcEnv_lexer, hp, h1, h2, hts.symm⟩
    · cases h
  · cases h

/-- Exact arithmetic. -/
def ratArith : Arith ℚ where
  zero := 0
  one := 1
  add := (· + ·)
  sub := (· - ·)
  mul := (· * ·)
  div := (· / ·)
  pow := fun x y => x ^ y.num.toNat

theorem ratArith_lawful : Lawful ratArith where
  zero_add := zero_add
  one_mul := one_mul
  pow_one := fun x => by
    show x ^ (1 : ℚ).num.toNat = x
    simp
  add_add := add_right_comm
  add_sub := fun x y z => by show x + y - z = x - z + y; rw [sub_add_eq_add_sub]
  sub_sub := fun x y z => by show x - y - z = x - z - y; rw [sub_right_comm]
  mul_mul := mul_right_comm
  mul_div := fun x y z => by show x * y / z = x / z * y; rw [mul_div_right_comm]
  div_div := fun x y z => by show x / y / z = x / z / y; rw [div_right_comm]

/-- Inputs are read and computed one after another. -/
def calcSession (A : Arith α) (num : List Nat → Except Nat α) (depth : Nat) (tss : List (List Token)) : Option (List (Except CalcErr α)) :=
  (tss.mapM (calcRead A num)).bind fun es =>
    match computeAll A depth [{}] es with
    | .done vs => some vs
    | _ => none

theorem calcRead_all {A : Arith α} {num : List Nat → Except Nat α} : ∀ {tss : List (List Token)}, (tss.all fun ts => (calcRead A num ts).isSome) = true →
    ∃ es, tss.mapM (calcRead A num) = some es ∧ List.Forall₂ (ReadAs A num) (es.map some) tss
  | [], _ => ⟨[], rfl, .nil⟩
  | ts :: tss, h => by
    rw [List.all_cons, Bool.and_eq_true] at h
    obtain ⟨es, h1, h2⟩ := calcRead_all h.2
    obtain ⟨e, h3⟩ := Option.isSome_iff_exists.mp h.1
    exact ⟨e :: es, by simp [List.mapM_cons, h1, h3], .cons (calcRead_spec h3) h2⟩

/-- Hypotheses of `C71_calculator_partial` hold for inputs `f(x,y)=x-y*2+1`, `a=f(7,1)`, `a^2/a-(-a)-a`. -/
example : ∃ rs, List.Forall₂ (ReadAs ratArith (digitOf ℚ)) rs (["f(x,y)=x-y*2+1", "a=f(7,1)", "a^2/a-(-a)-a"].map calcTokens) ∧
    ∀ ts ∈ ["f(x,y)=x-y*2+1", "a=f(7,1)", "a^2/a-(-a)-a"].map calcTokens, ∀ t ∈ ts, t.content ≠ funcText := by
  obtain ⟨es, -, h⟩ := calcRead_all (A := ratArith) (num := digitOf ℚ) (tss := ["f(x,y)=x-y*2+1", "a=f(7,1)", "a^2/a-(-a)-a"].map calcTokens)
    (by decide +kernel)
  exact ⟨_, h, by decide +kernel⟩

/-- Results for these inputs are 0, 6, and 6. -/
example : calcSession ratArith (digitOf ℚ) 5 (["f(x,y)=x-y*2+1", "a=f(7,1)", "a^2/a-(-a)-a"].map calcTokens) = some [.ok 0, .ok 6, .ok 6] := by
  decide +kernel

/-- The token `func`. -/
def funcToken : Token := { type := 2, typeName := "name", content := funcText, pos := ⟨none, 0⟩ }

/-- The name `func` can be given to a function, but the definition is lost: after `func(x)=x+1` the value of `func(1)` must be 2, the calculator
says that there is no such function. It has defined the function `x` without arguments instead. -/
theorem C71_func_is_lost : ∃ cmds es, List.Forall₂ (IsCmd (digitOf ℚ)) cmds [funcToken :: calcTokens "(x)=x+1", funcToken :: calcTokens "(1)"] ∧
    List.Forall₂ (ReadAs ratArith (digitOf ℚ)) (es.map some) [funcToken :: calcTokens "(x)=x+1", funcToken :: calcTokens "(1)"] ∧
    computeAll ratArith 5 [{}] es = .done [.ok 0, .error (.unknownFunc funcText)] ∧
    performAll ratArith 5 {} cmds = some [.ok 0, .ok 2] := by
  obtain ⟨es, h1, h2⟩ := calcRead_all (A := ratArith) (num := digitOf ℚ)
    (tss := [funcToken :: calcTokens "(x)=x+1", funcToken :: calcTokens "(1)"]) (by decide +kernel)
  refine ⟨[.define funcText [[120]] (.add (.var [120]) (.num 1)), .value (.call funcText [.num 1])], es, ?_, h2, ?_, by decide +kernel⟩
  · refine .cons ?_ (.cons ?_ .nil)
    · have hn : ∀ {c : Nat}, IsName { type := 2, typeName := "name", content := [c], pos := ⟨none, 0⟩ } := rfl
      exact IsCmd.define (f := funcToken) (us := [_]) rfl ⟨.inl rfl, rfl⟩ (.one hn) ⟨.inl rfl, rfl⟩ ⟨.inl rfl, rfl⟩
        (.add (ts := [_]) (.one (.one (.one (.var hn)))) ⟨.inl rfl, rfl⟩ (.one (.one (.num rfl rfl))))
    · exact .value (.one (.one (.one (.call (f := funcToken) (ts := [_]) rfl ⟨.inl rfl, rfl⟩ (.one (.one (.one (.one (.num rfl rfl))))) ⟨.inl rfl, rfl⟩))))
  · have h : calcSession ratArith (digitOf ℚ) 5 [funcToken :: calcTokens "(x)=x+1", funcToken :: calcTokens "(1)"] =
        some [.ok 0, .error (.unknownFunc funcText)] := by decide +kernel
    rw [calcSession, h1, Option.bind_some] at h
    split at h
    · rename_i vs hv
      cases h
      exact hv
    · cases h

/-- Hypotheses of `C71_one_reading` hold for `x-1-x`, which is `(x-1)-x`. -/
example : IsCmd (digitOf ℚ) (.value (.sub (.sub (.var [120]) (.num 1)) (.var [120]))) (calcTokens "x-1-x") := by
  have hn : ∀ {c : Nat}, IsName { type := 2, typeName := "name", content := [c], pos := ⟨none, 0⟩ } := rfl
  exact .value (.sub (ts := [_, _, _]) (.sub (ts := [_]) (.one (.one (.one (.var hn)))) ⟨.inr rfl, rfl⟩ (.one (.one (.num rfl rfl)))) ⟨.inr rfl, rfl⟩
    (.one (.one (.var hn))))

/-- Integers with 3 significant bits: odd numbers after 8 are rounded to even ones, down. -/
def roughArith : Arith Int where
  zero := 0
  one := 1
  add := fun x y => if x + y < 8 then x + y else (x + y) / 2 * 2
  sub := fun x y => x - y
  mul := fun x y => x * y
  div := fun x y => x / y
  pow := fun x _ => x

/-- With rounding, results differ from ones of performing operations from left to right: numbers of a sum are added first. After `x=8` the
value of `x+1+1` is 8 (each of additions is rounded), the calculator gives 10. -/
theorem C71_rounding : ∃ cmds es, List.Forall₂ (IsCmd (digitOf Int)) cmds [calcTokens "x=8", calcTokens "x+1+1"] ∧
    List.Forall₂ (ReadAs roughArith (digitOf Int)) (es.map some) [calcTokens "x=8", calcTokens "x+1+1"] ∧
    computeAll roughArith 5 [{}] es = .done [.ok 8, .ok 10] ∧ performAll roughArith 5 {} cmds = some [.ok 8, .ok 8] := by
  obtain ⟨es, h1, h2⟩ := calcRead_all (A := roughArith) (num := digitOf Int) (tss := [calcTokens "x=8", calcTokens "x+1+1"]) (by decide +kernel)
  refine ⟨[.assign [120] (.num 8), .value (.add (.add (.var [120]) (.num 1)) (.num 1))], es, ?_, h2, ?_, by decide +kernel⟩
  · have hn : ∀ {c : Nat}, IsName { type := 2, typeName := "name", content := [c], pos := ⟨none, 0⟩ } := rfl
    refine .cons ?_ (.cons ?_ .nil)
    · exact IsCmd.assign hn ⟨.inl rfl, rfl⟩ (.one (.one (.one (.num rfl rfl))))
    · exact .value (.add (ts := [_, _, _]) (.add (ts := [_]) (.one (.one (.one (.var hn)))) ⟨.inl rfl, rfl⟩ (.one (.one (.num rfl rfl)))) ⟨.inl rfl, rfl⟩
        (.one (.one (.num rfl rfl))))
  · have h : calcSession roughArith (digitOf Int) 5 [calcTokens "x=8", calcTokens "x+1+1"] = some [.ok 8, .ok 10] := by decide +kernel
    rw [calcSession, h1, Option.bind_some] at h
    split at h
    · rename_i vs hv
      cases h
      exact hv
    · cases h

end Verif.Props
