/-
Lookaheads in the grammar of the calculator are safe for captured tokens.
-/
import Verif.Proof.Shapes
import Verif.Proof.CalcRead

namespace Verif.Proof.Calc

open Verif.Model Verif.Model.Calc Verif.Spec Verif.Spec.Calc

/-- Tokens the parser of the calculator may get. -/
def Given (tok : Option Token) : Prop := ∀ t, tok = some t → Lexed t ∨ t.type = eoiTokenType

/-- A token of each kind. -/
def kindToken (type : Int) (content : List Nat) : Option Token := some { type := type, typeName := "", content := content, pos := ⟨none, 0⟩ }

/-- Kinds of tokens. -/
def kinds : List (Option Token) :=
  [none, kindToken 1 [48], kindToken 2 [97], kindToken 3 [40], kindToken 3 [41], kindToken 3 [44], kindToken 3 [61], kindToken 3 [42],
    kindToken 3 [47], kindToken 3 [94], kindToken 3 [43], kindToken 3 [45], kindToken 4 [45], kindToken (-3) []]

theorem literal_none {l : List Nat} (h : ∀ c : Nat, c ∈ [40, 41, 44, 61, 42, 47, 94, 43, 45] → l ≠ [c]) : grammar.literal l = none := by
  have h1 : ∀ c : Nat, c ∈ [40, 41, 44, 61, 42, 47, 94, 43, 45] → ([c] == l) = false := by
    intro c hc
    simpa using fun e : [c] = l => h c hc e.symm
  have h2 : ∀ i, i < 14 → ((grammar.tokens[i]?).any fun t => t.flags.literal && t.name == l) = false := by
    intro i hi
    have hi' : i < tokens.length := hi
    rw [show grammar.tokens = tokens from rfl, List.getElem?_eq_getElem hi', Option.any_some]
    have : ∀ t ∈ tokens, t.flags.literal = false ∨ ∃ c : Nat, c ∈ [40, 41, 44, 61, 42, 47, 94, 43, 45] ∧ t.name = [c] := by decide
    rcases this _ (List.getElem_mem hi') with e | ⟨c, hc, e⟩
    · rw [e]; rfl
    · rw [e, h1 c hc]; simp
  rw [Grammar.literal, List.filter_eq_nil_iff.mpr]
  · rfl
  · intro i hi
    rw [h2 i (List.mem_range.mp hi)]
    simp

theorem findRules_keys {upper : List Nat → List Nat} {t t' : Token} (hs : grammar.isSideType t.type = false) (hs' : grammar.isSideType t'.type = false)
    (hk : possibleRuleKeys grammar upper (some t) = possibleRuleKeys grammar id (some t')) (s : Int) :
    findRules grammar upper (some t) s = findRules grammar id (some t') s := by
  simp only [findRules, hs, hs', Bool.false_eq_true, if_false, hk]

theorem keys_plain {upper : List Nat → List Nat} {t : Token} {n : Nat} (hn : n = 1 ∨ n = 2) (ht : t.type = n) (hl : grammar.literal t.content = none) :
    possibleRuleKeys grammar upper (some t) = some [(n : Int), -1] := by
  rcases hn with rfl | rfl <;>
    simp [possibleRuleKeys, ht, show grammar.tokens = tokens from rfl, tokens, hl, anyToken]

theorem keys_same {upper : List Nat → List Nat} {t t' : Token} (h1 : t.type = 3 ∨ t.type = 4) (h2 : t.type = t'.type) (h3 : t.content = t'.content) :
    possibleRuleKeys grammar upper (some t) = possibleRuleKeys grammar id (some t') := by
  rcases h1 with e | e <;> (rw [e] at h2; simp [possibleRuleKeys, e, ← h2, h3, show grammar.tokens = tokens from rfl, tokens])

/-- Rules depend only on the kind of a token. -/
theorem given_kind {upper : List Nat → List Nat} {tok : Option Token} (h : Given tok) :
    ∃ k ∈ kinds, k.isNone = tok.isNone ∧ ∀ s, findRules grammar upper tok s = findRules grammar id k s := by
  cases tok with
  | none => exact ⟨none, by simp [kinds], rfl, fun s => rfl⟩
  | some t =>
    have hdig : ∀ c : Nat, c ∈ [40, 41, 44, 61, 42, 47, 94, 43, 45] → ¬ (48 ≤ c ∧ c ≤ 57) ∧ ¬ (65 ≤ c ∧ c ≤ 90 ∨ 97 ≤ c ∧ c ≤ 122) := by decide
    rcases h t rfl with h | h
    · have hns := lexed_notSide h
      rcases h with ⟨h1, -, d, hd, hd2⟩ | ⟨h1, -, d, ds, hd, hd2⟩ | ⟨h1, -, c, hc, h2⟩ | ⟨h1, -, h2⟩
      · refine ⟨kindToken 1 [48], by simp [kinds], rfl, findRules_keys hns (by decide) ?_⟩
        rw [keys_plain (.inl rfl) h1 (literal_none fun c hc e => by
          rw [e, List.mem_singleton] at hd
          subst hd
          exact (hdig _ hc).1 hd2)]
        decide
      · refine ⟨kindToken 2 [97], by simp [kinds], rfl, findRules_keys hns (by decide) ?_⟩
        rw [keys_plain (.inr rfl) h1 (literal_none fun c hc e => by
          rw [hd, List.cons.injEq] at e
          obtain ⟨rfl, -⟩ := e
          exact (hdig _ hc).2 hd2)]
        decide
      · refine ⟨kindToken 3 [c.toNat], ?_, rfl, findRules_keys hns (show grammar.isSideType 3 = false by decide) (keys_same (.inl h1) h1 h2)⟩
        have : ∀ c ∈ "(),=*/^+-".toList, kindToken 3 [c.toNat] ∈ kinds := by decide
        exact this c hc
      · exact ⟨kindToken 4 [45], by simp [kinds], rfl, findRules_keys hns (by decide) (keys_same (.inr h1) h1 h2)⟩
    · refine ⟨kindToken (-3) [], by simp [kinds], rfl, findRules_keys (by rw [h]; decide) (by decide) ?_⟩
      simp [possibleRuleKeys, h, eoiTokenType]

/-- Classes of branches; `one s` is a branch in state `s`. -/
inductive Cls
  | ret
  | op
  | one (s : Int)
deriving DecidableEq

/-- States after an operand. -/
def retStates : List Int := [3, 17, 20, 24, 28, 29, -1]

/-- States before an operand. -/
def opStates : List Int := [1, 2, 4, 7, 13, 16, 18, 19, 21, 22, 23, 27, 30]

/-- Stacks of branches. -/
def In : Cls → List Int → Prop
  | .ret, st => ∀ x ∈ st, x ∈ retStates
  | .op, st => ∃ s rest, st = s :: rest ∧ s ∈ opStates ∧ ∀ x ∈ rest, x ∈ retStates
  | .one s, st => ∃ rest, st = s :: rest ∧ ∀ x ∈ rest, x ∈ retStates

/-- Numbers of literals which tokens are used as. -/
def keyOf : Option Token → Int
  | none => 0
  | some t => if t.type = 3 ∨ t.type = 4 then (grammar.literal t.content).getD 0 else t.type

/-- Possible results of a branch. -/
def results (k : Int) : Cls → List (List Cls)
  | .ret => if k = 7 ∨ k = 0 then [[], [.ret]] else if k ∈ [6, 9, 10, 11, 12, 13] then [[], [.op]] else [[]]
  | .op => if k = 2 then [[], [.ret, .one 26]] else if k = 1 ∨ k = 7 then [[], [.ret]] else if k = 5 ∨ k = 9 then [[], [.op]] else [[]]
  | .one s =>
    if s = 26 then (if k = 5 then [[.op]] else [[]])
    else if s = 10 then (if k = 2 then [[.one 14]] else if k = 7 then [[.one 12]] else [[]])
    else if s = 14 then (if k = 6 then [[.one 15]] else if k = 7 then [[.one 12]] else if k = 0 then [[.one 11]] else [[]])
    else if s = 15 then (if k = 2 then [[.one 14]] else [[]])
    else if s = 11 then (if k = 7 then [[.one 12]] else [[]])
    else if s = 12 ∨ s = 6 then (if k = 8 then [[.op]] else [[]])
    else if s = 9 then (if k = 5 then [[.one 10]] else [[]])
    else []

/-- A check of rules in a state after an operand. -/
def retCheck (k : Option Token) (s : Int) : Bool :=
  match findRules grammar id k s with
  | none => true
  | some [] => true
  | some [r] => r.node = -1 ∧ ((r.token = -1 ∧ after r s ∈ retStates) ∨
      (r.token ≠ -1 ∧ (after r s ∈ retStates ∧ keyOf k = 7 ∨ after r s ∈ opStates ∧ keyOf k ∈ [6, 9, 10, 11, 12, 13])))
  | some _ => false

/-- Rules in states after an operand. -/
theorem ret_table : ∀ k ∈ kinds, ∀ s ∈ retStates, retCheck k s = true := by
  decide +kernel

/-- A check of rules in a state before an operand. -/
def opCheck (k : Option Token) (s : Int) : Bool :=
  match findRules grammar id k s with
  | none => true
  | some [] => true
  | some [r] => k.isSome ∧ ((r.node = -1 ∧ r.token ≠ -1 ∧
        (after r s ∈ retStates ∧ (keyOf k = 1 ∨ keyOf k = 7) ∨ after r s ∈ opStates ∧ (keyOf k = 5 ∨ keyOf k = 9))) ∨
      (r.node ≠ -1 ∧ ((grammar.firsts[r.node.toNat]?).getD 0 : Int) ∈ opStates ∧ after r s ∈ retStates))
  | some [r1, r2] => k.isSome ∧ keyOf k = 2 ∧ r1 = ⟨2, -1, -1⟩ ∧ r2 = ⟨2, -1, 7⟩ ∧ findRules grammar id k 25 = some [⟨2, 26, -1⟩]
  | some _ => false

/-- Rules in states before an operand. -/
theorem op_table : ∀ k ∈ kinds, ∀ s ∈ opStates, opCheck k s = true := by
  decide +kernel

theorem drop_op {s : Int} {rest : List Int} (hs : s ∈ opStates) : (s :: rest).dropWhile (· = -1) = s :: rest := by
  rw [List.dropWhile_cons, if_neg]
  rintro h
  have h : s = -1 := by simpa using h
  subst h
  revert hs
  decide

theorem in_ret_cons {s : Int} {rest : List Int} (hs : s ∈ retStates) (hr : ∀ x ∈ rest, x ∈ retStates) :
    In .ret ((s :: rest).dropWhile (· = -1)) := by
  intro x hx
  rcases List.mem_cons.mp ((List.dropWhile_sublist _).subset hx) with rfl | hx
  · exact hs
  · exact hr x hx

/-- Results of tracing belong to listed classes. -/
def Gives (k : Int) (c : Cls) (N : List (List Int)) : Prop := ∃ cs ∈ results k c, List.Forall₂ In cs N

theorem gives_nil {k : Int} {c : Cls} (h : [] ∈ results k c) : Gives k c [] := ⟨[], h, .nil⟩

theorem results_nil (k : Int) : [] ∈ results k .ret ∧ [] ∈ results k .op := by
  constructor <;> (rw [results]; split_ifs <;> simp)

theorem keyOf_none {k : Option Token} (h : k.isNone = true) : keyOf k = 0 := by
  cases k with
  | none => rfl
  | some _ => cases h

theorem trace_ret {k : Option Token} (hk : k ∈ kinds) (n : Nat) {st : List Int} (hst : In .ret st) {N : List (List Int)}
    (h : traceStates (findRules grammar id k) grammar.firsts k.isNone n [st] [] = some N) : Gives (keyOf k) .ret N := by
  induction n generalizing st with
  | zero => cases h
  | succ n ih =>
    match st, hst with
    | [], _ =>
      rw [traceStates] at h
      cases n with
      | zero => cases h
      | succ n => cases h; exact gives_nil (results_nil _).1
    | s :: rest, hst =>
      have hrest : ∀ x ∈ rest, x ∈ retStates := fun x hx => hst x (by simp [hx])
      have hc := ret_table k hk s (hst s (by simp))
      rw [traceStates] at h
      cases hR : findRules grammar id k s with
      | none => rw [hR] at h; cases h
      | some rules =>
        rw [retCheck, hR] at hc
        rw [hR] at h
        simp only [Option.bind_some] at h
        match rules, hc, h with
        | [], _, h =>
          simp only [List.map_nil, List.filter_nil, List.append_nil] at h
          cases n with
          | zero => cases h
          | succ n => cases h; exact gives_nil (results_nil _).1
        | [r], hc, h =>
          simp only [decide_eq_true_eq] at hc
          obtain ⟨hn, hc⟩ := hc
          have hmv : moveStates grammar.firsts r s rest = (after r s :: rest).dropWhile (· = -1) := by
            rw [moveStates, if_pos hn]; rfl
          simp only [List.map_cons, List.map_nil, hmv] at h
          have used : ∀ {c}, In c ((after r s :: rest).dropWhile (· = -1)) → [c] ∈ results (keyOf k) .ret →
              (decide (r.node = -1 ∧ r.token ≠ -1) || k.isNone) = true → Gives (keyOf k) .ret N := by
            intro c hin hcs hu
            rw [hu] at h
            simp only [List.filter_cons, Bool.not_true, Bool.false_and, Bool.false_eq_true, if_false, List.filter_nil, List.map_nil,
              List.append_nil, List.nil_append, if_true, List.map_cons] at h
            cases n with
            | zero => cases h
            | succ n => cases h; exact ⟨[c], hcs, .cons hin .nil⟩
          rcases hc with ⟨h1, h2⟩ | ⟨h1, ⟨h2, h3⟩ | ⟨h2, h3⟩⟩
          · cases hnil : k.isNone with
            | true =>
              exact used (in_ret_cons h2 hrest) (by rw [keyOf_none hnil]; simp [results]) (by rw [hnil]; simp)
            | false =>
              rw [hnil] at h ih
              simp only [h1, ne_eq, not_true_eq_false, and_false, decide_false, Bool.or_false, List.filter_cons, Bool.not_false, Bool.true_and,
                List.filter_nil, Bool.false_eq_true, if_false, List.map_nil, List.append_nil, List.nil_append] at h
              by_cases he : (List.dropWhile (· = -1) (after r s :: rest)).isEmpty = true
              · rw [he] at h
                simp only [Bool.not_true, Bool.false_eq_true, if_false, List.map_nil] at h
                cases n with
                | zero => cases h
                | succ n => cases h; exact gives_nil (results_nil _).1
              · rw [Bool.not_eq_true] at he
                rw [he] at h
                simp only [Bool.not_false, if_true, List.map_cons, List.map_nil] at h
                exact ih (in_ret_cons h2 hrest) h
          · exact used (in_ret_cons h2 hrest) (by rw [h3]; simp [results]) (by simp [hn, h1])
          · refine used (c := .op) ?_ ?_ (by simp [hn, h1])
            · rw [drop_op h2]; exact ⟨_, _, rfl, h2, hrest⟩
            · simp only [List.mem_cons, List.not_mem_nil, or_false] at h3
              rcases h3 with h3 | h3 | h3 | h3 | h3 | h3 <;> rw [h3] <;> decide

theorem trace_op {k : Option Token} (hk : k ∈ kinds) (n : Nat) {st : List Int} (hst : In .op st) {N : List (List Int)}
    (h : traceStates (findRules grammar id k) grammar.firsts k.isNone n [st] [] = some N) : Gives (keyOf k) .op N := by
  induction n generalizing st with
  | zero => cases h
  | succ n ih =>
    obtain ⟨s, rest, rfl, hs, hrest⟩ := hst
    have hc := op_table k hk s hs
    rw [traceStates] at h
    cases hR : findRules grammar id k s with
    | none => rw [hR] at h; cases h
    | some rules =>
      rw [opCheck, hR] at hc
      rw [hR] at h
      simp only [Option.bind_some] at h
      match rules, hc, h with
      | [], _, h =>
        simp only [List.map_nil, List.filter_nil, List.append_nil] at h
        cases n with
        | zero => cases h
        | succ n => cases h; exact gives_nil (results_nil _).2
      | [r], hc, h =>
        simp only [decide_eq_true_eq] at hc
        obtain ⟨hk1, hc⟩ := hc
        have hnil : k.isNone = false := by cases k with | none => cases hk1 | some _ => rfl
        rw [hnil] at h ih
        rcases hc with ⟨hn, h1, hc⟩ | ⟨hn, h1, h2⟩
        · have hmv : moveStates grammar.firsts r s rest = (after r s :: rest).dropWhile (· = -1) := by
            rw [moveStates, if_pos hn]; rfl
          simp only [List.map_cons, List.map_nil, hmv, hn, h1, ne_eq, not_false_eq_true, and_self, decide_true, Bool.true_or,
            List.filter_cons, Bool.not_true, Bool.false_and, Bool.false_eq_true, if_false, List.filter_nil,
            List.append_nil, List.nil_append, if_true] at h
          cases n with
          | zero => cases h
          | succ n =>
            cases h
            rcases hc with ⟨h2, h3⟩ | ⟨h2, h3⟩
            · refine ⟨[.ret], ?_, .cons (in_ret_cons h2 hrest) .nil⟩
              rcases h3 with h3 | h3 <;> rw [h3] <;> decide
            · refine ⟨[.op], ?_, .cons (by rw [drop_op h2]; exact ⟨_, _, rfl, h2, hrest⟩) .nil⟩
              rcases h3 with h3 | h3 <;> rw [h3] <;> decide
        · have hmv : moveStates grammar.firsts r s rest = ((grammar.firsts[r.node.toNat]?).getD 0 : Int) :: after r s :: rest := by
            rw [moveStates, if_neg hn]
            exact drop_op h1
          simp only [List.map_cons, List.map_nil, hmv, hn, false_and, decide_false, Bool.or_false, List.filter_cons, Bool.not_false,
            Bool.true_and, List.isEmpty_cons, if_true, List.filter_nil, Bool.false_eq_true, if_false, List.append_nil, List.nil_append] at h
          refine ih ⟨_, _, rfl, h1, ?_⟩ h
          intro x hx
          rcases List.mem_cons.mp hx with rfl | hx
          · exact h2
          · exact hrest x hx
      | [r1, r2], hc, h =>
        simp only [decide_eq_true_eq] at hc
        obtain ⟨hk1, h1, rfl, rfl, h2⟩ := hc
        have hnil : k.isNone = false := by cases k with | none => cases hk1 | some _ => rfl
        have hf : ((grammar.firsts[(7 : Int).toNat]?).getD 0 : Int) = 25 := by decide
        rw [hnil] at h
        have m1 : moveStates grammar.firsts ⟨2, -1, -1⟩ s rest = ((-1 : Int) :: rest).dropWhile (· = -1) := rfl
        have m2 : moveStates grammar.firsts ⟨2, -1, 7⟩ s rest = 25 :: -1 :: rest := rfl
        simp only [List.map_cons, List.map_nil, m1, m2] at h
        simp [List.filter_cons] at h
        match n, h with
        | n + 1, h =>
          rw [traceStates, h2] at h
          have m3 : moveStates grammar.firsts ⟨2, 26, -1⟩ 25 (-1 :: rest) = 26 :: -1 :: rest := rfl
          simp only [Option.bind_some, List.map_cons, List.map_nil, m3] at h
          simp [List.filter_cons] at h
          match n, h with
          | n + 1, h =>
            cases h
            refine ⟨[.ret, .one 26], by rw [h1]; decide, .cons ?_ (.cons ⟨-1 :: rest, rfl, ?_⟩ .nil)⟩
            · exact in_ret_cons (s := -1) (by decide) hrest
            · intro x hx
              rcases List.mem_cons.mp hx with rfl | hx
              · decide
              · exact hrest x hx

/-- A check of rules in other states. -/
def oneCheck (k : Option Token) (c : Cls) : Nat → Int → Bool
  | 0, _ => false
  | n + 1, s =>
    match findRules grammar id k s with
    | none => true
    | some [] => [] ∈ results (keyOf k) c
    | some [r] => decide (r.node = -1 ∧ after r s ≠ -1) &&
        (if r.token ≠ -1 ∨ k.isNone then
          decide ((after r s ∈ opStates ∧ [Cls.op] ∈ results (keyOf k) c) ∨ [Cls.one (after r s)] ∈ results (keyOf k) c)
        else oneCheck k c n (after r s))
    | some _ => false

theorem one_table : ∀ k ∈ kinds, ∀ s ∈ [26, 10, 14, 15, 11, 12, 6, 9], oneCheck k (.one s) 2 s = true := by
  decide +kernel

theorem trace_one {k : Option Token} {c : Cls} (m n : Nat) {s : Int} {rest : List Int} (hc : oneCheck k c m s = true)
    (hrest : ∀ x ∈ rest, x ∈ retStates) {N : List (List Int)}
    (h : traceStates (findRules grammar id k) grammar.firsts k.isNone n [s :: rest] [] = some N) : Gives (keyOf k) c N := by
  induction m generalizing n s with
  | zero => cases hc
  | succ m ih =>
    cases n with
    | zero => cases h
    | succ n =>
      rw [traceStates] at h
      rw [oneCheck] at hc
      cases hR : findRules grammar id k s with
      | none => rw [hR] at h; cases h
      | some rules =>
        rw [hR] at hc h
        simp only [Option.bind_some] at h
        match rules, hc, h with
        | [], hc, h =>
          simp only [List.map_nil, List.filter_nil, List.append_nil] at h
          cases n with
          | zero => cases h
          | succ n => cases h; exact gives_nil (by simpa using hc)
        | [r], hc, h =>
          simp only [Bool.and_eq_true, decide_eq_true_eq] at hc
          obtain ⟨⟨hn, ha⟩, hc⟩ := hc
          have hmv : moveStates grammar.firsts r s rest = after r s :: rest := by
            rw [moveStates, if_pos hn]
            rw [List.singleton_append, List.dropWhile_cons, if_neg (by simpa using ha)]
          simp only [List.map_cons, List.map_nil, hmv] at h
          split at hc
          · rename_i hu
            have hu : (decide (r.node = -1 ∧ r.token ≠ -1) || k.isNone) = true := by
              rcases hu with hu | hu
              · simp [hn, hu]
              · rw [hu]; simp
            rw [hu] at h
            simp only [List.filter_cons, Bool.not_true, Bool.false_and, Bool.false_eq_true, if_false, List.filter_nil, List.map_nil,
              List.append_nil, List.nil_append, if_true, List.map_cons] at h
            cases n with
            | zero => cases h
            | succ n =>
              cases h
              rcases of_decide_eq_true hc with ⟨h1, h2⟩ | h2
              · exact ⟨_, h2, .cons ⟨_, _, rfl, h1, hrest⟩ .nil⟩
              · exact ⟨_, h2, .cons ⟨_, rfl, hrest⟩ .nil⟩
          · rename_i hu
            rw [not_or, not_not] at hu
            have hk : k.isNone = false := Bool.eq_false_iff.mpr hu.2
            simp only [hu.1, hk, ne_eq, not_true_eq_false, and_false, decide_false, Bool.or_false, List.filter_cons, Bool.not_false, Bool.true_and,
              List.filter_nil, Bool.false_eq_true, if_false, List.map_nil, List.append_nil, List.nil_append, List.isEmpty_cons, if_true,
              List.map_cons] at h
            exact ih n hc (by rw [hk]; exact h)

/-- Classes which are met. -/
def Met (c : Cls) : Bool :=
  match c with
  | .one s => s ∈ [26, 10, 14, 15, 11, 12, 6, 9]
  | _ => true

theorem trace_class {k : Option Token} (hk : k ∈ kinds) {c : Cls} (hc : Met c = true) {st : List Int} (hst : In c st) (n : Nat) {N : List (List Int)}
    (h : traceStates (findRules grammar id k) grammar.firsts k.isNone n [st] [] = some N) : Gives (keyOf k) c N := by
  cases c with
  | ret => exact trace_ret hk n hst h
  | op => exact trace_op hk n hst h
  | one s =>
    obtain ⟨rest, rfl, hrest⟩ := hst
    exact trace_one 2 n (one_table k hk s (of_decide_eq_true hc)) hrest h

/-- Shapes of lists of branches. -/
def shapes : List (List Cls) :=
  let ends := [[], [.op], [.ret], [.one 26], [.ret, .one 26]]
  ends ++ ends.map (.one 10 :: ·) ++ ends.map (.one 14 :: ·) ++ ends.map (.one 15 :: ·) ++
    ([[], [.ret], [.one 26], [.ret, .one 26]].map (.one 12 :: ·)) ++ ([[], [.ret], [.one 26], [.ret, .one 26]].map (.one 11 :: ·)) ++
    [[.one 6, .one 9, .ret, .one 26]]

/-- All combinations of results. -/
def combine (k : Int) : List Cls → List (List Cls)
  | [] => [[]]
  | c :: cs => (results k c).flatMap fun x => (combine k cs).map (x ++ ·)

theorem shapes_closed : ∀ sh ∈ shapes, (∀ c ∈ sh, Met c = true) ∧ (∀ c ∈ sh.dropLast, c ≠ .op) ∧
    ∀ k ∈ kinds, ∀ x ∈ combine (keyOf k) sh, x ∈ shapes := by
  decide +kernel

theorem short_results : ∀ k ∈ kinds, ∀ sh ∈ shapes, ∀ c ∈ sh, c ≠ .op → ∀ x ∈ results (keyOf k) c, x.length ≤ 1 := by
  decide +kernel

theorem combine_gives {k : Int} {sh : List Cls} {Ns : List (List (List Int))} (h : List.Forall₂ (Gives k) sh Ns) :
    ∃ x ∈ combine k sh, List.Forall₂ In x Ns.flatten := by
  induction h with
  | nil => exact ⟨[], by simp [combine], .nil⟩
  | @cons c N sh Ns h1 _ ih =>
    obtain ⟨cs, h2, h3⟩ := h1
    obtain ⟨x, h4, h5⟩ := ih
    refine ⟨cs ++ x, ?_, ?_⟩
    · rw [combine, List.mem_flatMap]
      exact ⟨cs, h2, List.mem_map.mpr ⟨x, h4, rfl⟩⟩
    · rw [List.flatten_cons]
      exact List.rel_append h3 h5

/-- A check of the first step of lookaheads. -/
def startCheck (k : Option Token) (s : Int) : Bool :=
  match findRules grammar id k s with
  | none => true
  | some rules => decide (rules.length ≤ 1) ||
    (match traceStates (findRules grammar id k) grammar.firsts k.isNone 20 [[s]] [] with
    | some [a, b, c, d] => a.head? = some 6 ∧ b.head? = some 9 ∧ d.head? = some 26 ∧
        ∀ x ∈ a.tail ++ b.tail ++ c ++ d.tail, x ∈ retStates
    | some [c, d] => d.head? = some 26 ∧ ∀ x ∈ c ++ d.tail, x ∈ retStates
    | _ => false)

theorem start_table : ∀ k ∈ kinds, ∀ s ∈ (List.range 31).map Int.ofNat, startCheck k s = true := by
  decide +kernel

theorem head_tail {l : List Int} {x : Int} (h : l.head? = some x) : l = x :: l.tail := by
  cases l with
  | nil => cases h
  | cons a l => simp only [List.head?_cons, Option.some.injEq] at h; rw [h]; rfl

theorem start_shape {k : Option Token} (hk : k ∈ kinds) {s : Int} {rules : List Rule} (hr : findRules grammar id k s = some rules)
    (hl : 1 < rules.length) {n : Nat} {N : List (List Int)}
    (h : traceStates (findRules grammar id k) grammar.firsts k.isNone n [[s]] [] = some N) : ∃ sh ∈ shapes, List.Forall₂ In sh N := by
  have hs : s ∈ (List.range 31).map Int.ofNat := by
    rw [findRules, Option.bind_eq_some_iff] at hr
    obtain ⟨gs, hgs, -⟩ := hr
    unfold Go.index at hgs
    split at hgs
    · have := (List.getElem?_eq_some_iff.mp hgs).1
      have h31 : grammar.tables.states.length = 31 := by decide
      exact List.mem_map.mpr ⟨s.toNat, List.mem_range.mpr (by omega), by simp; omega⟩
    · cases hgs
  have hc := start_table k hk s hs
  rw [startCheck, hr] at hc
  simp only [Bool.or_eq_true, decide_eq_true_eq] at hc
  rcases hc with hc | hc
  · omega
  · split at hc
    · rename_i a b c d ht
      have := traceStates_det h ht
      subst this
      obtain ⟨h1, h2, h3, h4⟩ := of_decide_eq_true hc
      rw [head_tail h1, head_tail h2, head_tail h3]
      exact ⟨[.one 6, .one 9, .ret, .one 26], by decide, .cons ⟨_, rfl, fun x hx => h4 x (by simp [hx])⟩
        (.cons ⟨_, rfl, fun x hx => h4 x (by simp [hx])⟩ (.cons (fun x hx => h4 x (by simp [hx]))
          (.cons ⟨_, rfl, fun x hx => h4 x (by simp [hx])⟩ .nil)))⟩
    · rename_i c d ht
      have := traceStates_det h ht
      subst this
      obtain ⟨h3, h4⟩ := of_decide_eq_true hc
      rw [head_tail h3]
      exact ⟨[.ret, .one 26], by decide, .cons (fun x hx => h4 x (by simp [hx]))
          (.cons ⟨_, rfl, fun x hx => h4 x (by simp [hx])⟩ .nil)⟩
    · cases hc

/-- No branch is overwritten during lookaheads in the grammar of the calculator, if tokens are captured by regular expressions of the
grammar. -/
theorem calc_safe (upper : List Nat → List Nat) : SafeLookaheadOn Given grammar upper := by
  have tr : ∀ {tok : Option Token}, Given tok → ∃ k ∈ kinds, (∀ s, findRules grammar upper tok s = findRules grammar id k s) ∧
      ∀ {st N}, TracedTo grammar upper tok st N →
        ∃ n, traceStates (findRules grammar id k) grammar.firsts k.isNone n [st] [] = some N := by
    intro tok h
    obtain ⟨k, h1, h2, h3⟩ := given_kind (upper := upper) h
    refine ⟨k, h1, h3, ?_⟩
    rintro st N ⟨n, hn⟩
    rw [show findRules grammar upper tok = findRules grammar id k from funext h3, ← h2] at hn
    exact ⟨n, hn⟩
  refine safe_of_shapes (In := In) (S := fun sh => sh ∈ shapes) ?_ ?_ ?_
  · intro s tok0 rules hg hr hl N hN
    obtain ⟨k, hk, h1, h2⟩ := tr hg
    obtain ⟨n, hn⟩ := h2 hN
    rw [h1] at hr
    exact start_shape hk hr hl hn
  · intro tok hg a c b hsh hb st N hin hN
    obtain ⟨k, hk, h1, h2⟩ := tr hg
    obtain ⟨n, hn⟩ := h2 hN
    obtain ⟨e1, e2, -⟩ := shapes_closed _ hsh
    obtain ⟨cs, e3, e4⟩ := trace_class hk (e1 c (by simp)) hin n hn
    rw [← e4.length_eq]
    refine short_results k hk _ hsh c (by simp) (e2 c ?_) cs e3
    rw [List.dropLast_append_of_ne_nil (by simp), List.dropLast_cons_of_ne_nil hb]
    simp
  · intro tok hg sh hsh L Ns hL hNs
    obtain ⟨k, hk, h1, h2⟩ := tr hg
    obtain ⟨e1, -, e3⟩ := shapes_closed _ hsh
    have : ∀ {sh : List Cls} {L Ns}, (∀ c ∈ sh, Met c = true) → List.Forall₂ In sh L → List.Forall₂ (TracedTo grammar upper tok) L Ns →
        List.Forall₂ (Gives (keyOf k)) sh Ns := by
      intro sh L Ns hm hL
      induction hL generalizing Ns with
      | nil => intro h; cases h; exact .nil
      | @cons c st sh L h3 _ ih =>
        intro h
        cases h with
        | cons h4 h5 =>
          obtain ⟨n, hn⟩ := h2 h4
          exact .cons (trace_class hk (hm c (by simp)) h3 n hn) (ih (fun c hc => hm c (by simp [hc])) h5)
    obtain ⟨x, e4, e5⟩ := combine_gives (this e1 hL hNs)
    exact ⟨x, e3 k hk x e4, e5⟩

end Verif.Proof.Calc
