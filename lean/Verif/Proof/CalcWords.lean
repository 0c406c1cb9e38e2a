/-
Contents of nodes of the calculator grammar.
-/
import Verif.Proof.CalcCompute
import Verif.Model.Calc.Grammar
import Verif.Proof.Sound

namespace Verif.Proof.Calc

open Verif.Model Verif.Model.Calc Verif.Spec Verif.Spec.Calc Verif.Spec.Ebnf

/-- Words of the definition of a node. -/
def Word (i : Nat) (w : List Sym) : Prop := ∃ c, bodies[i]? = some c ∧ w ∈ lang c

theorem mem_opt {l : Language Sym} {w : List Sym} : w ∈ 1 + l ↔ w = [] ∨ w ∈ l := by
  rw [Language.mem_add, Language.mem_one]

theorem mem_single {a w : List Sym} : w ∈ ({a} : Language Sym) ↔ w = a := Iff.rfl

theorem mem_pair {x y : Sym} {w : List Sym} : w ∈ ({[x]} * ({[y]} * 1) : Language Sym) ↔ w = [x, y] := by
  simp only [Language.mem_mul, mem_single, Language.mem_one]
  constructor
  · rintro ⟨a, rfl, b, ⟨c, rfl, d, rfl, rfl⟩, rfl⟩; rfl
  · rintro rfl; exact ⟨[x], rfl, [y], ⟨[y], rfl, [], rfl, rfl⟩, rfl⟩

theorem word_root {w : List Sym} (h : Word 0 w) : w = [.node 1] ∨ w = [.node 2] ∨ w = [.node 3] := by
  obtain ⟨c, hc, hw⟩ := h
  cases hc
  simp only [lang, langSeq, langAny, Bool.false_eq_true, if_false, Language.mem_mul, Language.mem_add, mem_single, Language.mem_one] at hw
  obtain ⟨a, ha, b, rfl, rfl⟩ := hw
  rw [List.append_nil]
  rcases ha with h | h | h | h
  · exact .inl h
  · exact .inr (.inl h)
  · exact .inr (.inr h)
  · exact absurd h (Language.notMem_zero _)

theorem word_expr {w : List Sym} (h : Word 1 w) : ∃ (pre : List Sym) (L : List (List Sym)), (pre = [] ∨ pre = [Sym.tok 9]) ∧
    (∀ y ∈ L, y = [Sym.tok 10, .node 4] ∨ y = [Sym.tok 9, .node 4]) ∧ w = pre ++ .node 4 :: L.flatten := by
  obtain ⟨c, hc, hw⟩ := h
  cases hc
  simp only [lang, langSeq, langAny, minus, plus, Bool.false_eq_true, if_false, if_true, Language.mem_mul, mem_opt, Language.mem_kstar, mem_single, Language.mem_one,
    Language.mem_add] at hw
  obtain ⟨a, ha, b, ⟨c, rfl, d, ⟨e, ⟨L, rfl, hL⟩, f, rfl, rfl⟩, rfl⟩, rfl⟩ := hw
  refine ⟨a, L, ?_, ?_, ?_⟩
  · rcases ha with rfl | ⟨x, rfl, y, rfl, rfl⟩
    · exact .inl rfl
    · exact .inr rfl
  · intro y hy
    obtain ⟨p, hp, q, ⟨r, rfl, s, rfl, rfl⟩, rfl⟩ := hL y hy
    rcases hp with rfl | rfl | h
    · exact .inl rfl
    · exact .inr rfl
    · exact absurd h (Language.notMem_zero _)
  · simp

theorem word_pro {w : List Sym} (h : Word 4 w) : ∃ L : List (List Sym),
    (∀ y ∈ L, y = [Sym.tok 11, .node 5] ∨ y = [Sym.tok 12, .node 5]) ∧ w = .node 5 :: L.flatten := by
  obtain ⟨c, hc, hw⟩ := h
  cases hc
  simp only [lang, langSeq, langAny, times, divide, Bool.false_eq_true, if_false, if_true, Language.mem_mul, Language.mem_kstar, mem_single, Language.mem_one,
    Language.mem_add] at hw
  obtain ⟨a, rfl, b, ⟨c, ⟨L, rfl, hL⟩, d, rfl, rfl⟩, rfl⟩ := hw
  refine ⟨L, ?_, by simp⟩
  intro y hy
  obtain ⟨p, hp, q, ⟨r, rfl, s, rfl, rfl⟩, rfl⟩ := hL y hy
  rcases hp with rfl | rfl | h
  · exact .inl rfl
  · exact .inr rfl
  · exact absurd h (Language.notMem_zero _)

theorem word_pow {w : List Sym} (h : Word 5 w) : w = [.node 6] ∨ w = [.node 6, .tok 13, .node 5] := by
  obtain ⟨c, hc, hw⟩ := h
  cases hc
  simp only [lang, langSeq, langAny, caret, Bool.false_eq_true, if_false, if_true, Language.mem_mul, mem_opt, mem_single, Language.mem_one] at hw
  obtain ⟨a, rfl, b, ⟨c, hc, d, rfl, rfl⟩, rfl⟩ := hw
  rcases hc with rfl | ⟨x, rfl, y, ⟨z, rfl, u, rfl, rfl⟩, rfl⟩
  · exact .inl rfl
  · exact .inr rfl

theorem word_value {w : List Sym} (h : Word 6 w) : w = [.tok 1] ∨ w = [.tok 2] ∨ w = [.node 7] ∨ w = [.tok 5, .node 1, .tok 7] := by
  obtain ⟨c, hc, hw⟩ := h
  cases hc
  simp only [lang, langSeq, langAny, numberTok, nameTok, lParen, rParen, Bool.false_eq_true, if_false, Language.mem_mul, Language.mem_add, mem_single, Language.mem_one] at hw
  obtain ⟨a, ha, b, rfl, rfl⟩ := hw
  rw [List.append_nil]
  rcases ha with h | h | h | h | h
  · exact .inl h
  · exact .inr (.inl h)
  · exact .inr (.inr (.inl h))
  · obtain ⟨x, rfl, y, ⟨z, rfl, u, ⟨v, rfl, w, rfl, rfl⟩, rfl⟩, rfl⟩ := h
    exact .inr (.inr (.inr rfl))
  · exact absurd h (Language.notMem_zero _)

theorem word_call {w : List Sym} (h : Word 7 w) : w = [.tok 2, .tok 5, .tok 7] ∨ ∃ L : List (List Sym), (∀ y ∈ L, y = [Sym.tok 6, .node 1]) ∧
    w = .tok 2 :: .tok 5 :: .node 1 :: L.flatten ++ [.tok 7] := by
  obtain ⟨c, hc, hw⟩ := h
  cases hc
  simp only [lang, langSeq, langAny, nameTok, comma, lParen, rParen, Bool.false_eq_true, if_false, if_true, Language.mem_mul, mem_opt, Language.mem_kstar, mem_single,
    Language.mem_one] at hw
  obtain ⟨a, rfl, b, ⟨c, rfl, d, ⟨e, he, f, ⟨g, rfl, x, rfl, rfl⟩, rfl⟩, rfl⟩, rfl⟩ := hw
  rcases he with rfl | ⟨y, rfl, z, ⟨u, ⟨L, rfl, hL⟩, v, rfl, rfl⟩, rfl⟩
  · exact .inl rfl
  · refine .inr ⟨L, fun y hy => ?_, by simp⟩
    obtain ⟨p, rfl, q, ⟨r, rfl, s, rfl, rfl⟩, rfl⟩ := hL y hy
    rfl

theorem word_assign {w : List Sym} (h : Word 2 w) : w = [.tok 2, .tok 8, .node 1] := by
  obtain ⟨c, hc, hw⟩ := h
  cases hc
  simp only [lang, langSeq, langAny, nameTok, equals, Bool.false_eq_true, if_false, Language.mem_mul, mem_single, Language.mem_one] at hw
  obtain ⟨a, rfl, b, ⟨c, rfl, d, ⟨e, rfl, f, rfl, rfl⟩, rfl⟩, rfl⟩ := hw
  rfl

theorem word_func {w : List Sym} (h : Word 3 w) : w = [.tok 2, .tok 5, .tok 7, .tok 8, .node 1] ∨ ∃ L : List (List Sym), (∀ y ∈ L, y = [Sym.tok 6, .tok 2]) ∧
    w = .tok 2 :: .tok 5 :: .tok 2 :: L.flatten ++ [.tok 7, .tok 8, .node 1] := by
  obtain ⟨c, hc, hw⟩ := h
  cases hc
  simp only [lang, langSeq, langAny, nameTok, comma, equals, lParen, rParen, Bool.false_eq_true, if_false, if_true, Language.mem_mul, mem_opt, Language.mem_kstar, mem_single,
    Language.mem_one] at hw
  obtain ⟨a, rfl, b, ⟨c, rfl, d, ⟨e, he, f, ⟨g, rfl, x, ⟨y, rfl, z, ⟨t, rfl, t', rfl, rfl⟩, rfl⟩, rfl⟩, rfl⟩, rfl⟩, rfl⟩ := hw
  rcases he with rfl | ⟨y, rfl, z, ⟨u, ⟨L, rfl, hL⟩, v, rfl, rfl⟩, rfl⟩
  · exact .inl rfl
  · refine .inr ⟨L, fun y hy => ?_, by simp⟩
    obtain ⟨p, rfl, q, ⟨r, rfl, s, rfl, rfl⟩, rfl⟩ := hL y hy
    rfl

theorem word_bound {i : Nat} {w : List Sym} (h : Word i w) : i < 8 := by
  obtain ⟨c, hc, -⟩ := h
  exact (List.getElem?_eq_some_iff.mp hc).1

/-- The item is what the symbol says; tokens look like captured ones. -/
def ItemIs (upper : List Nat → List Nat) : Sym → Item → Prop
  | .tok k, .tok t => Stands grammar upper (.tok k) t ∧ Lexed t
  | .node i, .node j _ _ => i = j
  | _, _ => False

theorem lexed_type {t : Token} (h : Lexed t) : t.type = 1 ∨ t.type = 2 ∨ t.type = 3 ∨ t.type = 4 := by
  rcases h with ⟨h, -⟩ | ⟨h, -⟩ | ⟨h, -⟩ | ⟨h, -⟩ <;> simp [h]

theorem lexed_notSide {t : Token} (h : Lexed t) : grammar.isSideType t.type = false := by
  rcases lexed_type h with h | h | h | h <;> rw [h] <;> decide

/-- Without side tokens the items match the symbols one by one. -/
theorem spells_items {upper : List Nat → List Nat} {L : Nat → List Sym → Prop} {w : List Sym} {items : List Item}
    (h : Spells (Stands grammar upper) (fun t => grammar.isSideType t.type = true) L w items) (hw : ∀ x ∈ w, x ≠ Sym.eoi)
    (hl : ∀ t ∈ leavesOf items, Lexed t) : List.Forall₂ (ItemIs upper) w items := by
  induction h with
  | nil => exact .nil
  | @side t w items hs _ _ =>
    have := lexed_notSide (hl t (by simp [leavesOf, Item.leaves]))
    rw [this] at hs; cases hs
  | @tok x t w items hr _ ih =>
    refine .cons ?_ (ih (fun x hx => hw x (by simp [hx])) fun t ht => hl t (by simp [leavesOf, ht]))
    cases x with
    | tok k => exact ⟨hr, hl t (by simp [leavesOf, Item.leaves])⟩
    | eoi => exact absurd rfl (hw .eoi (by simp))
    | node i => exact hr
  | node _ _ _ _ ih =>
    exact .cons rfl (ih (fun x hx => hw x (by simp [hx])) fun t ht => hl t (by simp [leavesOf, ht]))

theorem stands_plain {upper : List Nat → List Nat} {k : Nat} {t : Token} (h : Stands grammar upper (.tok k) t)
    (hk : k < 5) : t.type = k := by
  rcases h with ⟨-, tt, lt, -, -, h3, h4, -⟩ | ⟨h, -⟩
  · have : ∀ k < 5, ∀ lt, grammar.tokens[k]? = some lt → lt.flags.literal = false := by decide
    rw [this k hk lt h3] at h4; cases h4
  · exact h

theorem stands_sign {upper : List Nat → List Nat} {k : Nat} {t : Token} (h : Stands grammar upper (.tok k) t) (hl : Lexed t) {c : Char}
    (hc : ∃ lt, grammar.tokens[k]? = some lt ∧ lt.flags.literal = true ∧ lt.name = [c.toNat]) (hch : c ∈ "(),=*/^+-".toList) : IsSign c t := by
  obtain ⟨lt', e1, e2, e3⟩ := hc
  have hcont : t.content = [c.toNat] := by
    rcases h with ⟨h0, tt, lt, h1, h2, h3, h4, h5⟩ | ⟨h, -⟩
    · have hcl : tt.flags.caseless = false := by
        rcases lexed_type hl with h | h | h | h <;> rw [h] at h1 <;> cases h1 <;> rfl
      rw [hcl] at h5
      rw [e1] at h3; cases h3
      rw [← e3, h5]; rfl
    · exfalso
      have : ∀ k < 5, ∀ lt, grammar.tokens[k]? = some lt → lt.flags.literal = false := by decide
      have hk : k < 5 := by rcases lexed_type hl with h' | h' | h' | h' <;> omega
      rw [this k hk lt' e1] at e2; cases e2
  refine ⟨?_, hcont⟩
  have hcode : ∀ c ∈ "(),=*/^+-".toList, ¬ (48 ≤ c.toNat ∧ c.toNat ≤ 57) ∧ ¬ (65 ≤ c.toNat ∧ c.toNat ≤ 90 ∨ 97 ≤ c.toNat ∧ c.toNat ≤ 122) := by
    decide
  rcases hl with ⟨-, -, d, hd, hd2⟩ | ⟨-, -, d, ds, hd, hd2⟩ | ⟨h, -⟩ | ⟨h, -⟩
  · rw [hcont, List.mem_singleton] at hd
    subst hd
    exact absurd hd2 (hcode c hch).1
  · rw [hcont] at hd
    cases hd
    exact absurd hd2 (hcode c hch).2
  · exact .inl h
  · exact .inr h

end Verif.Proof.Calc
