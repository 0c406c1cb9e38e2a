/-
Hooks of the calculator make expressions that stand for the written ones.
-/
import Verif.Proof.CalcWords

namespace Verif.Proof.Calc

open Verif.Model Verif.Model.Calc Verif.Spec Verif.Spec.Calc Verif.Spec.Ebnf

variable {α : Type} {A : Arith α} {num : List Nat → Except Nat α}

/-- What the result of a node stands for; `ts` are tokens of the node. -/
def Good (A : Arith α) (num : List Nat → Except Nat α) (i : Nat) (ts : List Token) (r : Option (Expr α)) : Prop :=
  match i with
  | 1 => ∃ e ex, r = some e ∧ Repr A e ex ∧ IsSum num ex ts
  | 2 => ∃ x e ex, r = some (.assignment x e) ∧ Repr A e ex ∧ IsCmd num (.assign x ex) ts
  | 3 => ∃ f ns e ex, (funcText ∉ f :: ns → r = some (.funcDef f ns e)) ∧ Repr A e ex ∧ IsCmd num (.define f ns ex) ts
  | 4 => ∃ e ex, r = some e ∧ Repr A e ex ∧ IsPro num ex ts
  | 5 => ∃ e ex, r = some e ∧ Repr A e ex ∧ IsPow num ex ts
  | 6 => ∃ e ex, r = some e ∧ Repr A e ex ∧ IsVal num ex ts
  | 7 => ∃ e ex, r = some e ∧ Repr A e ex ∧ IsVal num ex ts
  | _ => True

/-- Results of all nested nodes are good. -/
def AllGood (A : Arith α) (num : List Nat → Except Nat α) (items : List Item) : Prop :=
  ∀ i start its, Item.node i start its ∈ items → ∀ r, (hooks A num).node i start its = .ok r → Good A num i (leavesOf its) r

theorem orStop_ok {β γ : Type} {x : Except Nat β} {f : β → Except Nat γ} {c : γ} : orStop x f = .ok c ↔ ∃ b, x = .ok b ∧ f b = .ok c := by
  cases x <;> simp [orStop]

theorem items_nil {s s' : Inst α} : (hooks A num).items s [] = .ok s' ↔ s = s' := by
  rw [HookClass.items]; simp

theorem items_tok {s s' : Inst α} {t : Token} {its : List Item} :
    (hooks A num).items s (.tok t :: its) = .ok s' ↔ ∃ s1, handleToken num s t = .ok s1 ∧ (hooks A num).items s1 its = .ok s' := by
  rw [HookClass.items, orStop_ok, HookClass.item]
  rfl

theorem items_node {s s' : Inst α} {i : Nat} {st : Option Token} {u its : List Item} :
    (hooks A num).items s (.node i st u :: its) = .ok s' ↔
      ∃ r s1, (hooks A num).node i st u = .ok r ∧ handleNode A s i r = .ok s1 ∧ (hooks A num).items s1 its = .ok s' := by
  rw [HookClass.items, orStop_ok, HookClass.item, HookClass.node]
  constructor
  · rintro ⟨s1, h1, h2⟩
    obtain ⟨s2, h3, h4⟩ := orStop_ok.mp h1
    cases h3
    obtain ⟨r, h5, h6⟩ := orStop_ok.mp h4
    exact ⟨r, s1, h5, h6, h2⟩
  · rintro ⟨r, s1, h1, h2, h3⟩
    refine ⟨s1, ?_, h3⟩
    rw [orStop_ok]
    exact ⟨s, rfl, orStop_ok.mpr ⟨r, h1, h2⟩⟩

theorem leaves_append (a b : List Item) : leavesOf (a ++ b) = leavesOf a ++ leavesOf b := by
  induction a with
  | nil => rw [List.nil_append, leavesOf, List.nil_append]
  | cons x a ih => rw [List.cons_append, leavesOf, leavesOf, ih, List.append_assoc]

theorem leaves_tok (t : Token) (its : List Item) : leavesOf (.tok t :: its) = t :: leavesOf its := by
  rw [leavesOf, Item.leaves]; rfl

theorem leaves_node (i : Nat) (st : Option Token) (u its : List Item) : leavesOf (.node i st u :: its) = leavesOf u ++ leavesOf its := by
  rw [leavesOf, Item.leaves]

/-- A written operation in a sum or product. -/
def Written (num : List Nat → Except Nat α) (k : Bool) (ex : Ex α) (ts : List Token) : Prop := if k then IsSum num ex ts else IsPro num ex ts

/-- A written operand of a sum or product. -/
def Operand (num : List Nat → Except Nat α) (k : Bool) (ex : Ex α) (ts : List Token) : Prop := if k then IsPro num ex ts else IsPow num ex ts

/-- The node with an operand. -/
def operandNode (k : Bool) : Nat := if k then 4 else 5

theorem operand_good {k : Bool} {ts : List Token} {r : Option (Expr α)} (h : Good A num (operandNode k) ts r) :
    ∃ e ex, r = some e ∧ Repr A e ex ∧ Operand num k ex ts := by
  cases k <;> exact h

theorem written_add {k : Bool} {op : Nat} (hk : OpKind k op) {a b : Ex α} {ts us : List Token} {t : Token} (ha : Written num k a ts)
    (ht : (t.type = 3 ∨ t.type = 4) ∧ t.content = [op]) (hb : Operand num k b us) : Written num k (bin op a b) (ts ++ t :: us) := by
  cases k with
  | true =>
    rcases hk with rfl | rfl
    · exact .add ha ht hb
    · exact .sub ha ht hb
  | false =>
    rcases hk with rfl | rfl
    · exact .mul ha ht hb
    · exact .div ha ht hb

/-- One more operand. -/
theorem chain_add (hA : Lawful A) {k : Bool} {op i : Nat} (hk : OpKind k op) {v : α} {ops : List (OpVal α)} {a b : Ex α} {e : Expr α} {s : Inst α}
    (ha : ReprChain A k v ops a) (hb : Repr A e b) (h : handleNode A (.chain op v ops) i (some e) = .ok s) :
    ∃ v' ops', s = .chain op v' ops' ∧ ReprChain A k v' ops' (bin op a b) := by
  rw [handleNode] at h
  split at h
  · rename_i hn
    obtain ⟨w, h1, h2⟩ := number_const hA hb hn
    rw [compute, h1] at h
    cases h
    exact ⟨_, _, rfl, .addConst ha hk h2⟩
  · cases h
    exact ⟨_, _, rfl, .add ha hk hb⟩

theorem tok_items {upper : List Nat → List Nat} {k : Nat} {w : List Sym} {items : List Item} (h : List.Forall₂ (ItemIs upper) (.tok k :: w) items) :
    ∃ t its, items = .tok t :: its ∧ Stands grammar upper (.tok k) t ∧ Lexed t ∧ List.Forall₂ (ItemIs upper) w its := by
  cases h with
  | @cons _ i1 _ its1 g1 hw =>
    match i1, g1 with
    | .tok t, ⟨g1, g2⟩ => exact ⟨t, its1, rfl, g1, g2, hw⟩

theorem node_items {upper : List Nat → List Nat} {k : Nat} {w : List Sym} {items : List Item} (h : List.Forall₂ (ItemIs upper) (.node k :: w) items) :
    ∃ st u its, items = .node k st u :: its ∧ List.Forall₂ (ItemIs upper) w its := by
  cases h with
  | @cons _ i1 _ its1 g1 hw =>
    match i1, g1 with
    | .node _ st u, g1 =>
      have g1 : k = _ := g1
      subst g1
      exact ⟨st, u, its1, rfl, hw⟩

/-- The rest of a sum or product. -/
theorem chain_rest (hA : Lawful A) {upper : List Nat → List Nat} {k : Bool} (L : List (List Sym))
    (hL : ∀ y ∈ L, ∃ m op, OpKind k op ∧ y = [Sym.tok m, .node (operandNode k)] ∧
      ∀ t, Stands grammar upper (.tok m) t → Lexed t → (t.type = 3 ∨ t.type = 4) ∧ t.content = [op])
    {items : List Item} (hw : List.Forall₂ (ItemIs upper) L.flatten items) (hg : AllGood A num items)
    {op : Nat} {v : α} {ops : List (OpVal α)} {ex : Ex α} {ts : List Token} (hr : ReprChain A k v ops ex) (hx : Written num k ex ts) {s : Inst α}
    (h : (hooks A num).items (.chain op v ops) items = .ok s) :
    ∃ op' v' ops' ex', s = .chain op' v' ops' ∧ ReprChain A k v' ops' ex' ∧ Written num k ex' (ts ++ leavesOf items) := by
  induction L generalizing items op v ops ex ts with
  | nil =>
    cases hw
    rw [items_nil] at h
    subst h
    exact ⟨_, _, _, ex, rfl, hr, by rw [leavesOf, List.append_nil]; exact hx⟩
  | cons y L ih =>
    obtain ⟨m, op1, hk, rfl, ht⟩ := hL y (by simp)
    rw [List.flatten_cons] at hw
    obtain ⟨t, its, rfl, g1, g1', hw⟩ := tok_items hw
    obtain ⟨st, u, its, rfl, hj⟩ := node_items hw
    replace hw := hj; clear hj
    obtain ⟨ht1, ht2⟩ := ht t g1 g1'
    rw [items_tok] at h
    obtain ⟨s1, h1, h⟩ := h
    simp only [handleToken, ht2] at h1
    cases h1
    rw [items_node] at h
    obtain ⟨r, s2, h1, h2, h⟩ := h
    obtain ⟨e, ex2, rfl, hr2, hx2⟩ := operand_good (hg _ _ _ (by simp) _ h1)
    obtain ⟨v', ops', rfl, hr'⟩ := chain_add hA hk hr hr2 h2
    obtain ⟨op', v'', ops'', ex', k1, k2, k3⟩ := ih (fun y hy => hL y (by simp [hy])) hw (fun i st u hi => hg i st u (by simp [hi])) hr'
      (written_add hk hx ⟨ht1, ht2⟩ hx2) h
    refine ⟨op', v'', ops'', ex', k1, k2, ?_⟩
    rw [leaves_tok, leaves_node]
    simpa using k3

theorem node_ok {i : Nat} {st : Option Token} {items : List Item} {r : Option (Expr α)} :
    (hooks A num).node i st items = .ok r ↔ ∃ n s, newInst A i = .ok n ∧ (hooks A num).items n items = .ok s ∧ endNode A s = .ok r := by
  rw [HookClass.node, orStop_ok]
  constructor
  · rintro ⟨n, h1, h2⟩
    obtain ⟨s, h3, h4⟩ := orStop_ok.mp h2
    exact ⟨n, s, h1, h3, h4⟩
  · rintro ⟨n, s, h1, h2, h3⟩
    exact ⟨n, h1, orStop_ok.mpr ⟨s, h2, h3⟩⟩

/-- The result of a chain. -/
theorem chain_end {k : Bool} {op : Nat} {v : α} {ops : List (OpVal α)} {ex : Ex α} (h : ReprChain A k v ops ex) {r : Option (Expr α)}
    (hr : endNode A (.chain op v ops) = .ok r) (hA : Lawful A) : ∃ e, r = some e ∧ Repr A e ex := by
  rw [endNode] at hr
  cases hr
  cases ops with
  | cons o ops => exact ⟨_, rfl, .chain h⟩
  | nil =>
    refine ⟨_, rfl, .num ?_⟩
    obtain ⟨w, h1, h2⟩ := number_const hA (.chain h) rfl
    have := h1 (fun _ _ _ => .panic) []
    rw [computeWith, computeOps] at this
    cases this
    exact h2

theorem sign_of {upper : List Nat → List Nat} {t : Token} (k : Nat) (c : Char) (h : Stands grammar upper (.tok k) t) (hl : Lexed t)
    (hk : ∃ lt, grammar.tokens[k]? = some lt ∧ lt.flags.literal = true ∧ lt.name = [c.toNat] := by exact ⟨_, rfl, rfl, rfl⟩)
    (hc : c ∈ "(),=*/^+-".toList := by decide) : IsSign c t := stands_sign h hl hk hc

/-- The first operand of a sum or product. -/
theorem chain_first (hA : Lawful A) {k : Bool} {v : α} {op i : Nat} (hv : (v = A.zero ∧ op = 43 ∧ k = true) ∨ (v = A.one ∧ op = 42 ∧ k = false))
    {e : Expr α} {ex : Ex α} (hr : Repr A e ex) {s : Inst α} (h : handleNode A (.chain op v []) i (some e) = .ok s) :
    ∃ v' ops', s = .chain op v' ops' ∧ ReprChain A k v' ops' ex := by
  rw [handleNode] at h
  split at h
  · rename_i hn
    obtain ⟨w, h1, h2⟩ := number_const hA hr hn
    rw [compute, h1] at h
    cases h
    refine ⟨_, _, rfl, .const ?_⟩
    rcases hv with ⟨rfl, rfl, rfl⟩ | ⟨rfl, rfl, rfl⟩
    · simpa only [update, if_true, hA.zero_add] using h2
    · simpa [update, hA.one_mul] using h2
  · cases h
    refine ⟨_, _, rfl, ?_⟩
    rcases hv with ⟨rfl, rfl, rfl⟩ | ⟨rfl, rfl, rfl⟩
    · exact .firstSum hr
    · exact .firstPro hr

theorem chain_neg (hA : Lawful A) {i : Nat} {e : Expr α} {ex : Ex α} (hr : Repr A e ex) {s : Inst α}
    (h : handleNode A (.chain 45 A.zero []) i (some e) = .ok s) :
    ∃ v' ops', s = .chain 45 v' ops' ∧ ReprChain A true v' ops' (.neg ex) := by
  rw [handleNode] at h
  split at h
  · rename_i hn
    obtain ⟨w, h1, h2⟩ := number_const hA hr hn
    rw [compute, h1] at h
    cases h
    refine ⟨_, _, rfl, .const ?_⟩
    intro fs call scopes vars
    rw [valueWith, h2]
    simp [next, update]
  · cases h
    exact ⟨_, _, rfl, .firstNeg hr⟩

theorem step_expr (hA : Lawful A) {upper : List Nat → List Nat} {w : List Sym} (hw : Word 1 w) {items : List Item}
    (hi : List.Forall₂ (ItemIs upper) w items) (hg : AllGood A num items) {st : Option Token} {r : Option (Expr α)}
    (h : (hooks A num).node 1 st items = .ok r) : Good A num 1 (leavesOf items) r := by
  obtain ⟨pre, L, hpre, hL, rfl⟩ := word_expr hw
  obtain ⟨n, s, h1, h2, h3⟩ := node_ok.mp h
  cases h1
  have hL' : ∀ y ∈ L, ∃ m op, OpKind true op ∧ y = [Sym.tok m, .node (operandNode true)] ∧
      ∀ t, Stands grammar upper (.tok m) t → Lexed t → (t.type = 3 ∨ t.type = 4) ∧ t.content = [op] := by
    intro y hy
    rcases hL y hy with rfl | rfl
    · exact ⟨10, 43, .inl rfl, rfl, fun t h1 h2 => sign_of 10 '+' h1 h2⟩
    · exact ⟨9, 45, .inr rfl, rfl, fun t h1 h2 => sign_of 9 '-' h1 h2⟩
  have fin : ∀ {op' v' ops' ex' ts}, s = .chain op' v' ops' → ReprChain A true v' ops' ex' → IsSum num ex' ts →
      ∃ e ex, r = some e ∧ Repr A e ex ∧ IsSum num ex ts := by
    intro op' v' ops' ex' ts hs hr hx
    subst hs
    obtain ⟨e, rfl, he⟩ := chain_end hr h3 hA
    exact ⟨e, _, rfl, he, hx⟩
  rcases hpre with rfl | rfl
  · obtain ⟨st1, u, its, rfl, hj⟩ := node_items hi
    replace hi := hj; clear hj
    rw [items_node] at h2
    obtain ⟨r1, s1, h4, h5, h2⟩ := h2
    obtain ⟨e, ex, rfl, hr, hx⟩ := hg 4 _ _ (by simp) _ h4
    obtain ⟨v', ops', rfl, hr'⟩ := chain_first (k := true) hA (.inl ⟨rfl, rfl, rfl⟩) hr h5
    obtain ⟨op', v'', ops'', ex', k1, k2, k3⟩ := chain_rest hA L hL' hi (fun i st u hi => hg i st u (by simp [hi])) hr'
      (show Written num true ex (leavesOf u) from IsSum.one hx) h2
    rw [leaves_node]
    exact fin k1 k2 k3
  · obtain ⟨t, its, rfl, e1, e2, hi⟩ := tok_items hi
    obtain ⟨st1, u, its, rfl, hj⟩ := node_items hi
    replace hi := hj; clear hj
    have ht := sign_of 9 '-' e1 e2
    rw [items_tok] at h2
    obtain ⟨s1, h4, h2⟩ := h2
    simp only [handleToken, ht.2] at h4
    cases h4
    rw [items_node] at h2
    obtain ⟨r1, s1, h4, h5, h2⟩ := h2
    obtain ⟨e, ex, rfl, hr, hx⟩ := hg 4 _ _ (by simp) _ h4
    obtain ⟨v', ops', rfl, hr'⟩ := chain_neg hA hr h5
    obtain ⟨op', v'', ops'', ex', k1, k2, k3⟩ := chain_rest hA L hL' hi (fun i st u hi => hg i st u (by simp [hi])) hr'
      (show Written num true (.neg ex) (t :: leavesOf u) from IsSum.neg ht hx) h2
    rw [leaves_tok, leaves_node]
    exact fin k1 k2 k3

theorem step_pro (hA : Lawful A) {upper : List Nat → List Nat} {w : List Sym} (hw : Word 4 w) {items : List Item}
    (hi : List.Forall₂ (ItemIs upper) w items) (hg : AllGood A num items) {st : Option Token} {r : Option (Expr α)}
    (h : (hooks A num).node 4 st items = .ok r) : Good A num 4 (leavesOf items) r := by
  obtain ⟨L, hL, rfl⟩ := word_pro hw
  obtain ⟨n, s, h1, h2, h3⟩ := node_ok.mp h
  cases h1
  have hL' : ∀ y ∈ L, ∃ m op, OpKind false op ∧ y = [Sym.tok m, .node (operandNode false)] ∧
      ∀ t, Stands grammar upper (.tok m) t → Lexed t → (t.type = 3 ∨ t.type = 4) ∧ t.content = [op] := by
    intro y hy
    rcases hL y hy with rfl | rfl
    · exact ⟨11, 42, .inl rfl, rfl, fun t h1 h2 => sign_of 11 '*' h1 h2⟩
    · exact ⟨12, 47, .inr rfl, rfl, fun t h1 h2 => sign_of 12 '/' h1 h2⟩
  obtain ⟨st1, u, its, rfl, hj⟩ := node_items hi
  replace hi := hj; clear hj
  rw [items_node] at h2
  obtain ⟨r1, s1, h4, h5, h2⟩ := h2
  obtain ⟨e, ex, rfl, hr, hx⟩ := hg 5 _ _ (by simp) _ h4
  obtain ⟨v', ops', rfl, hr'⟩ := chain_first (k := false) hA (.inr ⟨rfl, rfl, rfl⟩) hr h5
  obtain ⟨op', v'', ops'', ex', rfl, k2, k3⟩ := chain_rest hA L hL' hi (fun i st u hi => hg i st u (by simp [hi])) hr'
    (show Written num false ex (leavesOf u) from IsPro.one hx) h2
  rw [leaves_node]
  obtain ⟨e, rfl, he⟩ := chain_end k2 h3 hA
  exact ⟨e, _, rfl, he, k3⟩

/-- The result of a power. -/
theorem power_end (hA : Lawful A) {b e : Expr α} {ex : Ex α} (h : Repr A (.power b e) ex) {r : Option (Expr α)}
    (hr : endNode A (.power (some b) e) = .ok r) : ∃ e', r = some e' ∧ Repr A e' ex := by
  rw [endNode] at hr
  split at hr
  · rename_i hn
    obtain ⟨w, h1, h2⟩ := number_const hA h hn
    rw [compute, h1] at hr
    cases hr
    exact ⟨_, rfl, .num h2⟩
  · cases hr
    exact ⟨_, rfl, h⟩

theorem step_pow (hA : Lawful A) {upper : List Nat → List Nat} {w : List Sym} (hw : Word 5 w) {items : List Item}
    (hi : List.Forall₂ (ItemIs upper) w items) (hg : AllGood A num items) {st : Option Token} {r : Option (Expr α)}
    (h : (hooks A num).node 5 st items = .ok r) : Good A num 5 (leavesOf items) r := by
  obtain ⟨n, s, h1, h2, h3⟩ := node_ok.mp h
  cases h1
  rcases word_pow hw with rfl | rfl
  · obtain ⟨st1, u, its, rfl, hj⟩ := node_items hi
    replace hi := hj; clear hj
    cases hi
    rw [items_node] at h2
    obtain ⟨r1, s1, h4, h5, h2⟩ := h2
    obtain ⟨e, ex, rfl, hr, hx⟩ := hg 6 _ _ (by simp) _ h4
    rw [handleNode] at h5
    cases h5
    rw [items_nil] at h2
    subst h2
    obtain ⟨e', rfl, he⟩ := power_end hA (.powOne hr) h3
    rw [leaves_node, leavesOf, List.append_nil]
    exact ⟨e', _, rfl, he, .one hx⟩
  · obtain ⟨st1, u, its, rfl, hj⟩ := node_items hi
    replace hi := hj; clear hj
    obtain ⟨t, its, rfl, e1, e2, hi⟩ := tok_items hi
    obtain ⟨st2, u2, its, rfl, hj⟩ := node_items hi
    replace hi := hj; clear hj
    cases hi
    rw [items_node] at h2
    obtain ⟨r1, s1, h4, h5, h2⟩ := h2
    obtain ⟨e, ex, rfl, hr, hx⟩ := hg 6 _ _ (by simp) _ h4
    rw [handleNode] at h5
    cases h5
    rw [items_tok] at h2
    obtain ⟨s1, h5, h2⟩ := h2
    rw [handleToken] at h5
    cases h5
    rw [items_node] at h2
    obtain ⟨r2, s2, h6, h7, h2⟩ := h2
    obtain ⟨e', ex', rfl, hr', hx'⟩ := hg 5 _ _ (by simp) _ h6
    rw [handleNode] at h7
    cases h7
    rw [items_nil] at h2
    subst h2
    obtain ⟨e'', rfl, he⟩ := power_end hA (.pow hr hr') h3
    rw [leaves_node, leaves_tok, leaves_node, leavesOf, List.append_nil]
    exact ⟨e'', _, rfl, he, .pow hx (sign_of 13 '^' e1 e2) hx'⟩

theorem name_of {upper : List Nat → List Nat} {t : Token} (h : Stands grammar upper (.tok 2) t) (hl : Lexed t) :
    t.type = 2 ∧ t.typeName = "name" ∧ t.content ≠ [] := by
  have h2 := stands_plain h (by decide)
  rcases hl with ⟨h, -⟩ | ⟨-, h, c, cs, hc, -⟩ | ⟨h, -⟩ | ⟨h, -⟩
  · rw [h] at h2; exact absurd h2 (by decide)
  · exact ⟨h2, h, by rw [hc]; simp⟩
  · rw [h] at h2; exact absurd h2 (by decide)
  · rw [h] at h2; exact absurd h2 (by decide)

theorem number_of {upper : List Nat → List Nat} {t : Token} (h : Stands grammar upper (.tok 1) t) (hl : Lexed t) :
    t.type = 1 ∧ t.typeName = "number" := by
  have h2 := stands_plain h (by decide)
  rcases hl with ⟨-, h, -⟩ | ⟨h, -⟩ | ⟨h, -⟩ | ⟨h, -⟩
  · exact ⟨h2, h⟩
  · rw [h] at h2; exact absurd h2 (by decide)
  · rw [h] at h2; exact absurd h2 (by decide)
  · rw [h] at h2; exact absurd h2 (by decide)

theorem sign_name {c : Char} {t : Token} (h : IsSign c t) (hl : Lexed t) : t.typeName ≠ "name" ∧ t.typeName ≠ "number" := by
  obtain ⟨ht, -⟩ := h
  rcases hl with ⟨h, -⟩ | ⟨h, -⟩ | ⟨-, h, -⟩ | ⟨-, h, -⟩
  · omega
  · omega
  · rw [h]; decide
  · rw [h]; decide

theorem step_value {upper : List Nat → List Nat} {w : List Sym} (hw : Word 6 w) {items : List Item}
    (hi : List.Forall₂ (ItemIs upper) w items) (hg : AllGood A num items) {st : Option Token} {r : Option (Expr α)}
    (h : (hooks A num).node 6 st items = .ok r) : Good A num 6 (leavesOf items) r := by
  obtain ⟨n, s, h1, h2, h3⟩ := node_ok.mp h
  cases h1
  rcases word_value hw with rfl | rfl | rfl | rfl
  · obtain ⟨t, its, rfl, e1, e2, hi⟩ := tok_items hi
    cases hi
    obtain ⟨k1, k2⟩ := number_of e1 e2
    rw [items_tok] at h2
    obtain ⟨s1, h4, h2⟩ := h2
    rw [handleToken, if_neg (by rw [k2]; decide), if_pos k2] at h4
    split at h4
    · rename_i v hv
      cases h4
      rw [items_nil] at h2
      subst h2
      cases h3
      rw [leaves_tok, leavesOf]
      exact ⟨_, .num v, rfl, .num (fun _ _ _ _ => by rw [valueWith]), .num k1 hv⟩
    · cases h4
  · obtain ⟨t, its, rfl, e1, e2, hi⟩ := tok_items hi
    cases hi
    obtain ⟨k1, k2, -⟩ := name_of e1 e2
    rw [items_tok] at h2
    obtain ⟨s1, h4, h2⟩ := h2
    rw [handleToken, if_pos k2] at h4
    cases h4
    rw [items_nil] at h2
    subst h2
    cases h3
    rw [leaves_tok, leavesOf]
    exact ⟨_, _, rfl, .var, .var k1⟩
  · obtain ⟨st1, u, its, rfl, hj⟩ := node_items hi
    replace hi := hj; clear hj
    cases hi
    rw [items_node] at h2
    obtain ⟨r1, s1, h4, h5, h2⟩ := h2
    obtain ⟨e, ex, rfl, hr, hx⟩ := hg 7 _ _ (by simp) _ h4
    rw [handleNode] at h5
    cases h5
    rw [items_nil] at h2
    subst h2
    cases h3
    rw [leaves_node, leavesOf, List.append_nil]
    exact ⟨_, _, rfl, hr, hx⟩
  · obtain ⟨t, its, rfl, e1, e2, hi⟩ := tok_items hi
    obtain ⟨st1, u, its, rfl, hj⟩ := node_items hi
    replace hi := hj; clear hj
    obtain ⟨t', its, rfl, e3, e4, hi⟩ := tok_items hi
    cases hi
    have g1 := sign_of 5 '(' e1 e2
    have g2 := sign_of 7 ')' e3 e4
    rw [items_tok] at h2
    obtain ⟨s1, h4, h2⟩ := h2
    rw [handleToken, if_neg (sign_name g1 e2).1, if_neg (sign_name g1 e2).2] at h4
    cases h4
    rw [items_node] at h2
    obtain ⟨r1, s1, h4, h5, h2⟩ := h2
    obtain ⟨e, ex, rfl, hr, hx⟩ := hg 1 _ _ (by simp) _ h4
    rw [handleNode] at h5
    cases h5
    rw [items_tok] at h2
    obtain ⟨s1, h4, h2⟩ := h2
    rw [handleToken, if_neg (sign_name g2 e4).1, if_neg (sign_name g2 e4).2] at h4
    cases h4
    rw [items_nil] at h2
    subst h2
    cases h3
    rw [leaves_tok, leaves_node, leaves_tok, leavesOf]
    exact ⟨_, _, rfl, hr, .paren g1 hx g2⟩

theorem args_append {es : List (Expr α)} {exs : List (Ex α)} {e : Expr α} {ex : Ex α} : ReprArgs A es exs → Repr A e ex →
    ReprArgs A (es ++ [e]) (exs ++ [ex])
  | .nil, h => .cons h .nil
  | .cons h1 h2, h => .cons h1 (args_append h2 h)

/-- The rest of arguments. -/
theorem args_rest {upper : List Nat → List Nat} (L : List (List Sym)) (hL : ∀ y ∈ L, y = [Sym.tok 6, .node 1])
    {tail : List Sym} {items : List Item} (hw : List.Forall₂ (ItemIs upper) (L.flatten ++ tail) items) (hg : AllGood A num items)
    {n : List Nat} {args : List (Expr α)} {exs : List (Ex α)} {ts : List Token} (hr : ReprArgs A args exs) (hx : AreSums num exs ts) {s : Inst α}
    (h : (hooks A num).items (.funcCall n args) items = .ok s) :
    ∃ args' exs' a b, items = a ++ b ∧ List.Forall₂ (ItemIs upper) tail b ∧ ReprArgs A args' exs' ∧ AreSums num exs' (ts ++ leavesOf a) ∧
      (hooks A num).items (.funcCall n args') b = .ok s := by
  induction L generalizing items args exs ts with
  | nil => exact ⟨args, exs, [], items, rfl, hw, hr, by rw [leavesOf, List.append_nil]; exact hx, h⟩
  | cons y L ih =>
    rw [hL y (by simp), List.flatten_cons, List.append_assoc] at hw
    obtain ⟨t, its, rfl, e1, e2, hw⟩ := tok_items hw
    obtain ⟨st1, u, its, rfl, hj⟩ := node_items hw
    replace hw := hj; clear hj
    have g1 := sign_of 6 ',' e1 e2
    rw [items_tok] at h
    obtain ⟨s1, h4, h⟩ := h
    rw [handleToken, if_neg (sign_name g1 e2).1] at h4
    cases h4
    rw [items_node] at h
    obtain ⟨r1, s1, h4, h5, h⟩ := h
    obtain ⟨e, ex, rfl, hr1, hx1⟩ := hg 1 _ _ (by simp) _ h4
    rw [handleNode, if_pos rfl] at h5
    cases h5
    obtain ⟨args', exs', a, b, rfl, k1, k2, k3, k4⟩ := ih (fun y hy => hL y (by simp [hy])) hw (fun i st u hi => hg i st u (by simp [hi]))
      (args_append hr hr1) (.more hx g1 hx1) h
    refine ⟨args', exs', .tok t :: .node 1 st1 u :: a, b, rfl, k1, k2, ?_, k4⟩
    rw [leaves_tok, leaves_node]
    simpa using k3

theorem step_call {upper : List Nat → List Nat} {w : List Sym} (hw : Word 7 w) {items : List Item}
    (hi : List.Forall₂ (ItemIs upper) w items) (hg : AllGood A num items) {st : Option Token} {r : Option (Expr α)}
    (h : (hooks A num).node 7 st items = .ok r) : Good A num 7 (leavesOf items) r := by
  obtain ⟨n, s, h1, h2, h3⟩ := node_ok.mp h
  cases h1
  have fin : ∀ {n args its s}, List.Forall₂ (ItemIs upper) [.tok 7] its → (hooks A num).items (.funcCall n args) its = .ok s →
      ∃ t, its = [.tok t] ∧ IsSign ')' t ∧ s = .funcCall n args := by
    intro n args its s hi h
    obtain ⟨t, its, rfl, e1, e2, hi⟩ := tok_items hi
    cases hi
    have g := sign_of 7 ')' e1 e2
    rw [items_tok] at h
    obtain ⟨s1, h4, h⟩ := h
    rw [handleToken, if_neg (sign_name g e2).1] at h4
    cases h4
    rw [items_nil] at h
    exact ⟨t, rfl, g, h.symm⟩
  rcases word_call hw with rfl | ⟨L, hL, rfl⟩
  · obtain ⟨f, its, rfl, e1, e2, hi⟩ := tok_items hi
    obtain ⟨l, its, rfl, e3, e4, hi⟩ := tok_items hi
    obtain ⟨k1, k2, -⟩ := name_of e1 e2
    have g := sign_of 5 '(' e3 e4
    rw [items_tok] at h2
    obtain ⟨s1, h4, h2⟩ := h2
    rw [handleToken, if_pos k2] at h4
    cases h4
    rw [items_tok] at h2
    obtain ⟨s1, h4, h2⟩ := h2
    rw [handleToken, if_neg (sign_name g e4).1] at h4
    cases h4
    obtain ⟨t, rfl, g2, rfl⟩ := fin hi h2
    cases h3
    rw [leaves_tok, leaves_tok, leaves_tok, leavesOf]
    exact ⟨_, _, rfl, .call .nil, .call0 k1 g g2⟩
  · obtain ⟨f, its, rfl, e1, e2, hi⟩ := tok_items hi
    obtain ⟨l, its, rfl, e3, e4, hi⟩ := tok_items hi
    obtain ⟨st1, u, its, rfl, hj⟩ := node_items hi
    replace hi := hj; clear hj
    obtain ⟨k1, k2, -⟩ := name_of e1 e2
    have g := sign_of 5 '(' e3 e4
    rw [items_tok] at h2
    obtain ⟨s1, h4, h2⟩ := h2
    rw [handleToken, if_pos k2] at h4
    cases h4
    rw [items_tok] at h2
    obtain ⟨s1, h4, h2⟩ := h2
    rw [handleToken, if_neg (sign_name g e4).1] at h4
    cases h4
    rw [items_node] at h2
    obtain ⟨r1, s1, h4, h5, h2⟩ := h2
    obtain ⟨e, ex, rfl, hr, hx⟩ := hg 1 _ _ (by simp) _ h4
    rw [handleNode, if_pos rfl] at h5
    cases h5
    obtain ⟨args', exs', a, b, rfl, j1, j2, j3, j4⟩ := args_rest L hL hi (fun i st u hi => hg i st u (by simp [hi]))
      (.cons hr .nil) (.one hx) h2
    obtain ⟨t, rfl, g2, rfl⟩ := fin j1 j4
    cases h3
    rw [leaves_tok, leaves_tok, leaves_node, leaves_append, leaves_tok, leavesOf, ← List.append_assoc]
    exact ⟨_, _, rfl, .call j2, .call k1 g j3 g2⟩

theorem step_assign {upper : List Nat → List Nat} {w : List Sym} (hw : Word 2 w) {items : List Item}
    (hi : List.Forall₂ (ItemIs upper) w items) (hg : AllGood A num items) {st : Option Token} {r : Option (Expr α)}
    (h : (hooks A num).node 2 st items = .ok r) : Good A num 2 (leavesOf items) r := by
  obtain ⟨n, s, h1, h2, h3⟩ := node_ok.mp h
  cases h1
  cases word_assign hw
  obtain ⟨x, its, rfl, e1, e2, hi⟩ := tok_items hi
  obtain ⟨q, its, rfl, e3, e4, hi⟩ := tok_items hi
  obtain ⟨st1, u, its, rfl, hj⟩ := node_items hi
  replace hi := hj; clear hj
  cases hi
  obtain ⟨k1, k2, -⟩ := name_of e1 e2
  have g := sign_of 8 '=' e3 e4
  rw [items_tok] at h2
  obtain ⟨s1, h4, h2⟩ := h2
  rw [handleToken, if_pos k2] at h4
  cases h4
  rw [items_tok] at h2
  obtain ⟨s1, h4, h2⟩ := h2
  rw [handleToken, if_neg (sign_name g e4).1] at h4
  cases h4
  rw [items_node] at h2
  obtain ⟨r1, s1, h4, h5, h2⟩ := h2
  obtain ⟨e, ex, rfl, hr, hx⟩ := hg 1 _ _ (by simp) _ h4
  rw [handleNode, if_pos rfl] at h5
  cases h5
  rw [items_nil] at h2
  subst h2
  cases h3
  rw [leaves_tok, leaves_tok, leaves_node, leavesOf, List.append_nil]
  exact ⟨_, _, _, rfl, hr, .assign k1 g hx⟩

/-- The state of a function definition after its header is read. -/
def Header (f : List Nat) (ns : List (List Nat)) (s : Inst α) : Prop :=
  ∃ n as, s = .funcDef n as none ∧ (funcText ∉ f :: ns → n = f ∧ as = ns)

theorem header_name {f : List Nat} (hf : f ≠ []) {ns : List (List Nat)} {s s' : Inst α} (hs : Header f ns s) {t : Token} (ht : t.typeName = "name")
    (h : handleToken num s t = .ok s') : Header f (ns ++ [t.content]) s' := by
  obtain ⟨n, as, rfl, h1⟩ := hs
  rw [handleToken, if_neg (by simpa using ht)] at h
  split at h
  · rename_i hc
    cases h
    exact ⟨_, _, rfl, fun hn => absurd (by simp [hc]) hn⟩
  · split at h
    · rename_i hn
      cases h
      refine ⟨_, _, rfl, fun hx => ?_⟩
      have := (h1 fun hm => hx (by simp only [List.mem_cons, List.mem_append] at hm ⊢; tauto)).1
      rw [hn] at this
      exact absurd this.symm hf
    · split at h
      · cases h
      · cases h
        refine ⟨_, _, rfl, fun hx => ?_⟩
        obtain ⟨rfl, rfl⟩ := h1 fun hm => hx (by simp only [List.mem_cons, List.mem_append] at hm ⊢; tauto)
        exact ⟨rfl, rfl⟩

theorem header_sign {f : List Nat} {ns : List (List Nat)} {s s' : Inst α} (hs : Header f ns s) {t : Token} (ht : t.typeName ≠ "name")
    (h : handleToken num s t = .ok s') : Header f ns s' := by
  obtain ⟨n, as, rfl, h1⟩ := hs
  rw [handleToken, if_pos (by simpa using ht)] at h
  cases h
  exact ⟨_, _, rfl, h1⟩

theorem header_first {s' : Inst α} {t : Token} (ht : t.typeName = "name") (h : handleToken num (.funcDef [] [] none) t = .ok s') :
    Header t.content [] s' := by
  rw [handleToken, if_neg (by simpa using ht)] at h
  split at h
  · rename_i hc
    cases h
    exact ⟨_, _, rfl, fun hn => absurd (by simp [hc]) hn⟩
  · rw [if_pos rfl] at h
    cases h
    exact ⟨_, _, rfl, fun _ => ⟨rfl, rfl⟩⟩

/-- The rest of argument names. -/
theorem names_rest {upper : List Nat → List Nat} (L : List (List Sym)) (hL : ∀ y ∈ L, y = [Sym.tok 6, .tok 2])
    {tail : List Sym} {items : List Item} (hw : List.Forall₂ (ItemIs upper) (L.flatten ++ tail) items)
    {f : List Nat} (hf : f ≠ []) {ns : List (List Nat)} {ts : List Token} {s s' : Inst α} (hs : Header f ns s) (hx : AreNames ns ts)
    (h : (hooks A num).items s items = .ok s') :
    ∃ ns' a b s1, items = a ++ b ∧ List.Forall₂ (ItemIs upper) tail b ∧ Header f ns' s1 ∧ AreNames ns' (ts ++ leavesOf a) ∧
      (∀ i st u, Item.node i st u ∉ a) ∧ (hooks A num).items s1 b = .ok s' := by
  induction L generalizing items ns ts s with
  | nil => exact ⟨ns, [], items, s, rfl, hw, hs, by rw [leavesOf, List.append_nil]; exact hx, by simp, h⟩
  | cons y L ih =>
    rw [hL y (by simp), List.flatten_cons, List.append_assoc] at hw
    obtain ⟨t, its, rfl, e1, e2, hw⟩ := tok_items hw
    obtain ⟨n, its, rfl, e3, e4, hw⟩ := tok_items hw
    have g1 := sign_of 6 ',' e1 e2
    obtain ⟨k1, k2, -⟩ := name_of e3 e4
    rw [items_tok] at h
    obtain ⟨s1, h4, h⟩ := h
    rw [items_tok] at h
    obtain ⟨s2, h5, h⟩ := h
    obtain ⟨ns', a, b, s3, rfl, j1, j2, j3, j4, j5⟩ := ih (fun y hy => hL y (by simp [hy])) hw
      (header_name hf (header_sign hs (sign_name g1 e2).1 h4) k2 h5) (.more hx g1 k1) h
    refine ⟨ns', .tok t :: .tok n :: a, b, s3, rfl, j1, j2, ?_, ?_, j5⟩
    · rw [leaves_tok, leaves_tok]
      simpa using j3
    · intro i st u hm
      simp only [List.mem_cons, reduceCtorEq, false_or] at hm
      exact j4 i st u hm

theorem step_func {upper : List Nat → List Nat} {w : List Sym} (hw : Word 3 w) {items : List Item}
    (hi : List.Forall₂ (ItemIs upper) w items) (hg : AllGood A num items) {st : Option Token} {r : Option (Expr α)}
    (h : (hooks A num).node 3 st items = .ok r) : Good A num 3 (leavesOf items) r := by
  obtain ⟨n, s, h1, h2, h3⟩ := node_ok.mp h
  cases h1
  have fin : ∀ {f ns its s0}, Header f ns s0 → List.Forall₂ (ItemIs upper) [.tok 7, .tok 8, .node 1] its → AllGood A num its →
      (hooks A num).items s0 its = .ok s →
      ∃ r q e ex ts, leavesOf its = r :: q :: ts ∧ IsSign ')' r ∧ IsSign '=' q ∧ Repr A e ex ∧ IsSum num ex ts ∧
        ∃ n as, s = .funcDef n as (some e) ∧ (funcText ∉ f :: ns → n = f ∧ as = ns) := by
    intro f ns its s0 hs hi hg h
    obtain ⟨t, its, rfl, e1, e2, hi⟩ := tok_items hi
    obtain ⟨q, its, rfl, e3, e4, hi⟩ := tok_items hi
    obtain ⟨st1, u, its, rfl, hj⟩ := node_items hi
    cases hj
    have g1 := sign_of 7 ')' e1 e2
    have g2 := sign_of 8 '=' e3 e4
    rw [items_tok] at h
    obtain ⟨s1, h4, h⟩ := h
    have hs := header_sign hs (sign_name g1 e2).1 h4
    rw [items_tok] at h
    obtain ⟨s2, h5, h⟩ := h
    obtain ⟨n, as, rfl, hn⟩ := header_sign hs (sign_name g2 e4).1 h5
    rw [items_node] at h
    obtain ⟨r1, s1, h6, h7, h⟩ := h
    obtain ⟨e, ex, rfl, hr, hx⟩ := hg 1 _ _ (by simp) _ h6
    rw [handleNode, if_pos rfl] at h7
    cases h7
    rw [items_nil] at h
    subst h
    refine ⟨t, q, e, ex, leavesOf u, ?_, g1, g2, hr, hx, n, as, rfl, hn⟩
    rw [leaves_tok, leaves_tok, leaves_node, leavesOf, List.append_nil]
  have last : ∀ {f : List Nat} {ns : List (List Nat)} {e : Expr α},
      (∃ n as, s = .funcDef n as (some e) ∧ (funcText ∉ f :: ns → n = f ∧ as = ns)) → funcText ∉ f :: ns → r = some (.funcDef f ns e) := by
    rintro f ns e ⟨n, as, rfl, hn⟩ hx
    obtain ⟨rfl, rfl⟩ := hn hx
    cases h3
    rfl
  rcases word_func hw with rfl | ⟨L, hL, rfl⟩
  · obtain ⟨f, its, rfl, e1, e2, hi⟩ := tok_items hi
    obtain ⟨l, its, rfl, e3, e4, hi⟩ := tok_items hi
    obtain ⟨k1, k2, k3⟩ := name_of e1 e2
    have g := sign_of 5 '(' e3 e4
    rw [items_tok] at h2
    obtain ⟨s1, h4, h2⟩ := h2
    rw [items_tok] at h2
    obtain ⟨s2, h5, h2⟩ := h2
    obtain ⟨r', q, e, ex, ts, j1, j2, j3, j4, j5, j6⟩ := fin (header_sign (header_first k2 h4) (sign_name g e4).1 h5) hi
      (fun i st u hi => hg i st u (by simp [hi])) h2
    refine ⟨f.content, [], e, ex, last j6, j4, ?_⟩
    rw [leaves_tok, leaves_tok, j1]
    exact .define0 k1 g j2 j3 j5
  · obtain ⟨f, its, rfl, e1, e2, hi⟩ := tok_items hi
    obtain ⟨l, its, rfl, e3, e4, hi⟩ := tok_items hi
    obtain ⟨a, its, rfl, e5, e6, hi⟩ := tok_items hi
    obtain ⟨k1, k2, k3⟩ := name_of e1 e2
    obtain ⟨k4, k5, -⟩ := name_of e5 e6
    have g := sign_of 5 '(' e3 e4
    rw [items_tok] at h2
    obtain ⟨s1, h4, h2⟩ := h2
    rw [items_tok] at h2
    obtain ⟨s2, h5, h2⟩ := h2
    rw [items_tok] at h2
    obtain ⟨s3, h6, h2⟩ := h2
    obtain ⟨ns', x, y, s4, rfl, i1, i2, i3, i4, i5⟩ := names_rest L hL hi k3
      (header_name k3 (header_sign (header_first k2 h4) (sign_name g e4).1 h5) k5 h6) (.one k4) h2
    obtain ⟨r', q, e, ex, ts, j1, j2, j3, j4, j5, j6⟩ := fin i2 i1
      (fun i st u hi => hg i st u (by simp [hi])) i5
    refine ⟨f.content, ns', e, ex, last j6, j4, ?_⟩
    rw [leaves_tok, leaves_tok, leaves_tok, leaves_append, j1]
    have := IsCmd.define k1 g i3 j2 j3 j5
    simpa using this

theorem step_good (hA : Lawful A) {upper : List Nat → List Nat} {i : Nat} {w : List Sym} (hw : Word i w) {items : List Item}
    (hi : List.Forall₂ (ItemIs upper) w items) (hg : AllGood A num items) {st : Option Token} {r : Option (Expr α)}
    (h : (hooks A num).node i st items = .ok r) : Good A num i (leavesOf items) r := by
  match i, hw, h with
  | 0, _, _ => trivial
  | 1, hw, h => exact step_expr hA hw hi hg h
  | 2, hw, h => exact step_assign hw hi hg h
  | 3, hw, h => exact step_func hw hi hg h
  | 4, hw, h => exact step_pro hA hw hi hg h
  | 5, hw, h => exact step_pow hA hw hi hg h
  | 6, hw, h => exact step_value hw hi hg h
  | 7, hw, h => exact step_call hw hi hg h
  | n + 8, hw, h => exact absurd (word_bound hw) (by omega)

theorem bodies_noEoi : ∀ c ∈ bodies, NoEoi c := by
  intro c hc
  simp only [bodies, List.mem_cons, List.not_mem_nil, or_false] at hc
  rcases hc with rfl | rfl | rfl | rfl | rfl | rfl | rfl | rfl <;>
    simp [NoEoi, NoEois, nameTok, numberTok, lParen, rParen, comma, equals, minus, plus, times, divide, caret]

theorem word_noEoi {i : Nat} {w : List Sym} (h : Word i w) : ∀ x ∈ w, x ≠ Sym.eoi := by
  obtain ⟨c, hc, hw⟩ := h
  rintro x hx rfl
  exact lang_noEoi c (bodies_noEoi c (List.mem_of_getElem? hc)) w hw hx

/-- Results of nodes are good in any described tree. -/
theorem all_good (hA : Lawful A) {upper : List Nat → List Nat} {w : List Sym} {items : List Item}
    (h : Spells (Stands grammar upper) (fun t => grammar.isSideType t.type = true) Word w items) (hl : ∀ t ∈ leavesOf items, Lexed t) :
    AllGood A num items := by
  induction h with
  | nil => intro i st u hm; simp at hm
  | side _ _ ih =>
    intro i st u hm
    simp only [List.mem_cons, reduceCtorEq, false_or] at hm
    exact ih (fun t ht => hl t (by rw [leaves_tok]; simp [ht])) i st u hm
  | tok _ _ ih =>
    intro i st u hm
    simp only [List.mem_cons, reduceCtorEq, false_or] at hm
    exact ih (fun t ht => hl t (by rw [leaves_tok]; simp [ht])) i st u hm
  | @node i start u its w items hw hu _ ihu ih =>
    intro j st v hm r hr
    rcases List.mem_cons.mp hm with hm | hm
    · cases hm
      have hl' : ∀ t ∈ leavesOf its, Lexed t := fun t ht => hl t (by rw [leaves_node]; simp [ht])
      exact step_good hA hw (spells_items hu (word_noEoi hw) hl') (ihu hl') hr
    · exact ih (fun t ht => hl t (by rw [leaves_node]; simp [ht])) j st v hm r hr

/-- The expression of the program stands for the command. -/
inductive ReprCmd (A : Arith α) : Expr α → Cmd α → Prop
  | value {e ex} : Repr A e ex → ReprCmd A e (.value ex)
  | assign {x e ex} : Repr A e ex → ReprCmd A (.assignment x e) (.assign x ex)
  | define {f ns e ex} : Repr A e ex → ReprCmd A (.funcDef f ns e) (.define f ns ex)

/-- Names defined by a command. -/
def Cmd.names : Cmd α → List (List Nat)
  | .define f ns _ => f :: ns
  | _ => []

/-- The result of the root node. -/
theorem root_good (hA : Lawful A) {upper : List Nat → List Nat} {w : List Sym} {items : List Item} (hw : Word 0 w)
    (h : Spells (Stands grammar upper) (fun t => grammar.isSideType t.type = true) Word w items) (hl : ∀ t ∈ leavesOf items, Lexed t)
    {st : Option Token} {r : Option (Expr α)} (hr : (hooks A num).node 0 st items = .ok r) :
    ∃ cmd, IsCmd num cmd (leavesOf items) ∧ (funcText ∉ Cmd.names cmd → ∃ e, r = some e ∧ ReprCmd A e cmd) := by
  have hg := all_good (num := num) hA h hl
  have hi := spells_items h (word_noEoi hw) hl
  obtain ⟨n, s, h1, h2, h3⟩ := node_ok.mp hr
  cases h1
  have key : ∀ {k}, w = [.node k] → ∃ st u r1, items = [.node k st u] ∧ (hooks A num).node k st u = .ok r1 ∧ r = r1 ∧
      leavesOf items = leavesOf u := by
    rintro k rfl
    obtain ⟨st1, u, its, rfl, hj⟩ := node_items hi
    cases hj
    rw [items_node] at h2
    obtain ⟨r1, s1, h4, h5, h2⟩ := h2
    rw [items_nil] at h2
    subst h2
    refine ⟨st1, u, r1, rfl, h4, ?_, by rw [leaves_node, leavesOf, List.append_nil]⟩
    cases r1 with
    | none => rw [handleNode] at h5; cases h5
              all_goals simp
    | some e => rw [handleNode] at h5; cases h5; cases h3; rfl
  rcases word_root hw with e | e | e
  · obtain ⟨st1, u, r1, rfl, k1, rfl, k2⟩ := key e
    obtain ⟨e, ex, rfl, hr, hx⟩ := hg 1 _ _ (by simp) _ k1
    rw [k2]
    exact ⟨_, .value hx, fun _ => ⟨e, rfl, .value hr⟩⟩
  · obtain ⟨st1, u, r1, rfl, k1, rfl, k2⟩ := key e
    obtain ⟨x, e, ex, rfl, hr, hx⟩ := hg 2 _ _ (by simp) _ k1
    rw [k2]
    exact ⟨_, hx, fun _ => ⟨_, rfl, .assign hr⟩⟩
  · obtain ⟨st1, u, r1, rfl, k1, rfl, k2⟩ := key e
    obtain ⟨f, ns, e, ex, h4, hr, hx⟩ := hg 3 _ _ (by simp) _ k1
    rw [k2]
    exact ⟨_, hx, fun hn => ⟨_, h4 hn, .define hr⟩⟩

end Verif.Proof.Calc
