/-
The configuration editor: documents made by the parser.
-/
import Verif.Spec.ConfFile
import Verif.Proof.ConfLoad
import Verif.Proof.CutsPart
import Verif.Proof.StyleParse
import Verif.Props.ConfTables
import Verif.Props.TreeHook

namespace Verif.Proof.Conf

open Verif Verif.Model Verif.Model.ConfEdit Verif.Spec Verif.Spec.Ebnf Verif.Spec.Conf Verif.Props Verif.Props.Conf Verif.Proof
open Verif.Proof.Style (seq_cons lang_plain lang_tok lang_node lang_variant)

/-! Nodes do not begin with side tokens -/

/-- No node begins with a side token. -/
inductive Fronts (g : Grammar) : Spec.Item → Prop
  | tok {t} : Fronts g (.tok t)
  | node {index start items} : Front g items → (∀ x ∈ items, Fronts g x) → Fronts g (.node index start items)

theorem walk_fronts {g : Grammar} {P : Option Token → Int → Rule → Prop}
    (hP : ∀ start s r, P start s r → 0 ≤ r.node → ∃ t, start = some t ∧ g.isSideType t.type = false)
    {s s' : Int} {items : List Spec.Item} (h : Walk g P s items s') (ht : ∀ x ∈ items, Tidy g x) : ∀ x ∈ items, Fronts g x := by
  induction h with
  | nil => intro x hx; cases hx
  | skip _ _ _ _ ih => exact ih ht
  | onSide _ _ _ _ ih => exact ih ht
  | side _ _ ih =>
    intro x hx
    rcases List.mem_append.mp hx with hx | hx
    · exact ih (fun x hx => ht x (by simp [hx])) x hx
    · rw [List.mem_singleton.mp hx]; exact .tok
  | tok _ _ _ _ ih =>
    intro x hx
    rcases List.mem_append.mp hx with hx | hx
    · exact ih (fun x hx => ht x (by simp [hx])) x hx
    · rw [List.mem_singleton.mp hx]; exact .tok
  | @node _ _ _ start r its index first _ hp hr _ _ ih1 ih2 =>
    intro x hx
    rcases List.mem_append.mp hx with hx | hx
    · exact ih1 (fun x hx => ht x (by simp [hx])) x hx
    · rw [List.mem_singleton.mp hx]
      have h1 := ht (.node index start its) (by simp)
      cases h1 with
      | node h2 h3 h4 =>
        obtain ⟨t, rfl, h5⟩ := hP _ _ _ hp (by omega)
        exact .node (h2 t rfl h5) (ih2 h4)

theorem conf_enters (upper : List Nat → List Nat) (start : Option Token) (s : Int) (r : Rule)
    (h : ∃ rules, findRules grammar upper start s = some rules ∧ r ∈ rules) (hn : 0 ≤ r.node) : ∃ t, start = some t ∧ grammar.isSideType t.type = false := by
  obtain ⟨rules, h1, h2⟩ := h
  rw [findRules, Option.bind_eq_some_iff] at h1
  obtain ⟨st, h3, h1⟩ := h1
  cases start with
  | some t =>
    refine ⟨t, rfl, ?_⟩
    dsimp only at h1
    split at h1
    · cases h1
      rw [List.mem_singleton] at h2
      subst h2
      simp [sameNode] at hn
    · rename_i hs
      simpa using hs
  | none =>
    exfalso
    simp only [possibleRuleKeys, Option.bind_some] at h1
    have hm : st ∈ grammar.tables.states := by
      unfold Go.index at h3
      split at h3
      · exact List.mem_of_getElem? h3
      · cases h3
    have key : ∀ st ∈ grammar.tables.states, (findRulesBy grammar.tables st [anyToken]).all (·.all (·.node < 0)) = true := by decide +kernel
    have := key st hm
    rw [h1] at this
    simp only [Option.all_some, List.all_eq_true, decide_eq_true_eq] at this
    have := this r h2
    omega

/-! Names of types -/

/-- Names of token types; literals are signs. -/
def tokenName (k : Nat) : String :=
  ["space", "comment", "nl", "sec-name", "name", "op", "value", "op", "op", "op"].getD k ""

/-- The token was made by a lexer. -/
def Named (t : Token) : Prop := ∃ i : Nat, i < 7 ∧ t.type = (i : Int) ∧ t.typeName = tokenName i

theorem cuts_named {re : List Nat → Option Matcher} {l l' : SrcList.State Src} {toks : List Token} (h : Cuts re tokens l toks l') :
    ∀ t ∈ toks, t.type ≠ eofTokenType → Named t := by
  induction h with
  | nil => intro t ht; cases ht
  | @tok src p k i n gt rest l toks h1 h2 h3 h4 h5 ih =>
    intro t ht hne
    rcases List.mem_cons.mp ht with rfl | ht
    · obtain ⟨-, ⟨t1, r1, m1, h6, h7, -, -⟩, -⟩ := h2
      rw [h4] at h6
      cases h6
      have hi : i < 10 := by simpa [tokens] using (List.getElem?_eq_some_iff.mp h4).1
      have key : ∀ i < 10, ∀ gt, tokens[i]? = some gt → gt.re ≠ none → i < 7 ∧ nameString gt.name = tokenName i := by
        have : ∀ i < 10, (tokens[i]?).all (fun gt => decide (gt.re ≠ none → i < 7 ∧ nameString gt.name = tokenName i)) = true := by decide +kernel
        intro i hi gt hg
        have h := this i hi
        rw [hg] at h
        simpa only [Option.all_some, decide_eq_true_eq] using h
      obtain ⟨h8, h9⟩ := key i hi gt h4 (by rw [h7]; simp)
      exact ⟨i, h8, rfl, h9⟩
    · exact ih t ht hne
  | eof _ ih =>
    intro t ht hne
    rcases List.mem_cons.mp ht with rfl | ht
    · exact absurd rfl hne
    · exact ih t ht hne

theorem named_matches {upper : List Nat → List Nat} {t : Token} (ht : Named t) {k : Nat} (h : MatchesAs grammar upper t k) : t.typeName = tokenName k := by
  obtain ⟨i, hi, h1, h2⟩ := ht
  rw [h2]
  rcases h with ⟨-, tt, lt, h3, h4, h5, h6, -⟩ | ⟨h3, -⟩
  · rw [h1, Int.toNat_natCast] at h3
    have key1 : ∀ i < 7, (tokens[i]?).all (fun tt => decide (tt.flags.noLiterals = false → i = 5)) = true := by decide +kernel
    have h7 := key1 i hi
    rw [show tokens[i]? = some tt from h3] at h7
    have h7 : i = 5 := by
      have : tt.flags.noLiterals = false → i = 5 := by simpa only [Option.all_some, decide_eq_true_eq] using h7
      exact this h4
    subst h7
    have hk : k < 10 := by
      have := (List.getElem?_eq_some_iff.mp h5).1
      simpa [grammar, tokens] using this
    have key2 : ∀ k < 10, (tokens[k]?).all (fun tt => decide (tt.flags.literal = true → tokenName k = "op")) = true := by decide +kernel
    have h8 := key2 k hk
    rw [show tokens[k]? = some lt from h5] at h8
    have h8 : tokenName k = "op" := by
      have : lt.flags.literal = true → tokenName k = "op" := by simpa only [Option.all_some, decide_eq_true_eq] using h8
      exact this h6
    rw [h8]
    rfl
  · rw [h1] at h3
    rw [Int.natCast_inj.mp h3]

theorem named_side {t : Token} (ht : Named t) (h : grammar.isSideType t.type = true) : t.typeName = "space" ∨ t.typeName = "comment" := by
  obtain ⟨i, hi, h1, h2⟩ := ht
  rw [h1] at h
  rw [h2]
  have key : ∀ i : Nat, i < 7 → grammar.isSideType (i : Int) = true → tokenName i = "space" ∨ tokenName i = "comment" := by decide +kernel
  exact key i hi h

/-! Words of nodes -/

/-- Items of a node from the description. -/
def Words (i : Nat) (w : List Sym) : Prop := ∃ c, bodies[i]? = some c ∧ w ∈ lang c

theorem lang_lines {w : List Sym} (h : w ∈ lang ConfEdit.lines) : ∀ s ∈ w, s = .node 3 ∨ s = .node 4 := by
  simp only [ConfEdit.lines, lang, if_true, Language.mem_kstar] at h
  obtain ⟨L, rfl, hL⟩ := h
  intro s hs
  obtain ⟨u, hu, hs⟩ := List.mem_flatten.mp hs
  obtain ⟨x, hx, v, hv, rfl⟩ := seq_cons (hL u hu)
  have hv : v = [] := by simpa [langSeq] using hv
  subst hv
  rcases lang_variant hx with rfl | rfl <;> simp_all

theorem lang_opt {c : Chunk} {w : List Sym} (h : w ∈ lang (.group [c] true false)) : w = [] ∨ w ∈ lang c := by
  simp only [lang, Bool.false_eq_true, if_false, if_true, langSeq, mul_one, Language.mem_add] at h
  rcases h with h | h
  · exact .inl h
  · exact .inr h

theorem words_root {w : List Sym} (h : Words 0 w) : ∀ s ∈ w, s = .node 1 ∨ s = .node 2 := by
  obtain ⟨c, hc, hw⟩ := h
  simp only [bodies, List.getElem?_cons_zero, List.getElem?_cons_succ, Option.some.injEq] at hc
  subst hc
  obtain ⟨u, hu, v, hv, rfl⟩ := seq_cons (lang_plain hw)
  obtain ⟨v1, hv1, v2, hv2, rfl⟩ := seq_cons hv
  have hv2 : v2 = [] := by simpa [langSeq] using hv2
  subst hv2
  simp only [lang, if_true, Language.mem_kstar, langSeq, mul_one] at hv1
  obtain ⟨L, rfl, hL⟩ := hv1
  intro s hs
  rcases List.mem_append.mp hs with hs | hs
  · rcases lang_opt hu with rfl | hu
    · cases hs
    · rw [lang_node hu] at hs; simp_all
  · rw [List.append_nil] at hs
    obtain ⟨x, hx, hs⟩ := List.mem_flatten.mp hs
    have : x = [.node 2] := hL x hx
    simp_all

theorem words_default {w : List Sym} (h : Words 1 w) : ∀ s ∈ w, s = .node 3 ∨ s = .node 4 := by
  obtain ⟨c, hc, hw⟩ := h
  simp only [bodies, List.getElem?_cons_zero, List.getElem?_cons_succ, Option.some.injEq] at hc
  subst hc
  obtain ⟨u, hu, v, hv, rfl⟩ := seq_cons (lang_plain hw)
  obtain ⟨v1, hv1, v2, hv2, rfl⟩ := seq_cons hv
  have hv2 : v2 = [] := by simpa [langSeq] using hv2
  subst hv2
  intro s hs
  rcases List.mem_append.mp hs with hs | hs
  · rcases lang_variant hu with rfl | rfl <;> simp_all
  · exact lang_lines hv1 s (by simpa using hs)

theorem words_section {w : List Sym} (h : Words 2 w) : ∃ v, w = .node 5 :: v ∧ ∀ s ∈ v, s = .node 3 ∨ s = .node 4 := by
  obtain ⟨c, hc, hw⟩ := h
  simp only [bodies, List.getElem?_cons_zero, List.getElem?_cons_succ, Option.some.injEq] at hc
  subst hc
  obtain ⟨u, hu, v, hv, rfl⟩ := seq_cons (lang_plain hw)
  obtain ⟨v1, hv1, v2, hv2, rfl⟩ := seq_cons hv
  have hv2 : v2 = [] := by simpa [langSeq] using hv2
  subst hv2
  rw [lang_node hu]
  exact ⟨v1 ++ [], rfl, fun s hs => lang_lines hv1 s (by simpa using hs)⟩

theorem words_entry {w : List Sym} (h : Words 3 w) : ∃ v, w = .tok 4 :: .tok 7 :: v ∧ (v = [] ∨ v = [.tok 2] ∨ v = [.tok 6] ∨ v = [.tok 6, .tok 2]) := by
  obtain ⟨c, hc, hw⟩ := h
  simp only [bodies, List.getElem?_cons_zero, List.getElem?_cons_succ, Option.some.injEq] at hc
  subst hc
  obtain ⟨u1, h1, v1, hv1, rfl⟩ := seq_cons (lang_plain hw)
  obtain ⟨u2, h2, v2, hv2, rfl⟩ := seq_cons hv1
  obtain ⟨u3, h3, v3, hv3, rfl⟩ := seq_cons hv2
  obtain ⟨u4, h4, v4, hv4, rfl⟩ := seq_cons hv3
  have hv : v4 = [] := by simpa [langSeq] using hv4
  subst hv
  rw [lang_tok h1, lang_tok h2]
  refine ⟨u3 ++ u4, by simp, ?_⟩
  rcases lang_opt h3 with rfl | h3
  · rcases lang_opt h4 with rfl | h4
    · simp
    · rw [lang_tok h4]; simp
  · rw [lang_tok h3]
    rcases lang_opt h4 with rfl | h4
    · simp
    · rw [lang_tok h4]; simp

theorem words_sep {w : List Sym} (h : Words 4 w) : w = [.tok 2] := by
  obtain ⟨c, hc, hw⟩ := h
  simp only [bodies, List.getElem?_cons_zero, List.getElem?_cons_succ, Option.some.injEq] at hc
  subst hc
  obtain ⟨u, hu, v, hv, rfl⟩ := seq_cons (lang_plain hw)
  have hv : v = [] := by simpa [langSeq] using hv
  subst hv
  rw [lang_tok hu]; rfl

theorem words_header {w : List Sym} (h : Words 5 w) : w = [.tok 8, .tok 3, .tok 9, .tok 2] := by
  obtain ⟨c, hc, hw⟩ := h
  simp only [bodies, List.getElem?_cons_zero, List.getElem?_cons_succ, Option.some.injEq] at hc
  subst hc
  obtain ⟨u1, h1, v1, hv1, rfl⟩ := seq_cons (lang_plain hw)
  obtain ⟨u2, h2, v2, hv2, rfl⟩ := seq_cons hv1
  obtain ⟨u3, h3, v3, hv3, rfl⟩ := seq_cons hv2
  obtain ⟨u4, h4, v4, hv4, rfl⟩ := seq_cons hv3
  have hv : v4 = [] := by simpa [langSeq] using hv4
  subst hv
  rw [lang_tok h1, lang_tok h2, lang_tok h3, lang_tok h4]; rfl

/-! Parse trees -/

/-- What the word of a node says about a token. -/
def Rel (x : Sym) (t : Token) : Prop := ∃ k, x = .tok k ∧ t.typeName = tokenName k

/-- Side tokens. -/
def Side (t : Token) : Prop := (t.typeName = "space" ∨ t.typeName = "comment") ∧ grammar.isSideType t.type = true

theorem spells_imp {rel rel' : Sym → Token → Prop} {side side' : Token → Prop} {L : Nat → List Sym → Prop} {w : List Sym} {items : List Spec.Item}
    (h : Spells rel side L w items) : (∀ t ∈ leavesOf items, ∀ x, rel x t → rel' x t) → (∀ t ∈ leavesOf items, side t → side' t) →
    Spells rel' side' L w items := by
  induction h with
  | nil => intro _ _; exact .nil
  | side hs _ ih =>
    intro h1 h2
    simp only [leavesOf, Spec.Item.leaves, List.mem_append, List.mem_singleton] at h1 h2
    exact .side (h2 _ (.inl rfl) hs) (ih (fun t ht => h1 t (.inr ht)) (fun t ht => h2 t (.inr ht)))
  | tok hx _ ih =>
    intro h1 h2
    simp only [leavesOf, Spec.Item.leaves, List.mem_append, List.mem_singleton] at h1 h2
    exact .tok (h1 _ (.inl rfl) _ hx) (ih (fun t ht => h1 t (.inr ht)) (fun t ht => h2 t (.inr ht)))
  | node hL _ _ ih1 ih2 =>
    intro h1 h2
    simp only [leavesOf, Spec.Item.leaves, List.mem_append] at h1 h2
    exact .node hL (ih1 (fun t ht => h1 t (.inl ht)) (fun t ht => h2 t (.inl ht))) (ih2 (fun t ht => h1 t (.inr ht)) (fun t ht => h2 t (.inr ht)))

variable {w : List Sym} {items : List Spec.Item}

/-- Every item is a side token or what a symbol of the word says. -/
theorem spells_item (h : Spells Rel Side Words w items) : ∀ x ∈ items, (∃ t, x = .tok t ∧ (Side t ∨ ∃ k, .tok k ∈ w ∧ t.typeName = tokenName k)) ∨
    ∃ i st its u, x = .node i st its ∧ .node i ∈ w ∧ Words i u ∧ Spells Rel Side Words u its := by
  induction h with
  | nil => intro x hx; cases hx
  | side hs _ ih =>
    intro x hx
    rcases List.mem_cons.mp hx with rfl | hx
    · exact .inl ⟨_, rfl, .inl hs⟩
    · exact ih x hx
  | tok hr _ ih =>
    intro x hx
    rcases List.mem_cons.mp hx with rfl | hx
    · obtain ⟨k, rfl, hk⟩ := hr
      exact .inl ⟨_, rfl, .inr ⟨k, by simp, hk⟩⟩
    · rcases ih x hx with ⟨t, rfl, h | ⟨k, h1, h2⟩⟩ | ⟨i, st, its, u, rfl, h1, h2⟩
      · exact .inl ⟨t, rfl, .inl h⟩
      · exact .inl ⟨t, rfl, .inr ⟨k, List.mem_cons_of_mem _ h1, h2⟩⟩
      · exact .inr ⟨i, st, its, u, rfl, List.mem_cons_of_mem _ h1, h2⟩
  | node hL h1 _ _ ih =>
    intro x hx
    rcases List.mem_cons.mp hx with rfl | hx
    · exact .inr ⟨_, _, _, _, rfl, by simp, hL, h1⟩
    · rcases ih x hx with ⟨t, rfl, h | ⟨k, h1, h2⟩⟩ | ⟨i, st, its, u, rfl, h1, h2⟩
      · exact .inl ⟨t, rfl, .inl h⟩
      · exact .inl ⟨t, rfl, .inr ⟨k, List.mem_cons_of_mem _ h1, h2⟩⟩
      · exact .inr ⟨i, st, its, u, rfl, List.mem_cons_of_mem _ h1, h2⟩

/-- Every symbol of the word has an item. -/
theorem spells_sym (h : Spells Rel Side Words w items) : (∀ k, .tok k ∈ w → ∃ t, .tok t ∈ items ∧ t.typeName = tokenName k) ∧
    ∀ i, .node i ∈ w → ∃ st its u, .node i st its ∈ items ∧ Words i u ∧ Spells Rel Side Words u its := by
  induction h with
  | nil => simp
  | side hs _ ih =>
    refine ⟨fun k hk => ?_, fun i hi => ?_⟩
    · obtain ⟨t, h1, h2⟩ := ih.1 k hk
      exact ⟨t, List.mem_cons_of_mem _ h1, h2⟩
    · obtain ⟨st, its, u, h1, h2⟩ := ih.2 i hi
      exact ⟨st, its, u, List.mem_cons_of_mem _ h1, h2⟩
  | tok hr _ ih =>
    obtain ⟨k0, rfl, hk0⟩ := hr
    refine ⟨fun k hk => ?_, fun i hi => ?_⟩
    · rcases List.mem_cons.mp hk with hk | hk
      · cases hk
        exact ⟨_, List.mem_cons_self .., hk0⟩
      · obtain ⟨t, h1, h2⟩ := ih.1 k hk
        exact ⟨t, List.mem_cons_of_mem _ h1, h2⟩
    · rcases List.mem_cons.mp hi with hi | hi
      · cases hi
      · obtain ⟨st, its, u, h1, h2⟩ := ih.2 i hi
        exact ⟨st, its, u, List.mem_cons_of_mem _ h1, h2⟩
  | node hL h0 _ _ ih =>
    refine ⟨fun k hk => ?_, fun i hi => ?_⟩
    · rcases List.mem_cons.mp hk with hk | hk
      · cases hk
      · obtain ⟨t, h1, h2⟩ := ih.1 k hk
        exact ⟨t, List.mem_cons_of_mem _ h1, h2⟩
    · rcases List.mem_cons.mp hi with hi | hi
      · cases hi
        exact ⟨_, _, _, List.mem_cons_self .., hL, h0⟩
      · obtain ⟨st, its, u, h1, h2⟩ := ih.2 i hi
        exact ⟨st, its, u, List.mem_cons_of_mem _ h1, h2⟩

/-- Tokens of a node without nested nodes. -/
theorem spells_leaf (h : Spells Rel Side Words w items) (hw : ∀ s ∈ w, ∃ k, s = .tok k) :
    ∃ ts : List Token, items = ts.map .tok ∧ leavesOf items = ts ∧ (∀ t ∈ ts, Side t ∨ ∃ k, .tok k ∈ w ∧ t.typeName = tokenName k) := by
  induction h with
  | nil => exact ⟨[], rfl, rfl, by simp⟩
  | @side t _ _ hs _ ih =>
    obtain ⟨ts, rfl, h2, h3⟩ := ih hw
    refine ⟨t :: ts, rfl, by simp [leavesOf, Spec.Item.leaves, h2], fun t' ht => ?_⟩
    rcases List.mem_cons.mp ht with rfl | ht
    · exact .inl hs
    · exact h3 t' ht
  | @tok x t _ _ hr _ ih =>
    obtain ⟨k0, rfl, hk0⟩ := hr
    obtain ⟨ts, rfl, h2, h3⟩ := ih (fun s hs => hw s (List.mem_cons_of_mem _ hs))
    refine ⟨t :: ts, rfl, by simp [leavesOf, Spec.Item.leaves, h2], fun t' ht => ?_⟩
    rcases List.mem_cons.mp ht with rfl | ht
    · exact .inr ⟨k0, by simp, hk0⟩
    · rcases h3 t' ht with h | ⟨k, h4, h5⟩
      · exact .inl h
      · exact .inr ⟨k, List.mem_cons_of_mem _ h4, h5⟩
  | node _ _ _ _ _ =>
    obtain ⟨k, hk⟩ := hw _ (List.mem_cons_self ..)
    cases hk

/-- There are no more tokens with a name than symbols with it. -/
theorem spells_count (h : Spells Rel Side Words w items) (hw : ∀ s ∈ w, ∃ k, s = .tok k) (nm : String) (hs : nm ≠ "space" ∧ nm ≠ "comment") :
    (((leavesOf items).map tokOf).filter (·.type = nm)).length ≤ (w.filter fun s => match s with | .tok k => tokenName k = nm | _ => false).length := by
  induction h with
  | nil => simp [leavesOf]
  | @side t _ _ hsd _ ih =>
    simp only [leavesOf, Spec.Item.leaves, List.singleton_append, List.map_cons]
    rw [List.filter_cons_of_neg]
    · exact ih hw
    · rw [decide_eq_true_eq]
      show ¬ t.typeName = nm
      rcases hsd.1 with h | h
      · rw [h]; exact fun e => hs.1 e.symm
      · rw [h]; exact fun e => hs.2 e.symm
  | @tok x t _ _ hr _ ih =>
    obtain ⟨k0, rfl, hk0⟩ := hr
    have ih := ih (fun s hs => hw s (List.mem_cons_of_mem _ hs))
    simp only [leavesOf, Spec.Item.leaves, List.singleton_append, List.map_cons, List.filter_cons, tokOf, hk0]
    by_cases e : tokenName k0 = nm
    · simp only [e, decide_true, if_true, List.length_cons]
      simpa [tokOf] using ih
    · simp only [e, decide_false, Bool.false_eq_true, if_false]
      simpa [tokOf] using ih
  | node _ _ _ _ _ =>
    obtain ⟨k, hk⟩ := hw _ (List.mem_cons_self ..)
    cases hk

theorem tokens_of_entry {v : List Sym} (hv : v = [] ∨ v = [.tok 2] ∨ v = [.tok 6] ∨ v = [.tok 6, .tok 2]) :
    ∀ s ∈ (.tok 7 :: v : List Sym), ∃ k, s = .tok k ∧ k ∈ [2, 6, 7] := by
  rcases hv with rfl | rfl | rfl | rfl <;> simp

theorem no_secName {ts : List Token} {w : List Sym} (h : ∀ t ∈ ts, Side t ∨ ∃ k, .tok k ∈ w ∧ t.typeName = tokenName k)
    (hw : ∀ s ∈ w, ∃ k, s = .tok k ∧ k ∈ [2, 4, 6, 7]) : ∀ t ∈ ts.map tokOf, t.type ≠ "sec-name" := by
  intro t ht
  obtain ⟨t', ht', rfl⟩ := List.mem_map.mp ht
  simp only [tokOf]
  rcases h t' ht' with ⟨h | h, -⟩ | ⟨k, h1, h2⟩
  · rw [h]; decide
  · rw [h]; decide
  · obtain ⟨k', e, h3⟩ := hw _ h1
    cases e
    rw [h2]
    have key : ∀ k ∈ [2, 4, 6, 7], tokenName k ≠ "sec-name" := by decide
    exact key k h3

/-- A part of a section. -/
theorem part_good {i : Nat} {st : Option Token} {its : List Spec.Item} {u : List Sym} (hi : i = 3 ∨ i = 4 ∨ i = 5) (hu : Words i u)
    (h : Spells Rel Side Words u its) (hf : Front grammar its) : (partOf names (.node i st its)).Good ∧ ∃ ts : List Token, its = ts.map .tok := by
  rcases hi with rfl | rfl | rfl
  · obtain ⟨v, rfl, hv⟩ := words_entry hu
    have ht := tokens_of_entry hv
    obtain ⟨ts, h1, h2, h3⟩ := spells_leaf h (by
      intro s hs
      rcases List.mem_cons.mp hs with rfl | hs
      · exact ⟨_, rfl⟩
      · obtain ⟨k, rfl, -⟩ := ht s hs; exact ⟨k, rfl⟩)
    refine ⟨?_, ts, h1⟩
    refine .inr ⟨.inr ⟨rfl, ?_⟩, ?_⟩
    · cases h with
      | side hs _ => exact absurd hs.2 (by rw [hf _ _ rfl]; simp)
      | @tok x t w' its' hr hrest =>
        obtain ⟨k, e, hk⟩ := hr
        cases e
        refine ⟨t.content, (leavesOf its').map tokOf, ?_, ?_, ?_⟩
        · simp only [leavesOf, Spec.Item.leaves, List.singleton_append, List.map_cons, List.cons.injEq, and_true]
          rw [tokOf, hk]
          rfl
        · obtain ⟨t', h4, h5⟩ := (spells_sym hrest).1 7 (by simp)
          refine ⟨tokOf t', List.mem_map_of_mem ?_, h5⟩
          rw [leavesOf_flatMap]
          exact List.mem_flatMap.mpr ⟨_, h4, by simp [Spec.Item.leaves]⟩
        · refine le_trans (spells_count hrest (fun s hs => by obtain ⟨k, e, -⟩ := ht s hs; exact ⟨k, e⟩) "value" (by decide)) ?_
          rcases hv with rfl | rfl | rfl | rfl <;> decide
    · rw [h2]
      refine no_secName h3 ?_
      intro s hs
      rcases List.mem_cons.mp hs with rfl | hs
      · exact ⟨4, rfl, by decide⟩
      · obtain ⟨k, rfl, hk⟩ := ht s hs
        exact ⟨k, rfl, by revert hk; clear hs; simp; omega⟩
  · have := words_sep hu
    subst this
    obtain ⟨ts, h1, h2, h3⟩ := spells_leaf h (by simp)
    refine ⟨.inr ⟨.inl rfl, ?_⟩, ts, h1⟩
    rw [h2]
    exact no_secName h3 (by simp)
  · have := words_header hu
    subst this
    obtain ⟨ts, h1, h2, h3⟩ := spells_leaf h (by simp)
    exact ⟨.inl rfl, ts, h1⟩

/-- Documents made of described items. -/
theorem doc_good (hw : Words 0 w) (h : Spells Rel Side Words w items)
    (hf : ∀ x ∈ items, Fronts grammar x) : (docOf names items).Good ∧
      ∀ x ∈ items, ∀ i st its, x = .node i st its → ∀ y ∈ its, ∀ j st' js, y = .node j st' js → ∃ ts : List Token, js = ts.map .tok := by
  have side_part : ∀ t : Token, Side t → (partOf names (.tok t)).Good := by
    rintro t ⟨h | h, -⟩ <;> (simp only [partOf, Part.Good, tokOf]; rw [h]; decide)
  have key : ∀ x ∈ items, (itemOf names x).Good ∧ ∀ i st its, x = .node i st its → ∀ y ∈ its, ∀ j st' js, y = .node j st' js →
      ∃ ts : List Token, js = ts.map .tok := by
    intro x hx
    rcases spells_item h x hx with ⟨t, rfl, h1⟩ | ⟨i, st, its, u, rfl, h1, h2, h3⟩
    · refine ⟨?_, by intro i st its e; cases e⟩
      rcases h1 with ⟨h1 | h1, -⟩ | ⟨k, h1, -⟩
      · simp only [itemOf, Item.Good, tokOf]; rw [h1]; decide
      · simp only [itemOf, Item.Good, tokOf]; rw [h1]; decide
      · rcases words_root hw _ h1 with e | e <;> cases e
    · have hfx := hf _ hx
      cases hfx with
      | node hfr hfs =>
      have hparts : ∀ y ∈ its, (∀ j st' js, y = .node j st' js → .node j ∈ u → j = 3 ∨ j = 4 ∨ j = 5) → (∀ k, .tok k ∉ u) →
          (partOf names y).Good ∧ ∀ j st' js, y = .node j st' js → ∃ ts : List Token, js = ts.map .tok := by
        intro y hy hj hk
        rcases spells_item h3 y hy with ⟨t, rfl, h4⟩ | ⟨j, st', js, v, rfl, h4, h5, h6⟩
        · refine ⟨?_, by intro i st its e; cases e⟩
          rcases h4 with h4 | ⟨k, h4, -⟩
          · exact side_part t h4
          · exact absurd h4 (hk k)
        · have hfy := hfs _ hy
          cases hfy with
          | node hfr' _ =>
          obtain ⟨h7, h8⟩ := part_good (st := st') (hj _ _ _ rfl h4) h5 h6 hfr'
          exact ⟨h7, by rintro _ _ _ ⟨⟩; exact h8⟩
      rcases words_root hw _ h1 with e | e
      · cases e
        have hu := words_default h2
        have hall : ∀ y ∈ its, _ := fun y hy => hparts y hy
          (by intro j st' js _ hm; rcases hu _ hm with e | e <;> cases e <;> simp)
          (by intro k hm; rcases hu _ hm with e | e <;> cases e)
        refine ⟨⟨.inl rfl, ?_⟩, ?_⟩
        · intro p hp
          obtain ⟨y, hy, rfl⟩ := List.mem_map.mp hp
          exact (hall y hy).1
        · rintro _ _ _ ⟨⟩ y hy
          exact (hall y hy).2
      · cases e
        obtain ⟨v, rfl, hu⟩ := words_section h2
        have hall : ∀ y ∈ its, _ := fun y hy => hparts y hy
          (by
            intro j st' js _ hm
            rcases List.mem_cons.mp hm with e | hm
            · cases e; simp
            · rcases hu _ hm with e | e <;> cases e <;> simp)
          (by
            intro k hm
            rcases List.mem_cons.mp hm with e | hm
            · cases e
            · rcases hu _ hm with e | e <;> cases e)
        refine ⟨⟨.inr ⟨rfl, ?_⟩, ?_⟩, ?_⟩
        · obtain ⟨st', js, v', h4, h5, h6⟩ := (spells_sym h3).2 5 (by simp)
          have := words_header h5
          subst this
          obtain ⟨t, h7, h8⟩ := (spells_sym h6).1 3 (by simp)
          refine ⟨tokOf t, ?_, h8⟩
          rw [List.flatMap_map, List.mem_flatMap]
          refine ⟨_, h4, ?_⟩
          rw [partOf_toks]
          refine List.mem_map_of_mem ?_
          rw [Spec.Item.leaves, leavesOf_flatMap]
          exact List.mem_flatMap.mpr ⟨_, h7, by simp [Spec.Item.leaves]⟩
        · intro p hp
          obtain ⟨y, hy, rfl⟩ := List.mem_map.mp hp
          exact (hall y hy).1
        · rintro _ _ _ ⟨⟩ y hy
          exact (hall y hy).2
  refine ⟨?_, fun x hx => (key x hx).2⟩
  intro it hit
  obtain ⟨x, hx, rfl⟩ := List.mem_map.mp hit
  exact (key x hx).1

/-! Elements -/

open Verif.Model.Tree (Heap treeHeap Rep)
open Verif.Spec.Trees (Forest)
open Verif.Proof.ConfTree (labels Flat)

theorem lookAt_labels {h : Heap} {x : Nat} {b : Bool} {ty : String} {t : Option Token} (e : lookAt h x = (b, ty, t)) :
    labels h x = ⟨b, ty, (t.map (·.content)).getD []⟩ := by
  simp only [lookAt, Prod.mk.injEq] at e
  obtain ⟨rfl, rfl, rfl⟩ := e
  rfl

theorem built_leaf {h : Heap} : ∀ {ts : List Trees.Tree} {toks : List Token}, builtAll (lookAt h) names ts (toks.map .tok) →
    ts.map (fun t => (labels h t.id).tok) = toks.map tokOf ∧ ∀ t ∈ ts, (h t.id).isNode = false
  | [], [], _ => ⟨rfl, by simp⟩
  | [], _ :: _, hb => by simp [builtAll] at hb
  | _ :: _, [], hb => by simp [builtAll] at hb
  | .node id kids :: ts, t :: toks, hb => by
    simp only [List.map_cons, builtAll, Built] at hb
    obtain ⟨⟨h1, -⟩, h2⟩ := hb
    obtain ⟨h3, h4⟩ := built_leaf h2
    refine ⟨?_, ?_⟩
    · rw [List.map_cons, List.map_cons, h3]
      congr 1
      show (labels h id).tok = _
      rw [lookAt_labels h1]
      rfl
    · intro t' ht
      rcases List.mem_cons.mp ht with rfl | ht
      · simp only [lookAt, Prod.mk.injEq] at h1
        exact h1.1
      · exact h4 t' ht

theorem leavesOf_toks (ts : List Token) : leavesOf (ts.map .tok) = ts := by
  induction ts with
  | nil => rfl
  | cons t ts ih => simp [leavesOf, Spec.Item.leaves, ih]

/-- Nested nodes contain only tokens. -/
def Leafy (x : Spec.Item) : Prop := ∀ j st js, x = .node j st js → ∃ ts : List Token, js = ts.map .tok

theorem built_part {h : Heap} {F : Forest} {T : Trees.Tree} {x : Spec.Item} (hb : Built (lookAt h) names T x) (ho : T.Of F) (hx : Leafy x) :
    partAt (labels h) F T.id = partOf names x ∧ ∀ y ∈ F T.id, (h y).isNode = false := by
  cases T with
  | node id kids =>
    simp only [Trees.Tree.Of] at ho
    cases x with
    | tok t =>
      simp only [Built] at hb
      obtain ⟨h1, rfl⟩ := hb
      refine ⟨?_, by simp [Trees.Tree.id, ho.1]⟩
      simp only [partAt, Trees.Tree.id, lookAt_labels h1]
      rfl
    | node j st js =>
      obtain ⟨ts, rfl⟩ := hx j st js rfl
      simp only [Built] at hb
      obtain ⟨h1, h2⟩ := hb
      obtain ⟨h3, h4⟩ := built_leaf h2
      refine ⟨?_, ?_⟩
      · simp only [partAt, Trees.Tree.id, lookAt_labels h1, if_true, partOf, leavesOf_toks, ho.1, List.map_map, ← h3]
        rfl
      · intro y hy
        simp only [Trees.Tree.id, ho.1] at hy
        obtain ⟨t, ht, rfl⟩ := List.mem_map.mp hy
        exact h4 t ht

theorem built_parts {h : Heap} {F : Forest} : ∀ {ts : List Trees.Tree} {its : List Spec.Item}, builtAll (lookAt h) names ts its → Trees.allOf F ts →
    (∀ x ∈ its, Leafy x) → ts.map (fun t => partAt (labels h) F t.id) = its.map (partOf names) ∧ ∀ t ∈ ts, ∀ y ∈ F t.id, (h y).isNode = false
  | [], [], _, _, _ => ⟨rfl, by simp⟩
  | [], _ :: _, hb, _, _ => by simp [builtAll] at hb
  | _ :: _, [], hb, _, _ => by simp [builtAll] at hb
  | t :: ts, x :: its, hb, ho, hx => by
    simp only [builtAll] at hb
    simp only [Trees.allOf] at ho
    obtain ⟨h1, h2⟩ := built_part hb.1 ho.1 (hx x (by simp))
    obtain ⟨h3, h4⟩ := built_parts hb.2 ho.2 (fun y hy => hx y (by simp [hy]))
    refine ⟨by simp only [List.map_cons, h1, h3], ?_⟩
    intro t' ht
    rcases List.mem_cons.mp ht with rfl | ht
    · exact h2
    · exact h4 t' ht

/-- Parts of the item contain only tokens. -/
def Branchy (x : Spec.Item) : Prop := ∀ j st js, x = .node j st js → ∀ y ∈ js, Leafy y

theorem built_item {h : Heap} {F : Forest} {T : Trees.Tree} {x : Spec.Item} (hb : Built (lookAt h) names T x) (ho : T.Of F) (hx : Branchy x) :
    itemAt (labels h) F T.id = itemOf names x ∧ ∀ y ∈ F T.id, ∀ z ∈ F y, (h z).isNode = false := by
  cases T with
  | node id kids =>
    simp only [Trees.Tree.Of] at ho
    cases x with
    | tok t =>
      simp only [Built] at hb
      obtain ⟨h1, rfl⟩ := hb
      refine ⟨?_, by simp [Trees.Tree.id, ho.1]⟩
      simp only [itemAt, Trees.Tree.id, lookAt_labels h1]
      rfl
    | node j st js =>
      simp only [Built] at hb
      obtain ⟨h1, h2⟩ := hb
      obtain ⟨h3, h4⟩ := built_parts h2 ho.2 (hx j st js rfl)
      refine ⟨?_, ?_⟩
      · simp only [itemAt, Trees.Tree.id, lookAt_labels h1, if_true, itemOf, ho.1, List.map_map, ← h3]
        rfl
      · intro y hy
        simp only [Trees.Tree.id, ho.1] at hy
        obtain ⟨t, ht, rfl⟩ := List.mem_map.mp hy
        exact h4 t ht

theorem built_items {h : Heap} {F : Forest} : ∀ {ts : List Trees.Tree} {its : List Spec.Item}, builtAll (lookAt h) names ts its → Trees.allOf F ts →
    (∀ x ∈ its, Branchy x) → ts.map (fun t => itemAt (labels h) F t.id) = its.map (itemOf names) ∧ ∀ t ∈ ts, ∀ y ∈ F t.id, ∀ z ∈ F y, (h z).isNode = false
  | [], [], _, _, _ => ⟨rfl, by simp⟩
  | [], _ :: _, hb, _, _ => by simp [builtAll] at hb
  | _ :: _, [], hb, _, _ => by simp [builtAll] at hb
  | t :: ts, x :: its, hb, ho, hx => by
    simp only [builtAll] at hb
    simp only [Trees.allOf] at ho
    obtain ⟨h1, h2⟩ := built_item hb.1 ho.1 (hx x (by simp))
    obtain ⟨h3, h4⟩ := built_items hb.2 ho.2 (fun y hy => hx y (by simp [hy]))
    refine ⟨by simp only [List.map_cons, h1, h3], ?_⟩
    intro t' ht
    rcases List.mem_cons.mp ht with rfl | ht
    · exact h2
    · exact h4 t' ht

/-- The document in the tree of the root. -/
theorem built_doc {h : Heap} {F : Forest} {T : Trees.Tree} {i : Nat} {st : Option Token} {its : List Spec.Item}
    (hb : Built (lookAt h) names T (.node i st its)) (ho : T.Of F) (hx : ∀ x ∈ its, Branchy x) :
    docAt (labels h) F T.id = docOf names its ∧ Flat h F T.id := by
  cases T with
  | node id kids =>
    simp only [Trees.Tree.Of] at ho
    simp only [Built] at hb
    obtain ⟨h1, h2⟩ := hb
    obtain ⟨h3, h4⟩ := built_items h2 ho.2 hx
    refine ⟨?_, ?_, ?_⟩
    · simp only [docAt, docOf, Trees.Tree.id, ho.1, List.map_map, ← h3]
      rfl
    · simp only [lookAt, Prod.mk.injEq] at h1
      exact h1.1
    · intro y hy
      simp only [Trees.Tree.id, ho.1] at hy
      obtain ⟨t, ht, rfl⟩ := List.mem_map.mp hy
      exact h4 t ht

mutual
/-- Token elements have tokens. -/
theorem built_words {h : Heap} {nm : Nat → String} : ∀ {T : Trees.Tree} {x : Spec.Item}, Built (lookAt h) nm T x →
    ∀ n ∈ T.elements, (h n).isNode = false → (h n).token.isSome
  | .node id kids, .tok t, hb, n, hn, hi => by
    simp only [Built] at hb
    obtain ⟨h1, rfl⟩ := hb
    simp only [Trees.Tree.elements, Trees.elementsOf, List.mem_singleton] at hn
    subst hn
    simp only [lookAt, Prod.mk.injEq] at h1
    rw [h1.2.2]; rfl
  | .node id kids, .node i st its, hb, n, hn, hi => by
    simp only [Built] at hb
    simp only [Trees.Tree.elements, List.mem_cons] at hn
    rcases hn with rfl | hn
    · simp only [lookAt, Prod.mk.injEq] at hb
      rw [hb.1.1] at hi; cases hi
    · exact built_allWords hb.2 n hn hi
theorem built_allWords {h : Heap} {nm : Nat → String} : ∀ {ts : List Trees.Tree} {its : List Spec.Item}, builtAll (lookAt h) nm ts its →
    ∀ n ∈ Trees.elementsOf ts, (h n).isNode = false → (h n).token.isSome
  | [], _, _, n, hn, _ => by simp [Trees.elementsOf] at hn
  | _ :: _, [], hb, _, _, _ => by simp [builtAll] at hb
  | t :: ts, x :: its, hb, n, hn, hi => by
    simp only [builtAll] at hb
    simp only [Trees.elementsOf, List.mem_append] at hn
    rcases hn with hn | hn
    · exact built_words hb.1 n hn hi
    · exact built_allWords hb.2 n hn hi
end

end Verif.Proof.Conf
