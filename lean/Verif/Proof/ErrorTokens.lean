/-
Error tokens in described texts.
-/
import Verif.Proof.LangMeaning
import Verif.Spec.LangWords
import Verif.Spec.Spells

namespace Verif.Proof

open Verif.Model Verif.Model.LangDef Verif.Spec Verif.Spec.LangDef

mutual

/-- Types in a word are mentioned in the expression. -/
theorem words_types : ∀ (e : Expr), ∀ w ∈ e.words, ∀ n, Named.type n ∈ w → n ∈ e.types
  | .node m, w, hw, n, hn => by
    rw [Expr.words] at hw
    have : w = [.node m] := hw
    simp [this] at hn
  | .token m, w, hw, n, hn => by
    rw [Expr.words] at hw
    have : w = [.type m] := hw
    simp [this] at hn
    simp [Expr.types, hn]
  | .eoi, w, hw, n, hn => by
    rw [Expr.words] at hw
    have : w = [.eoi] := hw
    simp [this] at hn
  | .literal m, w, hw, n, hn => by
    rw [Expr.words] at hw
    have : w = [.literal m] := hw
    simp [this] at hn
  | .variant es, w, hw, n, hn => by
    rw [Expr.words] at hw
    rw [Expr.types]
    exact wordsAny_types es w hw n hn
  | .group es opt rep, w, hw, n, hn => by
    rw [Expr.words] at hw
    rw [Expr.types]
    split at hw
    · obtain ⟨S, rfl, hS⟩ := Language.mem_kstar.mp hw
      obtain ⟨v, hv, hm⟩ := List.mem_flatten.mp hn
      exact wordsSeq_types es v (hS v hv) n hm
    · split at hw
      · rcases (Language.mem_add ..).mp hw with hw | hw
        · rw [Language.mem_one] at hw; simp [hw] at hn
        · exact wordsSeq_types es w hw n hn
      · exact wordsSeq_types es w hw n hn

theorem wordsAny_types : ∀ (es : List Expr), ∀ w ∈ Expr.wordsAny es, ∀ n, Named.type n ∈ w → n ∈ Expr.typesOf es
  | [], w, hw, _, _ => by rw [Expr.wordsAny] at hw; exact absurd hw (Language.notMem_zero w)
  | e :: es, w, hw, n, hn => by
    rw [Expr.wordsAny] at hw
    rw [Expr.typesOf, List.mem_append]
    rcases (Language.mem_add ..).mp hw with hw | hw
    · exact .inl (words_types e w hw n hn)
    · exact .inr (wordsAny_types es w hw n hn)

theorem wordsSeq_types : ∀ (es : List Expr), ∀ w ∈ Expr.wordsSeq es, ∀ n, Named.type n ∈ w → n ∈ Expr.typesOf es
  | [], w, hw, n, hn => by rw [Expr.wordsSeq, Language.mem_one] at hw; simp [hw] at hn
  | e :: es, w, hw, n, hn => by
    rw [Expr.wordsSeq] at hw
    rw [Expr.typesOf, List.mem_append]
    obtain ⟨a, ha, b, hb, rfl⟩ := Language.mem_mul.mp hw
    rcases List.mem_append.1 hn with hn | hn
    · exact .inl (words_types e a ha n hn)
    · exact .inr (wordsSeq_types es b hb n hn)

end

/-- Error flags of the table of a description. -/
theorem table_error {head : List HeadItem} {D : List (List Nat × List Nat)} {ms : List (List Nat)} {t : GToken}
    (h : t ∈ enlistLits (headTable head D) ms) (he : t.flags.error = true) :
    t.flags.literal = false ∧ listed head .error t.name = true := by
  have hlits : ∀ (ms : List (List Nat)) (ts : List GToken), (∀ t ∈ ts, t.flags.error = true → t.flags.literal = false ∧ listed head .error t.name = true) →
      ∀ t ∈ enlistLits ts ms, t.flags.error = true → t.flags.literal = false ∧ listed head .error t.name = true := by
    intro ms
    induction ms with
    | nil => intro ts h; exact h
    | cons m ms ih =>
      intro ts h
      rw [enlistLits]
      refine ih _ ?_
      split
      · exact h
      · intro t ht he
        rcases List.mem_append.1 ht with ht | ht
        · exact h t ht he
        · simp at ht
          subst ht
          cases he
  refine hlits ms _ ?_ t h he
  intro t ht he
  unfold headTable at ht
  simp only [List.mem_append, List.mem_map] at ht
  rcases ht with (⟨d, -, rfl⟩ | ⟨n, -, rfl⟩) | ⟨l, -, rfl⟩
  · exact ⟨rfl, he⟩
  · exact ⟨rfl, he⟩
  · cases he

/-- Tokens of a described tree are described by symbols of definitions. -/
theorem leaf_symbol {rel : Sym → Token → Prop} {side : Token → Prop} {L : Nat → List Sym → Prop} {w : List Sym} {items : List Item}
    (h : Spells rel side L w items) : ∀ t ∈ leavesOf items, side t ∨ ∃ x, rel x t ∧ (x ∈ w ∨ ∃ i u, L i u ∧ x ∈ u) := by
  induction h with
  | nil => intro t ht; simp [leavesOf] at ht
  | side h1 _ ih =>
    intro t ht
    simp only [leavesOf, List.singleton_append, List.mem_cons, Item.leaves] at ht
    rcases ht with rfl | ht
    · exact .inl h1
    · exact ih t ht
  | tok h1 _ ih =>
    intro t ht
    simp only [leavesOf, List.singleton_append, List.mem_cons, Item.leaves] at ht
    rcases ht with rfl | ht
    · exact .inr ⟨_, h1, .inl List.mem_cons_self⟩
    · rcases ih t ht with h | ⟨x, h2, h3 | h3⟩
      · exact .inl h
      · exact .inr ⟨x, h2, .inl (List.mem_cons_of_mem _ h3)⟩
      · exact .inr ⟨x, h2, .inr h3⟩
  | node h1 _ _ ih1 ih2 =>
    intro t ht
    simp only [leavesOf, List.mem_append, Item.leaves] at ht
    rcases ht with ht | ht
    · rcases ih1 t ht with h | ⟨x, h2, h3 | h3⟩
      · exact .inl h
      · exact .inr ⟨x, h2, .inr ⟨_, _, h1, h3⟩⟩
      · exact .inr ⟨x, h2, .inr h3⟩
    · rcases ih2 t ht with h | ⟨x, h2, h3 | h3⟩
      · exact .inl h
      · exact .inr ⟨x, h2, .inl (List.mem_cons_of_mem _ h3)⟩
      · exact .inr ⟨x, h2, .inr h3⟩

end Verif.Proof
