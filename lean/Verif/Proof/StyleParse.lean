/-
The style checker: trees made by the parser can be checked.
-/
import Verif.Proof.StyleLines
import Verif.Props.StyleTables
import Verif.Proof.Names
import Verif.Props.TreeHook

namespace Verif.Proof.Style

open Verif Verif.Model Verif.Model.Tree Verif.Model.Style Verif.Spec Verif.Spec.Trees Verif.Spec.Ebnf Verif.Spec.Select Verif.Spec.Style
open Verif.Props Verif.Props.Style

/-! Words of nodes -/

/-- Items of a node from the description. -/
def Words (i : Nat) (w : List Sym) : Prop := ∃ c, bodies[i]? = some c ∧ w ∈ lang c

theorem seq_cons {c : Chunk} {cs : List Chunk} {w : List Sym} (h : w ∈ langSeq (c :: cs)) : ∃ u ∈ lang c, ∃ v ∈ langSeq cs, w = u ++ v := by
  simp only [langSeq, Language.mem_mul] at h
  obtain ⟨u, hu, v, hv, rfl⟩ := h
  exact ⟨u, hu, v, hv, rfl⟩

theorem lang_plain {cs : List Chunk} {w : List Sym} (h : w ∈ lang (.group cs false false)) : w ∈ langSeq cs := by
  simpa [lang] using h

theorem lang_tok {k : Nat} {w : List Sym} (h : w ∈ lang (.token k)) : w = [.tok k] := by
  rw [lang] at h; exact h

theorem lang_node {i : Nat} {w : List Sym} (h : w ∈ lang (.node i)) : w = [.node i] := by
  rw [lang] at h; exact h

theorem lang_variant {i j : Nat} {w : List Sym} (h : w ∈ lang (.variant [.node i, .node j])) : w = [.node i] ∨ w = [.node j] := by
  simp only [lang, langAny, Language.mem_add] at h
  rcases h with h | h | h
  · exact .inl h
  · exact .inr h
  · exact absurd h (Language.notMem_zero _)

theorem words_ne {i : Nat} {w : List Sym} (h : Words i w) : w ≠ [] := by
  obtain ⟨c, hc, hw⟩ := h
  have hi : i < 8 := by
    have := (List.getElem?_eq_some_iff.mp hc).1
    simpa [bodies] using this
  rcases i with _ | _ | _ | _ | _ | _ | _ | _ | i
  case succ.succ.succ.succ.succ.succ.succ.succ => omega
  all_goals
    (simp only [bodies, List.getElem?_cons_zero, List.getElem?_cons_succ, Option.some.injEq] at hc; subst hc)
    obtain ⟨u, hu, v, -, rfl⟩ := seq_cons (lang_plain hw)
  · rcases lang_variant hu with rfl | rfl <;> simp
  · rw [lang_node hu]; simp
  · rw [lang_tok hu]; simp
  · rcases lang_variant hu with rfl | rfl <;> simp
  · rw [lang_tok hu]; simp
  · rw [lang_tok hu]; simp
  · rw [lang_tok hu]; simp
  · rw [lang_tok hu]; simp

theorem words_var {w : List Sym} (h : Words 1 w) : Sym.node 4 ∈ w := by
  obtain ⟨c, hc, hw⟩ := h
  simp only [bodies, List.getElem?_cons_zero, List.getElem?_cons_succ, Option.some.injEq] at hc
  subst hc
  obtain ⟨u, -, v, hv, rfl⟩ := seq_cons (lang_plain hw)
  obtain ⟨u, hu, v, -, rfl⟩ := seq_cons hv
  rw [lang_node hu]; simp

/-! Items -/

mutual
/-- Nodes have tokens, definitions of variables have names. -/
def Good : Item → Prop
  | .tok t => t.typeName ≠ "var-def"
  | .node i _ its => leavesOf its ≠ [] ∧ (i = 1 → ∃ s js, Item.node 4 s js ∈ its) ∧ goodAll its
/-- The same for lists. -/
def goodAll : List Item → Prop
  | [] => True
  | i :: is => Good i ∧ goodAll is
end

theorem spells_good {rel : Sym → Token → Prop} {side : Token → Prop} {w : List Sym} {items : List Item}
    (h : Spells rel side Words w items) : (∀ t ∈ leavesOf items, t.typeName ≠ "var-def") →
    (w ≠ [] → leavesOf items ≠ []) ∧ (∀ i, (∀ t, ¬ rel (.node i) t) → Sym.node i ∈ w → ∃ s js, Item.node i s js ∈ items) ∧
      ((∀ t, ¬ rel (.node 4) t) → goodAll items) := by
  induction h with
  | nil => intro _; simp [goodAll]
  | side hs _ ih =>
    intro ht
    simp only [leavesOf, Item.leaves, List.mem_append, List.mem_singleton] at ht
    obtain ⟨h1, h2, h3⟩ := ih (fun t h => ht t (.inr h))
    refine ⟨fun _ => by simp [leavesOf, Item.leaves], fun i hr hi => ?_, fun hr => ?_⟩
    · obtain ⟨s, js, h4⟩ := h2 i hr hi
      exact ⟨s, js, List.mem_cons_of_mem _ h4⟩
    · exact ⟨ht _ (.inl rfl), h3 hr⟩
  | tok hx _ ih =>
    intro ht
    simp only [leavesOf, Item.leaves, List.mem_append, List.mem_singleton] at ht
    obtain ⟨h1, h2, h3⟩ := ih (fun t h => ht t (.inr h))
    refine ⟨fun _ => by simp [leavesOf, Item.leaves], fun i hr hi => ?_, fun hr => ?_⟩
    · rcases List.mem_cons.mp hi with rfl | hi
      · exact absurd hx (hr _)
      · obtain ⟨s, js, h4⟩ := h2 i hr hi
        exact ⟨s, js, List.mem_cons_of_mem _ h4⟩
    · exact ⟨ht _ (.inl rfl), h3 hr⟩
  | node hL _ _ ih1 ih2 =>
    intro ht
    simp only [leavesOf, Item.leaves, List.mem_append] at ht
    obtain ⟨h1, h2, h3⟩ := ih1 (fun t h => ht t (.inl h))
    obtain ⟨h4, h5, h6⟩ := ih2 (fun t h => ht t (.inr h))
    have hne := h1 (words_ne hL)
    refine ⟨fun _ => by simp [leavesOf, Item.leaves, hne], fun i hr hi => ?_, fun hr => ?_⟩
    · rcases List.mem_cons.mp hi with hi | hi
      · cases hi
        exact ⟨_, _, List.mem_cons_self ..⟩
      · obtain ⟨s, js, h7⟩ := h5 i hr hi
        exact ⟨s, js, List.mem_cons_of_mem _ h7⟩
    · refine ⟨⟨hne, fun e => ?_, h3 hr⟩, h6 hr⟩
      subst e
      exact h2 4 hr (words_var hL)

/-! Elements -/

mutual
theorem part_good {look : Nat → Bool × String × Option Token} {nm : Nat → String} : ∀ (T : Trees.Tree) (i : Item), Built look nm T i → Good i →
    ∀ t ∈ parts T, ∃ j, Built look nm t j ∧ Good j
  | .node id kids, .tok tk, hb, hg, t, ht => by
    simp only [Built] at hb
    obtain ⟨hb1, rfl⟩ := hb
    simp only [parts, Style.partsOf, List.mem_singleton] at ht
    subst ht
    exact ⟨.tok tk, by simp [Built, hb1], hg⟩
  | .node id kids, .node i st its, hb, hg, t, ht => by
    simp only [parts, List.mem_cons] at ht
    rcases ht with rfl | ht
    · exact ⟨_, hb, hg⟩
    · simp only [Built] at hb
      simp only [Good] at hg
      exact parts_good kids its hb.2 hg.2.2 t ht
theorem parts_good {look : Nat → Bool × String × Option Token} {nm : Nat → String} : ∀ (ts : List Trees.Tree) (is : List Item), builtAll look nm ts is → goodAll is →
    ∀ t ∈ Style.partsOf ts, ∃ j, Built look nm t j ∧ Good j
  | [], _, _, _, t, ht => by simp [Style.partsOf] at ht
  | s :: ts, [], hb, _, _, _ => by simp [builtAll] at hb
  | s :: ts, i :: is, hb, hg, t, ht => by
    simp only [builtAll] at hb
    simp only [goodAll] at hg
    simp only [Style.partsOf, List.mem_append] at ht
    rcases ht with ht | ht
    · exact part_good s i hb.1 hg.1 t ht
    · exact parts_good ts is hb.2 hg.2 t ht
end

theorem builtAll_mem {look : Nat → Bool × String × Option Token} {nm : Nat → String} : ∀ {ts : List Trees.Tree} {is : List Item}, builtAll look nm ts is →
    ∀ i ∈ is, ∃ t ∈ ts, Built look nm t i
  | [], [], _, i, hi => by cases hi
  | [], _ :: _, hb, _, _ => by simp [builtAll] at hb
  | _ :: _, [], hb, _, _ => by simp [builtAll] at hb
  | t :: ts, j :: is, hb, i, hi => by
    simp only [builtAll] at hb
    rcases List.mem_cons.mp hi with rfl | hi
    · exact ⟨t, List.mem_cons_self .., hb.1⟩
    · obtain ⟨s, hs, h2⟩ := builtAll_mem hb.2 i hi
      exact ⟨s, List.mem_cons_of_mem _ hs, h2⟩

theorem names_lt {i : Nat} (h : ¬ i < 8) : names i = "" := by
  simp [names, nodeNames, List.getElem?_eq_none (l := ["cDataGrammar", "var-def", "type-def", "type", "name", "size-def", "simple-type", "struct-type"]) (i := i) (by simp; omega)]

theorem names_small (i : Nat) : names i ∉ ["indent", "space", "op"] := by
  by_cases h : i < 8
  · have : ∀ i < 8, names i ∉ ["indent", "space", "op"] := by decide
    exact this i h
  · rw [names_lt h]; decide

theorem names_var {i : Nat} (e : names i = "var-def") : i = 1 := by
  by_cases h : i < 8
  · have : ∀ i < 8, names i = "var-def" → i = 1 := by decide
    exact this i h e
  · rw [names_lt h] at e; exact absurd e (by decide)

/-- A tree built for good items can be checked. -/
theorem checkable_of {h : Heap} {F : Forest} {T : Trees.Tree} {st : Option Token} {its : List Item} (rep : Rep h F) (whole : T.Of F)
    (top : ∀ n, T.id ∉ F n) (hb : Built (lookAt h) names T (.node 0 st its)) (hg : Good (.node 0 st its)) : Checkable h F T := by
  have key : ∀ t ∈ parts T, ∃ j, Built (lookAt h) names t j ∧ Good j := part_good T _ hb hg
  have root : (h T.id).isNode = true := by
    cases T with
    | node id kids =>
      simp only [Built, lookAt, Prod.mk.injEq] at hb
      exact hb.1.1
  refine ⟨rep, whole, top, root, ?_, ?_, ?_, ?_⟩
  · intro x hx hn
    rw [← parts_elements] at hx
    obtain ⟨t, ht, rfl⟩ := List.mem_map.mp hx
    obtain ⟨j, hj, -⟩ := key t ht
    cases t with
    | node id kids =>
      cases j with
      | tok t =>
        simp only [Built, lookAt, Prod.mk.injEq] at hj
        exact ⟨t, hj.1.2.2, hj.1.2.1.symm⟩
      | node i s js =>
        simp only [Built, lookAt, Prod.mk.injEq] at hj
        simp only [Trees.Tree.id] at hn
        rw [hj.1.1] at hn; cases hn
  · intro t ht
    obtain ⟨j, hj, hgj⟩ := key t ht
    have := built_tokens t j hj
    intro e
    rw [e] at this
    cases j with
    | tok t => simp [Item.leaves] at this
    | node i s js =>
      simp only [Good] at hgj
      simp only [Item.leaves, List.map_nil, List.nil_eq, List.map_eq_nil_iff] at this
      exact hgj.1 this
  · intro x hx hn
    rw [← parts_elements] at hx
    obtain ⟨t, ht, rfl⟩ := List.mem_map.mp hx
    obtain ⟨j, hj, -⟩ := key t ht
    cases t with
    | node id kids =>
      cases j with
      | tok t =>
        simp only [Built, lookAt, Prod.mk.injEq] at hj
        exact hj.1.1
      | node i s js =>
        simp only [Built, lookAt, Prod.mk.injEq] at hj
        simp only [Trees.Tree.id] at hn
        rw [hj.1.2.1] at hn
        exact absurd hn (names_small i)
  · intro t ht hn
    obtain ⟨j, hj, hgj⟩ := key t ht
    cases t with
    | node id kids =>
      cases j with
      | tok t =>
        simp only [Built, lookAt, Prod.mk.injEq] at hj
        simp only [Good] at hgj
        simp only [Trees.Tree.id] at hn
        rw [hj.1.2.1] at hn
        exact absurd hn hgj
      | node i s js =>
        simp only [Built, lookAt, Prod.mk.injEq] at hj
        simp only [Trees.Tree.id] at hn
        rw [hj.1.2.1] at hn
        simp only [Good] at hgj
        obtain ⟨s', js', h1⟩ := hgj.2.1 (names_var hn)
        obtain ⟨k, hk, hbk⟩ := builtAll_mem hj.2 _ h1
        refine ⟨hj.1.1, k, hk, ?_⟩
        cases k with
        | node kid kkids =>
          simp only [Built, lookAt, Prod.mk.injEq] at hbk
          simp only [Trees.Tree.id]
          rw [hbk.1.2.1]
          rfl

end Verif.Proof.Style
