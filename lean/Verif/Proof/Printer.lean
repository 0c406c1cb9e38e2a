/-
Lemmas about the printer of the grammar checking tool.
-/
import Verif.Model.GrammarTool
import Verif.Spec.Print
import Verif.Proof.Parse
import Verif.Proof.Samples
import Verif.Proof.TreeTokens
import Verif.Proof.Utf8

namespace Verif.Proof.Printer

open Verif.Model Verif.Model.GrammarTool Verif.Spec.Trees Verif.Proof.Samples Verif.Proof
open Verif.Model.Tree (bindRun Heap Rep children_spec)
open Verif.Model.LlxGen (quote)
open Verif.Spec.Print (items pieceWidth outLines width Fits nameOf tokOf)

/-! ### Lines -/

theorem outLines_ne (l : List Piece) : outLines l ≠ [] := by
  induction l with
  | nil => simp [outLines]
  | cons p l ih =>
    cases p with
    | nl => simp [outLines]
    | space s => rw [outLines]; split <;> simp; simp
    | item s => rw [outLines]; split <;> simp; simp

theorem outLines_nl (l : List Piece) : outLines (l ++ [.nl]) = outLines l ++ [[]] := by
  induction l with
  | nil => rfl
  | cons p l ih =>
    have hne := outLines_ne l
    cases p with
    | nl => simp [outLines, ih]
    | space s =>
      rw [List.cons_append, outLines, outLines, ih]
      · cases h : outLines l with
        | nil => exact absurd h hne
        | cons x xs => rfl
      · simp
      · simp
    | item s =>
      rw [List.cons_append, outLines, outLines, ih]
      · cases h : outLines l with
        | nil => exact absurd h hne
        | cons x xs => rfl
      · simp
      · simp

theorem outLines_text (l a : List Piece) (h : Piece.nl ∉ a) : ∃ init last, outLines l = init ++ [last] ∧ outLines (l ++ a) = init ++ [last ++ a] := by
  induction l with
  | nil =>
    refine ⟨[], [], rfl, ?_⟩
    rw [List.nil_append, List.nil_append]
    induction a with
    | nil => rfl
    | cons p a ih =>
      have ih' := ih fun hm => h (by simp [hm])
      cases p with
      | nl => exact absurd (by simp) h
      | space s => simp [outLines, ih']
      | item s => simp [outLines, ih']
  | cons p l ih =>
    obtain ⟨init, last, h1, h2⟩ := ih
    have key : ∀ (q : Piece), q ≠ .nl → ∃ init' last', outLines (q :: l) = init' ++ [last'] ∧ outLines (q :: l ++ a) = init' ++ [last' ++ a] := by
      intro q hq
      have e : ∀ m : List Piece, outLines (q :: m) = match outLines m with
          | [] => [[q]]
          | x :: xs => (q :: x) :: xs := by
        intro m
        cases q with
        | nl => exact absurd rfl hq
        | space s => rw [outLines] <;> first | (cases outLines m <;> rfl) | simp
        | item s => rw [outLines] <;> first | (cases outLines m <;> rfl) | simp
      rw [List.cons_append, e, e, h1, h2]
      cases init with
      | nil => exact ⟨[], q :: last, rfl, rfl⟩
      | cons x xs => exact ⟨(q :: x) :: xs, last, rfl, rfl⟩
    cases p with
    | nl => exact ⟨[] :: init, last, by rw [outLines, h1]; rfl, by rw [List.cons_append, outLines, h2]; rfl⟩
    | space s => exact key _ (by simp)
    | item s => exact key _ (by simp)

theorem items_append (a b : List Piece) : items (a ++ b) = items a ++ items b := by simp [items]

theorem width_append (a b : List Piece) : width (a ++ b) = width a + width b := by simp [width]

theorem runeCount_spaces {l : List Nat} (h : ∀ b ∈ l, b = 32) : Utf8.runeCount l = l.length := by
  induction l with
  | nil => simp [Utf8.runeCount]
  | cons b l ih =>
    obtain rfl := h b (by simp)
    rw [Utf8.runeCount]
    have : (Utf8.decodeRune (32 :: l)).2 = 1 := by simp [Utf8.decodeRune]
    rw [this, List.drop_one, List.tail_cons, ih fun b hb => h b (by simp [hb])]
    rfl

/-! ### Operations -/

/-- Possible states of a printer. -/
structure POk (p : Printer) : Prop where
  tpl : ∀ b ∈ p.indentTpl, b = 32
  grows : p.indentTpl ≠ []
  level : 0 ≤ p.indentLevel
  size : p.indentLevel * p.indentSize ≤ p.indentTpl.length
  indent : ∀ b ∈ p.indent, b = 32
  space : ∀ b ∈ p.space, b = 32
  one : p.printed = true → p.space = [32]
  col : 0 ≤ p.col
  fits : ∃ init last, outLines p.out = init ++ [last] ∧ (∀ l ∈ init, Fits p.maxCol l) ∧ Fits p.maxCol last ∧
    (p.printed = true → (width last : Int) ≤ p.col) ∧ (p.printed = false → last = [])

theorem new_ok (sz : Nat) (w : Int) : POk (newPrinter sz w) := by
  refine ⟨?_, ?_, ?_, ?_, ?_, ?_, ?_, ?_, [], [], rfl, ?_, ?_, ?_, ?_⟩ <;> simp [newPrinter, Fits, items]

theorem newline_ok {p : Printer} (h : POk p) : POk p.newline := by
  unfold Printer.newline
  split
  · obtain ⟨init, last, h1, h2, h3, -⟩ := h.fits
    refine ⟨h.tpl, h.grows, h.level, h.size, h.indent, h.indent, by simp, by simp, init ++ [last], [], ?_, ?_, ?_, by simp, by simp⟩
    · simp only [outLines_nl, h1]
    · intro l hl
      rcases List.mem_append.1 hl with hl | hl
      · exact h2 l hl
      · rw [List.mem_singleton.1 hl]; exact h3
    · right; simp [items]
  · exact h

theorem print_ok {p : Printer} (h : POk p) (s : List Nat) : POk (p.print s) := by
  unfold Printer.print
  dsimp only
  generalize hq : (if p.maxCol < (Utf8.runeCount s : Int) + p.col + 1 then p.newline else p) = q
  have hok : POk q := by rw [← hq]; split; exact newline_ok h; exact h
  have hfit : q.printed = true → (Utf8.runeCount s : Int) + q.col + 1 ≤ q.maxCol := by
    intro hp
    rw [← hq] at hp ⊢
    by_cases hc : p.maxCol < (Utf8.runeCount s : Int) + p.col + 1
    · rw [if_pos hc] at hp
      unfold Printer.newline at hp
      split at hp
      · cases hp
      · rename_i h1; exact absurd hp h1
    · rw [if_neg hc]; omega
  obtain ⟨init, last, h1, h2, h3, h4, h5⟩ := hok.fits
  obtain ⟨init', last', h6, h7⟩ := outLines_text q.out [.space q.space, .item s] (by simp)
  rw [h1] at h6
  obtain ⟨rfl, h8⟩ := List.append_inj' h6 rfl
  cases h8
  have hw : width [Piece.space q.space, .item s] = q.space.length + Utf8.runeCount s := by
    simp [width, pieceWidth, runeCount_spaces hok.space]
  have hcol := hok.col
  refine ⟨hok.tpl, hok.grows, hok.level, hok.size, hok.indent, by simp, by simp, ?_, init, last ++ [.space q.space, .item s], h7, h2, ?_, ?_, by simp⟩
  · simp only; omega
  · cases hp : q.printed with
    | true =>
      left
      have := h4 hp
      have := hfit hp
      rw [width_append, hw, hok.one hp]
      simp only [List.length_singleton]
      omega
    | false =>
      right
      rw [h5 hp]
      simp [items]
  · intro _
    simp only
    rw [width_append, hw]
    cases hp : q.printed with
    | true => have := h4 hp; omega
    | false => rw [h5 hp]; simp [width]; omega

theorem growTpl_spec (size : Nat) : ∀ (k : Nat) {tpl : List Nat}, (∀ b ∈ tpl, b = 32) → tpl ≠ [] → size - tpl.length ≤ k →
    ∃ tpl', (∀ fuel, k < fuel → growTpl size fuel tpl = .done tpl') ∧ (∀ b ∈ tpl', b = 32) ∧ tpl' ≠ [] ∧ size ≤ tpl'.length := by
  intro k
  induction k with
  | zero =>
    intro tpl h hne hk
    refine ⟨tpl, fun fuel hf => ?_, h, hne, by omega⟩
    obtain ⟨f, rfl⟩ : ∃ f, fuel = f + 1 := ⟨fuel - 1, by omega⟩
    rw [growTpl, if_neg (by omega)]
  | succ k ih =>
    intro tpl h hne hk
    by_cases hc : tpl.length < size
    · have := List.length_pos_iff.2 hne
      obtain ⟨tpl', h1, h2, h3, h4⟩ := ih (tpl := tpl ++ tpl) (by simpa using h) (by simpa using hne) (by rw [List.length_append]; omega)
      refine ⟨tpl', fun fuel hf => ?_, h2, h3, h4⟩
      obtain ⟨f, rfl⟩ : ∃ f, fuel = f + 1 := ⟨fuel - 1, by omega⟩
      rw [growTpl, if_pos hc, h1 f (by omega)]
    · refine ⟨tpl, fun fuel hf => ?_, h, hne, by omega⟩
      obtain ⟨f, rfl⟩ : ∃ f, fuel = f + 1 := ⟨fuel - 1, by omega⟩
      rw [growTpl, if_neg hc]

/-- The same apart from indents and the output. -/
structure Kept (p p' : Printer) : Prop where
  max : p'.maxCol = p.maxCol
  size : p'.indentSize = p.indentSize

theorem Kept.refl (p : Printer) : Kept p p := ⟨rfl, rfl⟩

theorem Kept.trans {p q r : Printer} (h : Kept p q) (h' : Kept q r) : Kept p r := ⟨h'.1.trans h.1, h'.2.trans h.2⟩

theorem newline_kept (p : Printer) : Kept p p.newline ∧ p.newline.indentLevel = p.indentLevel ∧ items p.newline.out = items p.out := by
  unfold Printer.newline
  split
  · exact ⟨⟨rfl, rfl⟩, rfl, by simp [items]⟩
  · exact ⟨.refl _, rfl, rfl⟩

theorem print_kept (p : Printer) (s : List Nat) :
    Kept p (p.print s) ∧ (p.print s).indentLevel = p.indentLevel ∧ items (p.print s).out = items p.out ++ [s] := by
  unfold Printer.print
  dsimp only
  generalize hq : (if p.maxCol < (Utf8.runeCount s : Int) + p.col + 1 then p.newline else p) = q
  have : Kept p q ∧ q.indentLevel = p.indentLevel ∧ items q.out = items p.out := by
    rw [← hq]
    split
    · exact newline_kept p
    · exact ⟨.refl _, rfl, rfl⟩
  obtain ⟨h1, h2, h3⟩ := this
  refine ⟨⟨h1.1, h1.2⟩, h2, ?_⟩
  rw [items_append, h3]
  rfl

theorem slice_ok {tpl : List Nat} {n : Int} (h0 : 0 ≤ n) (h : n ≤ tpl.length) (ht : ∀ b ∈ tpl, b = 32) :
    ∃ l, Go.slice tpl 0 n = some l ∧ ∀ b ∈ l, b = 32 := by
  unfold Go.slice
  rw [if_pos ⟨by omega, by omega, h⟩]
  exact ⟨_, rfl, fun b hb => ht b (List.mem_of_mem_drop (List.mem_of_mem_take hb))⟩

theorem indent_done {p : Printer} (h : POk p) :
    ∃ p', (∀ fuel, ((p.indentLevel + 1) * p.indentSize).toNat < fuel → p.indent' fuel = .done p') ∧ POk p' ∧ Kept p p' ∧ p'.indentLevel = p.indentLevel + 1 ∧ p'.out = p.out := by
  unfold Printer.indent'
  dsimp only
  obtain ⟨tpl, h1, h2, h3, h4⟩ := growTpl_spec ((p.indentLevel + 1) * p.indentSize).toNat ((p.indentLevel + 1) * p.indentSize).toNat h.tpl h.grows (by omega)
  have hl := h.level
  have hpos : 0 ≤ (p.indentLevel + 1) * (p.indentSize : Int) := Int.mul_nonneg (by omega) (by omega)
  obtain ⟨l, h5, h6⟩ := slice_ok hpos (tpl := tpl) (by omega) h2
  refine ⟨{ p with indentLevel := p.indentLevel + 1, indentTpl := tpl, indent := l, space := if p.printed then p.space else l },
    fun fuel hf => by rw [h1 fuel hf]; simp only [bindRun, h5, orPanic], ⟨h2, h3, by simp only; omega, by simp only; omega, h6, ?_, ?_, h.col, h.fits⟩, ⟨rfl, rfl⟩, rfl, rfl⟩
  · simp only
    split
    · exact h.space
    · exact h6
  · intro hp
    simp only at hp ⊢
    rw [if_pos hp]
    exact h.one hp

theorem dedent_done {p : Printer} (h : POk p) (hl : 0 < p.indentLevel) :
    ∃ p', p.dedent = .done p' ∧ POk p' ∧ Kept p p' ∧ p'.indentLevel = p.indentLevel - 1 ∧ p'.out = p.out := by
  unfold Printer.dedent
  dsimp only
  have hsz := h.size
  have hpos : 0 ≤ (p.indentLevel - 1) * (p.indentSize : Int) := Int.mul_nonneg (by omega) (by omega)
  have hle : (p.indentLevel - 1) * (p.indentSize : Int) ≤ p.indentTpl.length := by
    rw [Int.sub_mul]; omega
  obtain ⟨l, h5, h6⟩ := slice_ok hpos hle h.tpl
  rw [h5]
  simp only [orPanic]
  refine ⟨_, rfl, ⟨h.tpl, h.grows, by simp only; omega, hle, h6, ?_, ?_, h.col, h.fits⟩, ⟨rfl, rfl⟩, rfl, rfl⟩
  · simp only
    split
    · exact h.space
    · exact h6
  · intro hp
    simp only at hp ⊢
    rw [if_pos hp]
    exact h.one hp

/-! ### Trees -/

theorem tailPos_take (content : List Nat) (n pos : Nat) (h : pos ≤ content.length) :
    ∃ q, tailPos content n pos = some q ∧ q ≤ content.length ∧ content.take q = content.take pos ++ Spec.Print.takeRunes n (content.drop pos) := by
  induction n generalizing pos with
  | zero => exact ⟨pos, rfl, h, by simp [Spec.Print.takeRunes]⟩
  | succ n ih =>
    rw [tailPos, slice_nat _ _ _ h (Nat.le_refl _), Option.bind_some]
    have he : (content.drop pos).take (content.length - pos) = content.drop pos := List.take_of_length_le (by simp)
    rw [he]
    have := Utf8.width_le (content.drop pos)
    rw [Utf8.width, List.length_drop] at this
    obtain ⟨q, h1, h2, h3⟩ := ih (pos + (Utf8.decodeRune (content.drop pos)).2) (by omega)
    refine ⟨q, h1, h2, ?_⟩
    rw [h3, Spec.Print.takeRunes, List.take_add, List.append_assoc, List.drop_drop]

theorem tokenItem_spec (isPrint : Nat → Bool) (name : String) (content : List Nat) :
    tokenItem isPrint name content = some (Spec.Print.token (quote isPrint) (strBytes name) content) := by
  unfold tokenItem Spec.Print.token
  split
  · rfl
  · obtain ⟨q, h1, h2, h3⟩ := tailPos_take content 75 0 (Nat.zero_le _)
    rw [h1, Option.bind_some]
    have := slice_nat content 0 q (Nat.zero_le _) h2
    rw [show ((0 : Nat) : Int) = 0 from rfl] at this
    rw [this]
    simp only [List.drop_zero, List.take_zero, List.nil_append, Nat.sub_zero] at h3 ⊢
    rw [h3]
    rfl

theorem tokenItem_some (isPrint : Nat → Bool) (name : String) (content : List Nat) : ∃ s, tokenItem isPrint name content = some s :=
  ⟨_, tokenItem_spec isPrint name content⟩

variable {h : Heap} {F : Forest}

theorem allOf_mem {ts : List Tree} (ha : allOf F ts) : ∀ t ∈ ts, t.Of F := by
  induction ts with
  | nil => simp
  | cons t ts ih =>
    rw [allOf] at ha
    exact List.forall_mem_cons.2 ⟨ha.1, ih ha.2⟩

theorem mem_elementsOf {c : Tree} {kids : List Tree} (hc : c ∈ kids) {n : Nat} (hn : n ∈ c.elements) : n ∈ elementsOf kids := by
  induction kids with
  | nil => simp at hc
  | cons t ts ih =>
    rw [elementsOf]
    rcases List.mem_cons.1 hc with rfl | h
    · exact List.mem_append_left _ hn
    · exact List.mem_append_right _ (ih h)

theorem self_mem (t : Tree) : t.id ∈ t.elements := by
  cases t
  simp [Tree.elements, Tree.id]

theorem chain_done (r : Rep h F) (isNode : Nat → Bool) (hk : ∀ n, isNode n = (h n).isNode) (tok : Nat → List Nat) : ∀ (k : Nat) (t : Tree), sizeOf t ≤ k → t.Of F → ∀ pre,
    ∃ label kids N, (∀ c ∈ kids, sizeOf c < sizeOf t ∧ ∀ n ∈ c.elements, n ∈ t.elements) ∧ allOf F kids ∧
      Spec.Print.node isNode (nameOf h) tok pre t = [label, [123]] ++ Spec.Print.children isNode (nameOf h) tok [] kids ++ [[125]] ∧
      ∀ fuel, N ≤ fuel → ∃ x, chainLoop h fuel t.id (F t.id) (pre ++ nameOf h t.id) = .done (x, kids.map Tree.id, label) := by
  intro k
  induction k with
  | zero => intro t ht; cases t; simp at ht
  | succ k ih =>
    rintro ⟨id, kids⟩ ht hof pre
    rw [Tree.Of] at hof
    obtain ⟨h1, h2⟩ := hof
    have hsz : ∀ c ∈ kids, sizeOf c < sizeOf (Tree.node id kids) ∧ ∀ n ∈ c.elements, n ∈ (Tree.node id kids).elements := by
      intro c hc
      constructor
      · have := List.sizeOf_lt_of_mem hc
        simp only [Tree.node.sizeOf_spec]
        omega
      · intro n hn
        rw [Tree.elements]
        exact List.mem_cons_of_mem _ (mem_elementsOf hc hn)
    cases ho : Spec.Print.onlyNode isNode kids with
    | false =>
      refine ⟨pre ++ nameOf h id, kids, 1, hsz, h2, by rw [Spec.Print.node, ho]; simp, fun fuel hf => ⟨id, ?_⟩⟩
      obtain ⟨f, rfl⟩ : ∃ f, fuel = f + 1 := ⟨fuel - 1, by omega⟩
      simp only [Tree.id, h1]
      match kids, ho with
      | [], _ => rfl
      | [c], ho =>
        simp only [Spec.Print.onlyNode, hk] at ho
        simp [chainLoop, ho]
      | a :: b :: l, _ => rfl
    | true =>
      match kids, ho, h1, h2, hsz with
      | [c], ho, h1, h2, hsz =>
        simp only [Spec.Print.onlyNode, hk] at ho
        have hc := hsz c (by simp)
        rw [allOf] at h2
        obtain ⟨label, kids, N, g1, g2, g3, g4⟩ := ih c (by omega) h2.1 (pre ++ nameOf h id ++ [58])
        obtain ⟨N2, hN2⟩ := children_spec r c.id
        refine ⟨label, kids, N + N2 + 1, fun x hx => ⟨Nat.lt_trans (g1 x hx).1 hc.1, fun n hn => hc.2 n ((g1 x hx).2 n hn)⟩, g2, ?_, fun fuel hf => ?_⟩
        · rw [Spec.Print.node, if_pos (by simp [Spec.Print.onlyNode, hk, ho]), Spec.Print.children, if_pos (by rw [hk]; exact ho), Spec.Print.children, List.append_nil, g3]
        · obtain ⟨f, rfl⟩ : ∃ f, fuel = f + 1 := ⟨fuel - 1, by omega⟩
          obtain ⟨x, hx⟩ := g4 f (by omega)
          refine ⟨x, ?_⟩
          change chainLoop h (f + 1) id (F id) _ = _
          rw [h1, List.map_cons, List.map_nil, chainLoop]
          simp only [ho, if_true, hN2 f (by omega), bindRun]
          exact hx

theorem foldRun_append {α β : Type} (f : β → α → Run β) (a : α) (l : List α) (b : β) :
    foldRun f (a :: l) b = bindRun (f b a) fun b => foldRun f l b := rfl

theorem node_done (isPrint : Nat → Bool) (r : Rep h F) (sz : Nat) : ∀ (k : Nat) (t : Tree), sizeOf t ≤ k → t.Of F →
    (∀ n ∈ t.elements, (h n).isNode = false → (h n).token ≠ none) → ∀ L : Int, 0 ≤ L →
    ∃ N, ∀ fuel, N ≤ fuel → ∀ p : Printer, POk p → p.indentLevel = L → p.indentSize = sz →
      ∃ p', printTreeNode isPrint h fuel t.id p = .done p' ∧ POk p' ∧ Kept p p' ∧ p'.indentLevel = L ∧
        items p'.out = items p.out ++ Spec.Print.node (fun n => (h n).isNode) (nameOf h) (tokOf isPrint h) [] t := by
  intro k
  induction k with
  | zero => intro t ht; cases t; simp at ht
  | succ k ih =>
    intro t ht hof htok L hL
    obtain ⟨label, kids, N1, g1, g2, g3, g4⟩ := chain_done r (fun n => (h n).isNode) (fun _ => rfl) (tokOf isPrint h) _ t (Nat.le_refl _) hof []
    obtain ⟨N2, hN2⟩ := children_spec r t.id
    have loop : ∀ kids : List Tree, (∀ c ∈ kids, sizeOf c < sizeOf t ∧ ∀ n ∈ c.elements, n ∈ t.elements) → allOf F kids →
        ∃ N, ∀ fuel, N ≤ fuel → ∀ p : Printer, POk p → p.indentLevel = L + 1 → p.indentSize = sz →
          ∃ p', foldRun (fun p child =>
              if (h child).isNode then printTreeNode isPrint h fuel child p
              else
                orPanic (h child).token fun t =>
                orPanic (tokenItem isPrint (h child).typeName t.content) fun s => .done (p.print s)) (kids.map Tree.id) p = .done p' ∧
            POk p' ∧ Kept p p' ∧ p'.indentLevel = L + 1 ∧
            items p'.out = items p.out ++ Spec.Print.children (fun n => (h n).isNode) (nameOf h) (tokOf isPrint h) [] kids := by
      intro kids
      induction kids with
      | nil =>
        intro _ _
        exact ⟨0, fun fuel _ p hp hl hs => ⟨p, rfl, hp, .refl p, hl, by simp [Spec.Print.children]⟩⟩
      | cons c cs ihc =>
        intro hsz hall
        rw [allOf] at hall
        obtain ⟨N3, hN3⟩ := ihc (fun x hx => hsz x (by simp [hx])) hall.2
        obtain ⟨N4, hN4⟩ := ih c (by have := (hsz c (by simp)).1; omega) hall.1
          (fun n hn => htok n ((hsz c (by simp)).2 n hn)) (L + 1) (by omega)
        refine ⟨N3 + N4, fun fuel hf p hp hl hs => ?_⟩
        cases hn : (h c.id).isNode with
        | true =>
          obtain ⟨p1, e1, e2, e3, e4, e5⟩ := hN4 fuel (by omega) p hp hl hs
          obtain ⟨p2, d1, d2, d3, d4, d5⟩ := hN3 fuel (by omega) p1 e2 e4 (by rw [e3.size, hs])
          refine ⟨p2, ?_, d2, e3.trans d3, d4, ?_⟩
          · rw [List.map_cons, foldRun]
            simp only [hn, if_true, e1, bindRun]
            exact d1
          · rw [d5, e5, Spec.Print.children, if_pos hn, List.append_assoc]
        | false =>
          cases ht : (h c.id).token with
          | none => exact absurd ht (htok _ ((hsz c (by simp)).2 _ (self_mem c)) hn)
          | some tk =>
            have hs' := tokenItem_spec isPrint (h c.id).typeName tk.content
            generalize hse : Spec.Print.token (quote isPrint) (strBytes (h c.id).typeName) tk.content = s at hs'
            obtain ⟨q1, q2, q3⟩ := print_kept p s
            obtain ⟨p2, d1, d2, d3, d4, d5⟩ := hN3 fuel (by omega) (p.print s) (print_ok hp s) (by rw [q2, hl]) (by rw [q1.size, hs])
            refine ⟨p2, ?_, d2, q1.trans d3, d4, ?_⟩
            · rw [List.map_cons, foldRun]
              simp only [hn, Bool.false_eq_true, if_false, ht, orPanic, hs', bindRun]
              exact d1
            · rw [d5, q3, Spec.Print.children, if_neg (by simp [hn]), List.append_assoc]
              simp [tokOf, ht, hse]
    obtain ⟨N3, hN3⟩ := loop kids g1 g2
    refine ⟨N1 + N2 + N3 + ((L + 1) * sz).toNat + 2, fun fuel hf p hp hl hs => ?_⟩
    obtain ⟨f, rfl⟩ : ∃ f, fuel = f + 1 := ⟨fuel - 1, by omega⟩
    obtain ⟨x, hx⟩ := g4 f (by omega)
    rw [List.nil_append] at hx
    obtain ⟨a1, a2, a3⟩ := print_kept p label
    obtain ⟨b1, b2, b3⟩ := print_kept (p.print label) [123]
    obtain ⟨c1, c2, c3⟩ := newline_kept ((p.print label).print [123])
    have hok := newline_ok (print_ok (print_ok hp label) [123])
    have hlev : ((p.print label).print [123]).newline.indentLevel = L := by rw [c2, b2, a2, hl]
    have hsize : ((p.print label).print [123]).newline.indentSize = sz := by rw [c1.size, b1.size, a1.size, hs]
    obtain ⟨p1, e1, e2, e3, e4, e5⟩ := indent_done hok
    obtain ⟨p2, d1, d2, d3, d4, d5⟩ := hN3 f (by omega) p1 e2 (by rw [e4, hlev]) (by rw [e3.size, hsize])
    obtain ⟨n1, n2, n3⟩ := newline_kept p2
    obtain ⟨p3, m1, m2, m3, m4, m5⟩ := dedent_done (newline_ok d2) (by rw [n2, d4]; omega)
    obtain ⟨z1, z2, z3⟩ := print_kept p3 [125]
    refine ⟨p3.print [125], ?_, print_ok m2 _, ?_, ?_, ?_⟩
    · rw [printTreeNode, hN2 f (by omega)]
      simp only [bindRun]
      rw [show strBytes (h t.id).typeName = nameOf h t.id from rfl, hx]
      simp only
      rw [e1 f (by rw [hlev, hsize]; omega)]
      simp only
      rw [d1]
      simp only
      rw [m1]
    · exact a1.trans (b1.trans (c1.trans (e3.trans (d3.trans (n1.trans (m3.trans z1))))))
    · rw [z2, m4, n2, d4]; omega
    · rw [z3, m5, n3, d5, e5, c3, b3, a3, g3]
      simp

end Verif.Proof.Printer
