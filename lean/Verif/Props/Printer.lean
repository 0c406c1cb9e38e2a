/-
C68: the grammar checking tool prints trees.
-/
import Verif.Proof.Printer
import Verif.Props.TreeWalk

namespace Verif.Props

open Verif.Model Verif.Model.GrammarTool Verif.Spec.Trees Verif.Spec.Print Verif.Proof.Printer
open Verif.Model.Tree (Heap kinds)
open Verif.Spec.Trees (Tree)

/-- C68: any tree is printed without a panic; the printed items are the label, the brackets and the children of every node, in
document order, and nothing else. -/
theorem C68_items (isPrint : Nat → Bool) (h : Heap) (F : Forest) (e : Edited h F) (t : Tree) (ht : t.Of F)
    (htok : ∀ n ∈ t.elements, (h n).isNode = false → (h n).token ≠ none) (lineWidth : Int) :
    ∃ N, ∀ fuel, N ≤ fuel → ∃ p, printTree isPrint h fuel t.id lineWidth = .done p ∧
      items p.out = node (kinds h) (Spec.Print.nameOf h) (tokOf isPrint h) [] t := by
  obtain ⟨N, hN⟩ := node_done isPrint e.rep 2 _ t (Nat.le_refl _) ht htok 1 (by omega)
  refine ⟨N + 3, fun fuel hf => ?_⟩
  obtain ⟨p1, e1, e2, e3, e4, e5⟩ := indent_done (new_ok 2 lineWidth)
  obtain ⟨p2, d1, d2, d3, d4, d5⟩ := hN fuel (by omega) p1 e2 (by rw [e4]; rfl) (by rw [e3.size]; rfl)
  refine ⟨p2.newline, ?_, ?_⟩
  · simp only [printTree, Tree.bindRun, e1 fuel (by simp [newPrinter]; omega), d1]
  · rw [(newline_kept p2).2.2, d5, e5]
    simp only [newPrinter, items, List.filterMap_nil, List.nil_append]
    rfl

/-- Calls of methods of a printer. -/
inductive PrinterCall
  | print (s : List Nat)
  | newline
  | indent
  | dedent

/-- Effect of a call. -/
def PrinterCall.run (fuel : Nat) (p : Printer) : PrinterCall → Run Printer
  | .print s => .done (p.print s)
  | .newline => .done p.newline
  | .indent => p.indent' fuel
  | .dedent => p.dedent

/-- Calls do not remove more indents than there are. -/
def Balanced : Nat → List PrinterCall → Prop
  | _, [] => True
  | n, .indent :: l => Balanced (n + 1) l
  | 0, .dedent :: _ => False
  | n + 1, .dedent :: l => Balanced n l
  | n, _ :: l => Balanced n l

theorem calls_fit (l : List PrinterCall) : ∀ (n : Nat) (p : Printer), POk p → p.indentLevel = n → Balanced n l →
    ∃ N, ∀ fuel, N ≤ fuel → ∃ q, foldRun (PrinterCall.run fuel) l p = .done q ∧ POk q ∧ q.maxCol = p.maxCol := by
  induction l with
  | nil => exact fun n p h _ _ => ⟨0, fun fuel _ => ⟨p, rfl, h, rfl⟩⟩
  | cons c l ih =>
    intro n p h hl hb
    cases c with
    | print s =>
      obtain ⟨a, b, -⟩ := print_kept p s
      obtain ⟨N, hN⟩ := ih n _ (print_ok h s) (by rw [b, hl]) (by cases n <;> exact hb)
      refine ⟨N, fun fuel hf => ?_⟩
      obtain ⟨q, h1, h2, h3⟩ := hN fuel hf
      exact ⟨q, h1, h2, by rw [h3, a.max]⟩
    | newline =>
      obtain ⟨a, b, -⟩ := newline_kept p
      obtain ⟨N, hN⟩ := ih n _ (newline_ok h) (by rw [b, hl]) (by cases n <;> exact hb)
      refine ⟨N, fun fuel hf => ?_⟩
      obtain ⟨q, h1, h2, h3⟩ := hN fuel hf
      exact ⟨q, h1, h2, by rw [h3, a.max]⟩
    | indent =>
      obtain ⟨p1, e1, e2, e3, e4, -⟩ := indent_done h
      obtain ⟨N, hN⟩ := ih (n + 1) p1 e2 (by rw [e4, hl]; rfl) (by cases n <;> exact hb)
      refine ⟨N + ((p.indentLevel + 1) * p.indentSize).toNat + 1, fun fuel hf => ?_⟩
      obtain ⟨q, h1, h2, h3⟩ := hN fuel (by omega)
      exact ⟨q, by rw [foldRun]; simp only [PrinterCall.run, e1 fuel (by omega), Tree.bindRun]; exact h1, h2, by rw [h3, e3.max]⟩
    | dedent =>
      cases n with
      | zero => exact hb.elim
      | succ n =>
        obtain ⟨p1, e1, e2, e3, e4, -⟩ := dedent_done h (by omega)
        obtain ⟨N, hN⟩ := ih n p1 e2 (by rw [e4, hl]; simp) hb
        refine ⟨N, fun fuel hf => ?_⟩
        obtain ⟨q, h1, h2, h3⟩ := hN fuel hf
        exact ⟨q, by rw [foldRun]; simp only [PrinterCall.run, e1, Tree.bindRun]; exact h1, h2, by rw [h3, e3.max]⟩

/-- C68, partial: whatever is printed, a line of two or more items is not wider than the given maximum (less one). Missing: a line
of one item may be wider (`C68_too_wide`). -/
theorem C68_width_partial (size : Nat) (lineWidth : Int) (calls : List PrinterCall) (hb : Balanced 0 calls) :
    ∃ N, ∀ fuel, N ≤ fuel → ∃ p, foldRun (PrinterCall.run fuel) calls (newPrinter size lineWidth) = .done p ∧
      ∀ line ∈ outLines p.out, 2 ≤ (items line).length → (width line : Int) < lineWidth := by
  obtain ⟨N, hN⟩ := calls_fit calls 0 _ (new_ok size lineWidth) rfl hb
  refine ⟨N, fun fuel hf => ?_⟩
  obtain ⟨p, h1, h2, h3⟩ := hN fuel hf
  refine ⟨p, h1, fun line hl hi => ?_⟩
  obtain ⟨init, last, f1, f2, f3, -⟩ := h2.fits
  have hfit : Fits p.maxCol line := by
    rw [f1] at hl
    rcases List.mem_append.1 hl with hl | hl
    · exact f2 _ hl
    · rw [List.mem_singleton.1 hl]; exact f3
  have hm : p.maxCol = lineWidth - 1 := h3
  rcases hfit with h | h <;> omega

/-- The hypothesis is met: lines are broken, indents are added. -/
example : Balanced 0 [.indent, .print [97], .print [98], .print [99], .newline, .dedent, .print [100]] ∧
    (foldRun (PrinterCall.run 20) [.indent, .print [97], .print [98], .print [99], .newline, .dedent, .print [100]] (newPrinter 2 7) =
      .done ⟨2, 6, 0, 3, [], List.replicate 8 32, [32], true, [.space [32, 32], .item [97], .space [32], .item [98], .nl,
        .space [32, 32], .item [99], .nl, .space [], .item [100]]⟩) := by
  refine ⟨trivial, ?_⟩
  decide +kernel

/-- C68: the same for a printed tree. -/
theorem C68_tree_width_partial (isPrint : Nat → Bool) (h : Heap) (F : Forest) (e : Edited h F) (t : Tree) (ht : t.Of F)
    (htok : ∀ n ∈ t.elements, (h n).isNode = false → (h n).token ≠ none) (lineWidth : Int) :
    ∃ N, ∀ fuel, N ≤ fuel → ∃ p, printTree isPrint h fuel t.id lineWidth = .done p ∧
      ∀ line ∈ outLines p.out, 2 ≤ (items line).length → (width line : Int) < lineWidth := by
  obtain ⟨N, hN⟩ := node_done isPrint e.rep 2 _ t (Nat.le_refl _) ht htok 1 (by omega)
  refine ⟨N + 3, fun fuel hf => ?_⟩
  obtain ⟨p1, e1, e2, e3, e4, e5⟩ := indent_done (new_ok 2 lineWidth)
  obtain ⟨p2, d1, d2, d3, d4, d5⟩ := hN fuel (by omega) p1 e2 (by rw [e4]; rfl) (by rw [e3.size]; rfl)
  refine ⟨p2.newline, by simp only [printTree, Tree.bindRun, e1 fuel (by simp [newPrinter]; omega), d1], fun line hl hi => ?_⟩
  have hm : p2.newline.maxCol = lineWidth - 1 := by rw [(newline_kept p2).1.max, d3.max, e3.max]; rfl
  obtain ⟨init, last, f1, f2, f3, -⟩ := (newline_ok d2).fits
  have hfit : Fits p2.newline.maxCol line := by
    rw [f1] at hl
    rcases List.mem_append.1 hl with hl | hl
    · exact f2 _ hl
    · rw [List.mem_singleton.1 hl]; exact f3
  rcases hfit with h | h <;> omega

/-- Elements of examples: nodes `a`, `b`, `c`, tokens `t`. -/
def printedHeap0 : Heap := fun n => { blank sampleKinds n with
  typeName := if n = 0 then "a" else if n = 10 then "b" else if n = 11 then "c" else "t"
  token := if n = 0 ∨ n ≥ 10 then none else some ⟨0, "t", List.replicate n 120, ⟨none, 0⟩⟩ }

/-- The tree `a(b(c(t t)))`. -/
def printedEdits : List Edit := [.appendChild 0 10, .appendChild 10 11, .appendChild 11 1, .appendChild 11 2]

theorem printed_edited : Edited (printedEdits.foldl runEdit printedHeap0) (printedEdits.foldl Edit.apply Forest.empty) := by
  refine ⟨printedHeap0, printedEdits, ?_, ?_, rfl⟩
  · intro n
    exact separate_blank sampleKinds n
  · refine .cons ⟨rfl, ?_⟩ <| .cons ⟨rfl, ?_⟩ <| .cons ⟨rfl, ?_⟩ <| .cons ⟨rfl, ?_⟩ <| .nil _
    all_goals
      intro h
      have := within_of_no_kids (by decide) h
      simp at this

/-- The hypotheses are met. -/
example : ∃ t : Tree, t.id = 0 ∧ t.Of (printedEdits.foldl Edit.apply Forest.empty) ∧
    (∀ n ∈ t.elements, (printedEdits.foldl runEdit printedHeap0 n).isNode = false → (printedEdits.foldl runEdit printedHeap0 n).token ≠ none) ∧
    (match printTree (fun _ => true) (printedEdits.foldl runEdit printedHeap0) 50 0 78 with
      | .done p => decide (items p.out = [[97, 58, 98, 58, 99], [123], [116, 40, 34, 120, 34, 41], [116, 40, 34, 120, 120, 34, 41], [125]])
      | _ => false) = true := by
  refine ⟨.node 0 [.node 10 [.node 11 [.node 1 [], .node 2 []]]], rfl, ?_, ?_, by decide +kernel⟩
  · simp only [Tree.Of, allOf, List.map, Tree.id]
    decide
  · simp only [Tree.elements, elementsOf]
    decide

/-- C68 is false: the maximum width is not obeyed, a token longer than a line is not shortened. -/
theorem C68_too_wide : ∃ (h : Heap) (F : Forest) (t : Tree), Edited h F ∧ t.Of F ∧
    (∀ n ∈ t.elements, (h n).isNode = false → (h n).token ≠ none) ∧
    (match printTree (fun _ => true) h 50 t.id 12 with
      | .done p => (outLines p.out).any fun line => decide (12 < width line)
      | _ => false) = true := by
  refine ⟨_, _, .node 0 [.node 10 [.node 11 [.node 1 [], .node 9 []]]], (?_ : Edited
    ([Edit.appendChild 0 10, .appendChild 10 11, .appendChild 11 1, .appendChild 11 9].foldl runEdit printedHeap0)
    ([Edit.appendChild 0 10, .appendChild 10 11, .appendChild 11 1, .appendChild 11 9].foldl Edit.apply Forest.empty)), ?_, ?_, ?_⟩
  · refine ⟨printedHeap0, _, fun n => separate_blank sampleKinds n, ?_, rfl⟩
    refine .cons ⟨rfl, ?_⟩ <| .cons ⟨rfl, ?_⟩ <| .cons ⟨rfl, ?_⟩ <| .cons ⟨rfl, ?_⟩ <| .nil _
    all_goals
      intro h
      have := within_of_no_kids (by decide) h
      simp at this
  · simp only [Tree.Of, allOf, List.map, Tree.id]
    decide
  · simp only [Tree.elements, elementsOf]
    decide
  · decide +kernel

end Verif.Props
