/-
Model of `/repo/examples/grammar/grammar.go`: splitting a file into samples and printing a tree.

Simplifications: file access, flags, messages and exit codes of `main` are not modelled; `utf8.Valid` is a parameter;
names of samples are given by their numbers; the output of the printer is a list of pieces.
-/
import Verif.Model.Source
import Verif.Model.Parser
import Verif.Model.LlxGen

namespace Verif.Model.GrammarTool

open Verif.Model.Tree (bindRun Heap)
open Verif.Model.LlxGen (quote)

/-- Lines 170-172, `lineEntry`. -/
structure LineEntry where
  firstPos : Nat
  lastPos : Nat
deriving Repr, DecidableEq

/-- Lines 206-221, `contentLines`; `pos` is the loop variable. -/
def contentLines (content : List Nat) : Nat → Nat → Run (List LineEntry)
  | 0, _ => .timeout
  | fuel + 1, pos =>
    if pos < content.length then
      orPanic (Go.slice content pos content.length) fun rest =>
      match rest.idxOf? 10 with
      | none => .done [⟨pos, content.length⟩]
      | some 0 => .done [⟨pos, content.length⟩]
      | some newPos => bindRun (contentLines content fuel (pos + newPos + 1)) fun ls => .done (⟨pos, pos + newPos⟩ :: ls)
    else .done []

/-- Lines 223-231, `linePrefix`. -/
def linePrefix (line : List Nat) : List Nat :=
  match line.findIdx? (· ≤ 32) with
  | some i => line.take i
  | none => line

/-- Lines 238-242, the loop of `sourceSample`; `first` is `lines[0].firstPos`, `i` is the loop variable. -/
def sampleLoop (content separator : List Nat) (first : Nat) : List LineEntry → Nat → Run (Option (List Nat × Nat))
  | [], _ => .done none
  | entry :: lines, i =>
    orPanic (Go.slice content entry.firstPos entry.lastPos) fun line =>
    if separator.isPrefixOf line then
      orPanic (Go.slice content first entry.firstPos) fun sample => .done (some (sample, i))
    else sampleLoop content separator first lines (i + 1)

/-- Lines 233-245, `sourceSample`. -/
def sourceSample (content : List Nat) (lines : List LineEntry) (separator : List Nat) : Run (List Nat × Nat) :=
  match lines with
  | [] => .done ([], 0)
  | entry :: _ =>
    bindRun (sampleLoop content separator entry.firstPos lines 0) fun r =>
    match r with
    | some x => .done x
    | none => orPanic (Go.slice content entry.firstPos content.length) fun sample => .done (sample, lines.length)

/-- A sample: numbers printed in its name (sample, first line, last line) and its text. -/
structure Sample where
  index : Nat
  first : Nat
  last : Nat
  content : List Nat
deriving Repr, DecidableEq

/-- Lines 194-201, the loop of `makeSources`. -/
def samplesLoop (content : List Nat) (lines : List LineEntry) (separator : List Nat) : Nat → Nat → Nat → Run (List Sample)
  | 0, _, _ => .timeout
  | fuel + 1, sampleIndex, lineIndex =>
    if lineIndex < lines.length then
      bindRun (sourceSample content (lines.drop lineIndex) separator) fun x =>
      bindRun (samplesLoop content lines separator fuel (sampleIndex + 1) (lineIndex + (x.2 + 1))) fun rest =>
      .done (⟨sampleIndex, lineIndex + 1, lineIndex + x.2, x.1⟩ :: rest)
    else .done []

/-- What `makeSources` gives: a whole file, or samples. -/
inductive Sources
  | whole (content : List Nat)
  | samples (l : List Sample)
deriving Repr, DecidableEq

/-- Lines 174-204, `makeSources`, with `makeSource` (lines 161-168) for a whole file; result `none`: the program is stopped
with `errContent`. `valid` is `utf8.Valid`. -/
def makeSources (valid : List Nat → Bool) (fuel : Nat) (content : List Nat) (multiSample : Bool) (separator : List Nat) : Run (Option Sources) :=
  if ¬ (multiSample ∨ (separator.length ≠ 0 ∧ separator.isPrefixOf content)) then
    if valid content then orPanic (normalizeNls content) fun content => .done (some (.whole content)) else .done none
  else
    orPanic (normalizeNls content) fun content =>
    bindRun (contentLines content fuel 0) fun lines =>
    match lines with
    | [] => .done (some (.samples []))
    | entry :: _ =>
      orPanic (Go.slice content entry.firstPos entry.lastPos) fun line =>
      bindRun (samplesLoop content lines (linePrefix line) fuel 1 1) fun l => .done (some (.samples l))

/-! ### Printing -/

/-- A printed piece: text or the end of a line. -/
inductive Piece
  | space (s : List Nat)
  | item (s : List Nat)
  | nl
deriving Repr, DecidableEq

/-- Lines 315-320, `printer`, with everything printed. -/
structure Printer where
  indentSize : Nat
  maxCol : Int
  indentLevel : Int := 0
  col : Int := 0
  indent : List Nat := []
  indentTpl : List Nat := List.replicate 8 32
  space : List Nat := []
  printed : Bool := false
  out : List Piece := []
deriving Repr, DecidableEq

/-- Lines 322-328, `newPrinter`. -/
def newPrinter (indentSize : Nat) (maxLineLength : Int) : Printer := { indentSize, maxCol := maxLineLength - 1 }

/-- Lines 342-352, `Newline`. -/
def Printer.newline (p : Printer) : Printer :=
  if p.printed then { p with space := p.indent, printed := false, col := p.indent.length, out := p.out ++ [.nl] } else p

/-- Lines 330-340, `Print`. -/
def Printer.print (p : Printer) (s : List Nat) : Printer :=
  let strlen := Utf8.runeCount s
  let p := if p.maxCol < strlen + p.col + 1 then p.newline else p
  { p with out := p.out ++ [.space p.space, .item s], col := p.col + (p.space.length + strlen), space := [32], printed := true }

/-- Lines 357-359, the loop of `Indent`. -/
def growTpl (size : Nat) : Nat → List Nat → Run (List Nat)
  | 0, _ => .timeout
  | fuel + 1, tpl => if tpl.length < size then growTpl size fuel (tpl ++ tpl) else .done tpl

/-- Lines 354-365, `Indent`. -/
def Printer.indent' (p : Printer) (fuel : Nat) : Run Printer :=
  let level := p.indentLevel + 1
  let size := level * p.indentSize
  bindRun (growTpl size.toNat fuel p.indentTpl) fun tpl =>
  orPanic (Go.slice tpl 0 size) fun indent =>
  .done { p with indentLevel := level, indentTpl := tpl, indent, space := if p.printed then p.space else indent }

/-- Lines 367-374, `Dedent`. -/
def Printer.dedent (p : Printer) : Run Printer :=
  let level := p.indentLevel - 1
  orPanic (Go.slice p.indentTpl 0 (level * p.indentSize)) fun indent =>
  .done { p with indentLevel := level, indent, space := if p.printed then p.space else indent }

/-- Bytes of a Go string. -/
def strBytes (s : String) : List Nat := s.toList.flatMap fun c => appendRune [] c.toNat

/-- Lines 307-311: the position after `n` runes. -/
def tailPos (content : List Nat) : Nat → Nat → Option Nat
  | 0, pos => some pos
  | n + 1, pos => (Go.slice content pos content.length).bind fun rest => tailPos content n (pos + (Utf8.decodeRune rest).2)

/-- Lines 300-313, `printTreeToken`; `isPrint` is `unicode.IsPrint`. -/
def tokenItem (isPrint : Nat → Bool) (typeName : String) (content : List Nat) : Option (List Nat) :=
  if Utf8.runeCount content ≤ 78 then some (strBytes typeName ++ [40] ++ quote isPrint content ++ [41])
  else (tailPos content 75 0).bind fun n => (Go.slice content 0 n).map fun s =>
    strBytes typeName ++ [40] ++ quote isPrint s ++ [46, 46, 46, 41]

/-- Lines 282-286, the loop of `printTreeNode`: the last node of a chain of only children, its children, the label. -/
def chainLoop (h : Heap) : Nat → Nat → List Nat → List Nat → Run (Nat × List Nat × List Nat)
  | 0, _, _, _ => .timeout
  | fuel + 1, tn, kids, label =>
    match kids with
    | [c] =>
      if (h c).isNode then
        bindRun (Tree.children h fuel (some c)) fun kids => chainLoop h fuel c kids (label ++ [58] ++ strBytes (h c).typeName)
      else .done (tn, kids, label)
    | _ => .done (tn, kids, label)

/-- Result of a step and the rest. -/
def foldRun {α β : Type} (f : β → α → Run β) : List α → β → Run β
  | [], b => .done b
  | a :: l, b => bindRun (f b a) fun b => foldRun f l b

/-- Lines 279-298, `printTreeNode`. -/
def printTreeNode (isPrint : Nat → Bool) (h : Heap) : Nat → Nat → Printer → Run Printer
  | 0, _, _ => .timeout
  | fuel + 1, tn, p =>
    bindRun (Tree.children h fuel (some tn)) fun kids =>
    bindRun (chainLoop h fuel tn kids (strBytes (h tn).typeName)) fun x =>
    bindRun ((((p.print x.2.2).print [123]).newline).indent' fuel) fun p =>
    bindRun (foldRun (fun p child =>
      if (h child).isNode then printTreeNode isPrint h fuel child p
      else
        orPanic (h child).token fun t =>
        orPanic (tokenItem isPrint (h child).typeName t.content) fun s => .done (p.print s)) x.2.1 p) fun p =>
    bindRun p.newline.dedent fun p => .done (p.print [125])

/-- Lines 110-112 of `main`: a tree is printed with indents of 2 spaces (`indentSize`, line 67), lines of `lineWidth` runes. -/
def printTree (isPrint : Nat → Bool) (h : Heap) (fuel : Nat) (root : Nat) (lineWidth : Int) : Run Printer :=
  bindRun ((newPrinter 2 lineWidth).indent' fuel) fun p =>
  bindRun (printTreeNode isPrint h fuel root p) fun p => .done p.newline

end Verif.Model.GrammarTool
