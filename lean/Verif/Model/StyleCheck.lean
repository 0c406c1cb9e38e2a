/-
Model of the style checker example, `examples/style-check/internal/lib.go`: the token hook, the checks of the syntax tree and the list of
reports. The grammar is in `Verif/Model/StyleGrammar.lean`.

Simplifications:
* A Go map is a function to optional values; where a map is iterated the order of keys is a parameter.
* A message is its fixed part and the text of the token that is appended to it.
* Loops over runes of a text are loops over bytes: the text of an indent token is a newline followed by spaces and tabs.
* Reading a file (lines 113-138) is not modelled.
-/
import Mathlib.Data.List.Sort
import Verif.Model.Pipeline
import Verif.Model.TreeHook

namespace Verif.Model.Style

open Tree

/-- `/repo/examples/style-check/internal/lib.go` line 18, `indentType`. -/
def indentType : String := "indent"
/-- `/repo/examples/style-check/internal/lib.go` line 19, `spaceType`. -/
def spaceType : String := "space"
/-- `/repo/examples/style-check/internal/lib.go` line 20, `commentType`. -/
def commentType : String := "comment"
/-- `/repo/examples/style-check/internal/lib.go` line 23, `opType`. -/
def opType : String := "op"
/-- `/repo/examples/style-check/internal/lib.go` line 27, `rootNt`. -/
def rootNt : String := "cDataGrammar"
/-- `/repo/examples/style-check/internal/lib.go` line 28, `varDefNt`. -/
def varDefNt : String := "var-def"
/-- `/repo/examples/style-check/internal/lib.go` line 29, `typeDefNt`. -/
def typeDefNt : String := "type-def"
/-- `/repo/examples/style-check/internal/lib.go` line 30, `typeNt`. -/
def typeNt : String := "type"
/-- `/repo/examples/style-check/internal/lib.go` line 31, `nameNt`. -/
def nameNt : String := "name"
/-- `/repo/examples/style-check/internal/lib.go` line 33, `structTypeNt`. -/
def structTypeNt : String := "struct-type"

/-- A message: the fixed part and the appended text. -/
abbrev Message := String × List Nat

/-- `/repo/examples/style-check/internal/lib.go` line 39, `ErrAlign`. -/
def errAlign : String := "inconsistent struct field align"
/-- `/repo/examples/style-check/internal/lib.go` line 40, `ErrIndent`. -/
def errIndent : String := "incorrect indent"
/-- `/repo/examples/style-check/internal/lib.go` line 41, `ErrLiteral`. -/
def errLiteral : String := "literal struct types are not allowed, use typedef"
/-- `/repo/examples/style-check/internal/lib.go` line 42, `ErrNoEofNl`. -/
def errNoEofNl : String := "no newline at file end"
/-- `/repo/examples/style-check/internal/lib.go` line 43, `ErrNoSpace`. -/
def errNoSpace : String := "missing space"
/-- `/repo/examples/style-check/internal/lib.go` line 44, `ErrSameLine`. -/
def errSameLine : String := "must be on a separate line"
/-- `/repo/examples/style-check/internal/lib.go` line 45, `ErrSpaces`. -/
def errSpaces : String := "spacing must be exactly one space symbol"
/-- `/repo/examples/style-check/internal/lib.go` line 46, `ErrTab`. -/
def errTab : String := "no tabs allowed"
/-- `/repo/examples/style-check/internal/lib.go` line 47, `ErrTrailSpace`. -/
def errTrailSpace : String := "trailing spaces are not allowed"
/-- `/repo/examples/style-check/internal/lib.go` line 48, `ErrWrongSpace`. -/
def errWrongSpace : String := "excess space"

/-- `/repo/examples/style-check/internal/lib.go` lines 51-54, type `ReportLine`: line, column, message. -/
abbrev ReportLine := Int × Int × Message

/-- `/repo/examples/style-check/internal/lib.go` lines 56-59, type `reports`. -/
structure Reports where
  rm : Int → Option (Int → Option Message)
  totalReports : Nat

/-- `/repo/examples/style-check/internal/lib.go` lines 61-63, `newReports`. -/
def newReports : Reports := ⟨fun _ => none, 0⟩

/-- `/repo/examples/style-check/internal/lib.go` lines 65-73, `report`. -/
def Reports.report (rs : Reports) (line col : Int) (m : Message) : Reports :=
  match rs.rm line with
  | none => ⟨fun l => if l = line then some (fun c => if c = col then some m else none) else rs.rm l, rs.totalReports + 1⟩
  | some lm => ⟨fun l => if l = line then some (fun c => if c = col then some m else lm c) else rs.rm l, rs.totalReports + 1⟩

/-- `/repo/examples/style-check/internal/lib.go` lines 75-78, `reportToken`. -/
def Reports.reportToken (rs : Reports) (t : Token) (m : Message) : Reports :=
  rs.report t.pos.lineCol.1 t.pos.lineCol.2 m

/-- `/repo/examples/style-check/internal/lib.go` lines 80-102, `flatten`. `lines` and `cols` are keys of maps in the order of iteration;
a missing key gives the empty message. -/
def Reports.flatten (rs : Reports) (lines : List Int) (cols : Int → List Int) : List ReportLine :=
  (lines.insertionSort (· ≤ ·)).flatMap fun line =>
    ((cols line).insertionSort (· ≤ ·)).map fun col => (line, col, ((rs.rm line).bind (· col)).getD ("", []))

/-- Calling a method of a nil element or of a nil token panics. -/
def tokenOf (h : Heap) : Option Nat → Run Token
  | none => .panic
  | some n => match (h n).token with
    | none => .panic
    | some t => .done t

/-- `/repo/tree/tree.go` lines 467-475, `Filter` with a filter that may panic. -/
def filterRun (s : Selector) (nf : Nat → Run Bool) : Selector :=
  s.extract (some fun n => bindRun (nf n) fun b => .done (if b then [n] else []))

/-- `for _, n := range els { … }` -/
def forEach (f : Nat → Reports → Run Reports) : List Nat → Reports → Run Reports
  | [], rs => .done rs
  | n :: ns, rs => bindRun (f n rs) (forEach f ns)

/-- `/repo/examples/style-check/internal/lib.go` lines 158-165, `handleToken`. The hook has no state. -/
def handleToken (_ : Unit) (token : Token) : HookProg Unit :=
  if token.pos.pos = 0 ∧ token.typeName = spaceType then
    .ret () false [{ type := 0, typeName := indentType, content := 10 :: token.content, pos := token.pos }]
  else .ret () (token.typeName ≠ commentType) []

/-- `/repo/examples/style-check/internal/lib.go` lines 188-195, `reportNoFinalNl`. -/
def reportNoFinalNl (h : Heap) (fuel st : Nat) (rs : Reports) : Run Reports :=
  bindRun (lastToken h fuel (some st)) fun lt => bindRun (tokenOf h lt) fun t =>
    .done (if t.typeName ≠ indentType then
      rs.report t.pos.lineCol.1 (t.pos.lineCol.2 + t.content.length) (errNoEofNl, []) else rs)

/-- `/repo/examples/style-check/internal/lib.go` lines 197-207, `reportTabs`. -/
def reportTabs (h : Heap) (fuel st : Nat) (rs : Reports) : Run Reports :=
  let sel := filterRun (newSelector.search h fuel (isA h [indentType, spaceType]) false) fun n =>
    bindRun (tokenOf h (some n)) fun t => .done (t.content.contains 9)
  bindRun (sel.apply [some st]) fun els =>
    forEach (fun n rs => bindRun (tokenOf h (some n)) fun t => .done (rs.reportToken t (errTab, []))) els rs

/-- `/repo/examples/style-check/internal/lib.go` lines 210-213, `indentFollows`. -/
def indentFollows (h : Heap) (n : Nat) : Bool :=
  match (h n).next with
  | none => true
  | some nn => (h nn).typeName = indentType

/-- A filter made by `tree.IsALiteral`. -/
def literalRun (h : Heap) (text : List Nat) (n : Nat) : Run Bool :=
  match isALiteral h [text] n with
  | some b => .done b
  | none => .panic

/-- `/repo/examples/style-check/internal/lib.go` lines 209-231, `reportTrailingSpaces`. -/
def reportTrailingSpaces (h : Heap) (fuel st : Nat) (rs : Reports) : Run Reports :=
  let spaceSel := (newSelector.search h fuel (isA h [spaceType]) false).filter (indentFollows h)
  let indentSel := (filterRun (newSelector.search h fuel (isA h [indentType]) false) fun n =>
    bindRun (literalRun h [10] n) fun b => .done !b).filter (indentFollows h)
  bindRun (spaceSel.apply [some st]) fun els =>
    bindRun (forEach (fun n rs => bindRun (tokenOf h (some n)) fun t => .done (rs.reportToken t (errTrailSpace, []))) els rs) fun rs =>
      bindRun (indentSel.apply [some st]) fun els =>
        forEach (fun n rs => bindRun (tokenOf h (some n)) fun t => .done (rs.report (t.pos.lineCol.1 + 1) 1 (errTrailSpace, []))) els rs

/-- `/repo/examples/style-check/internal/lib.go` lines 247-251, the loop of `isStructFieldAlign`. -/
def alignLoop (h : Heap) : List (Option Nat × String) → Bool
  | [] => true
  | (nn, tn) :: rest =>
    match nn with
    | none => false
    | some n => if ¬ (h n).isNode ∨ (h n).typeName ≠ tn then false else alignLoop h rest

/-- `/repo/examples/style-check/internal/lib.go` lines 233-253, `isStructFieldAlign`. -/
def isStructFieldAlign (h : Heap) (n : Nat) : Bool :=
  match (h n).parent with
  | none => false
  | some parent =>
    alignLoop h [((h n).prev, typeNt), ((h n).next, nameNt), (some parent, varDefNt), ((h parent).parent, structTypeNt)]

/-- `/repo/examples/style-check/internal/lib.go` lines 255-266, `reportMultipleSpaces`. -/
def reportMultipleSpaces (h : Heap) (fuel st : Nat) (rs : Reports) : Run Reports :=
  let sel := filterRun (newSelector.search h fuel (isA h [spaceType]) false) fun n =>
    bindRun (literalRun h [32] n) fun b => .done !(if b then true else isStructFieldAlign h n)
  bindRun (sel.apply [some st]) fun els =>
    forEach (fun n rs => bindRun (tokenOf h (some n)) fun t => .done (rs.reportToken t (errSpaces, []))) els rs

/-- `/repo/examples/style-check/internal/lib.go` lines 273-275, the loop of `selector`; a method of nil panics. -/
def nameLoop (h : Heap) : Nat → Option Nat → Run (List Nat)
  | 0, _ => .timeout
  | _ + 1, none => .panic
  | fuel + 1, some n => if (h n).typeName ≠ nameNt then nameLoop h fuel (h n).next else .done [n]

/-- `/repo/examples/style-check/internal/lib.go` lines 271-277, `selector`; a token element is not a `NodeElement`. -/
def nameOf (h : Heap) (fuel : Nat) (n : Nat) : Run (List Nat) :=
  if (h n).isNode then nameLoop h fuel (h n).firstChild else .panic

/-- The column of the first token, `/repo/examples/style-check/internal/lib.go` lines 287 and 289. -/
def firstTok (h : Heap) (fuel n : Nat) : Run Token :=
  bindRun (firstToken h fuel (some n)) (tokenOf h)

/-- `/repo/examples/style-check/internal/lib.go` lines 288-294, the inner loop of `reportInconsistentStructAlign`. -/
def columnLoop (h : Heap) (fuel : Nat) (defaultCol : Int) : List Nat → Reports → Run Reports
  | [], rs => .done rs
  | n :: ns, rs => bindRun (firstTok h fuel n) fun t =>
    if t.pos.lineCol.2 ≠ defaultCol then .done (rs.reportToken t (errAlign, [])) else columnLoop h fuel defaultCol ns rs

/-- `/repo/examples/style-check/internal/lib.go` lines 268-296, `reportInconsistentStructAlign`. -/
def reportInconsistentStructAlign (h : Heap) (fuel st : Nat) (rs : Reports) : Run Reports :=
  bindRun ((newSelector.search h fuel (isA h [structTypeNt]) true).apply [some st]) fun structs =>
    let nameSelector := (newSelector.search h fuel (isA h [varDefNt]) false).extract (some (nameOf h fuel))
    forEach (fun s rs => bindRun (nameSelector.apply [some s]) fun names =>
      match names with
      | [] => .done rs
      | n :: ns => bindRun (firstTok h fuel n) fun t => columnLoop h fuel t.pos.lineCol.2 ns rs) structs rs

/-- `/repo/examples/style-check/internal/lib.go` lines 302-307: `wrongTrail`, `wrongLead`, `gotTrail`, `gotLead`. -/
def wrongTrail : Nat := 1
@[inherit_doc wrongTrail] def wrongLead : Nat := 2
@[inherit_doc wrongTrail] def gotTrail : Nat := 4
@[inherit_doc wrongTrail] def gotLead : Nat := 8

/-- `prev != nil && prev.TypeName() == spaceType`, `/repo/examples/style-check/internal/lib.go` lines 313 and 316. -/
def isSpace (h : Heap) : Option Nat → Bool
  | none => false
  | some n => (h n).typeName = spaceType

/-- `messages[i]`, `/repo/examples/style-check/internal/lib.go` line 299. -/
def spaceMessage (i : Nat) : String := if i = 0 then errNoSpace else errWrongSpace

/-- `/repo/examples/style-check/internal/lib.go` lines 312-329, flags. -/
def spaceFlags (h : Heap) (prev next : Option Nat) (text : List Nat) : Nat :=
  let flags := 0
  let flags := if isSpace h prev then flags ||| (gotLead ||| wrongLead) else flags
  let flags := if isSpace h next then flags ||| (gotTrail ||| wrongTrail) else flags
  if text = [91] ∨ text = [93] ∨ text = [59] then flags
  else if text = [44] ∨ text = [125] then flags ^^^ wrongTrail
  else if text = [123] then flags ^^^ wrongLead
  else flags

/-- `/repo/examples/style-check/internal/lib.go` lines 309-344, a turn of the loop of `reportIncorrectSpaces`. -/
def checkOp (h : Heap) (fuel : Nat) (n : Nat) (rs : Reports) : Run Reports :=
  bindRun (prevToken h fuel (some n)) fun prev => bindRun (Tree.nextToken h fuel (some n)) fun next =>
    bindRun (tokenOf h (some n)) fun tok0 =>
      let text := tok0.content
      let flags := spaceFlags h prev next text
      if flags &&& (wrongLead ||| wrongTrail) ≠ 0 then
        bindRun (if flags &&& wrongLead ≠ 0 then
            bindRun (if flags &&& gotLead ≠ 0 then tokenOf h prev else .done tok0) fun tok =>
              .done (tok, rs.reportToken tok (spaceMessage ((flags &&& gotLead) / gotLead) ++ " before ", text))
          else .done (tok0, rs)) fun s =>
          if flags &&& wrongTrail ≠ 0 then
            bindRun (match next with | some _ => tokenOf h next | none => .done s.1) fun tok =>
              .done (s.2.reportToken tok (spaceMessage ((flags &&& gotTrail) / gotTrail) ++ " after ", text))
          else .done s.2
      else .done rs

/-- `/repo/examples/style-check/internal/lib.go` lines 298-345, `reportIncorrectSpaces`. -/
def reportIncorrectSpaces (h : Heap) (fuel st : Nat) (rs : Reports) : Run Reports :=
  bindRun ((newSelector.search h fuel (isA h [opType]) false).apply [some st]) fun ops => forEach (checkOp h fuel) ops rs

/-- `/repo/examples/style-check/internal/lib.go` lines 347-356, `reportLiteralStructs`. -/
def reportLiteralStructs (h : Heap) (fuel st : Nat) (rs : Reports) : Run Reports :=
  let sel := (newSelector.search h fuel (isA h [varDefNt]) true).search h fuel (isA h [structTypeNt]) false
  bindRun (sel.apply [some st]) fun els =>
    forEach (fun n rs => bindRun (firstTok h fuel n) fun t => .done (rs.reportToken t (errLiteral, []))) els rs

/-- `/repo/examples/style-check/internal/lib.go` lines 365-368, the first loop of `blockIndentSize`. -/
def lineStart (h : Heap) (fuel0 : Nat) : Nat → Option Nat → Bool → Run (Option Nat × Bool)
  | 0, _, _ => .timeout
  | fuel + 1, p, first =>
    match p with
    | none => .done (none, first)
    | some n =>
      if (h n).typeName ≠ indentType then bindRun (prevToken h fuel0 (some n)) fun p => lineStart h fuel0 fuel p false
      else .done (some n, first)

/-- `/repo/examples/style-check/internal/lib.go` lines 374-382: width of an indent. -/
def indentWidth (text : List Nat) : Nat :=
  text.foldl (fun size c => if c = 10 then size else if c = 9 then (size + 7) / 8 * 8 + 1 else size + 1) 0

/-- `/repo/examples/style-check/internal/lib.go` lines 362-384, `blockIndentSize`. -/
def blockIndentSize (h : Heap) (fuel n : Nat) : Run (Nat × Bool) :=
  bindRun (prevToken h fuel (some n)) fun p => bindRun (lineStart h fuel fuel p true) fun r =>
    match r.1 with
    | none => .done (0, r.2)
    | some p => bindRun (tokenOf h (some p)) fun t => .done (indentWidth t.content, r.2)

/-- `/repo/examples/style-check/internal/lib.go` lines 395-405, the inner loop of `reportIncorrectIndents`. -/
def itemLoop (h : Heap) (fuel expected : Nat) : List Nat → Reports → Run Reports
  | [], rs => .done rs
  | item :: items, rs => bindRun (blockIndentSize h fuel item) fun r =>
    if ¬ r.2 then bindRun (firstTok h fuel item) fun t => itemLoop h fuel expected items (rs.reportToken t (errSameLine, []))
    else if r.1 ≠ expected then bindRun (firstTok h fuel item) fun t => .done (rs.reportToken t (errIndent, []))
    else itemLoop h fuel expected items rs

/-- `/repo/examples/style-check/internal/lib.go` lines 358-407, `reportIncorrectIndents`. -/
def reportIncorrectIndents (h : Heap) (fuel st : Nat) (rs : Reports) : Run Reports :=
  bindRun ((newSelector.search h fuel (isA h [rootNt, structTypeNt]) true).apply [some st]) fun containers =>
    let indentSelector := newSelector.search h fuel (isA h [varDefNt, typeDefNt]) false
    forEach (fun container rs =>
      bindRun (if (h container).typeName ≠ rootNt then
          bindRun (blockIndentSize h fuel container) fun r => .done (r.1 + 4)
        else .done 0) fun expected =>
      bindRun (indentSelector.apply [some container]) fun items => itemLoop h fuel expected items rs) containers rs

/-- `/repo/examples/style-check/internal/lib.go` lines 167-186, `inspectCode`. -/
def inspectCode (h : Heap) (fuel st : Nat) : Run Reports :=
  [reportNoFinalNl, reportMultipleSpaces, reportIncorrectSpaces, reportInconsistentStructAlign, reportLiteralStructs, reportIncorrectIndents,
    reportTrailingSpaces, reportTabs].foldl (fun res check => bindRun res (check h fuel st)) (.done newReports)

end Verif.Model.Style
