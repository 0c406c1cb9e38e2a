/-
Model of `/repo/examples/conf-edit/internal/lib.go`: editing of configuration files.

Simplifications:
* Elements of trees live in a heap (`Model/Tree`); `size` is the number of elements created so far.
* Sections and entries are pointers in maps of the code; each one is reached only by its key, so maps are functions to records.
* `strings.TrimSpace` is the parameter `trim`. File access, the size limit and failing writers are not modelled.
* Loops over linked elements and selectors are bounded by `fuel`.
-/
import Verif.Model.TreeHook

namespace Verif.Model.ConfEdit

open Verif.Model.Tree

/-- Token types and nodes, lines 20-32. -/
def secNameToken := "sec-name"
/-- Line 22. -/
def nameToken := "name"
/-- Line 23. -/
def valueToken := "value"
/-- Line 24. -/
def opToken := "op"
/-- Line 25. -/
def nlToken := "nl"
/-- Line 27. -/
def defSectionNt := "def-section"
/-- Line 28. -/
def sectionNt := "section"
/-- Line 29. -/
def entryNt := "entry"
/-- Line 30. -/
def headerNt := "header"
/-- Line 31. -/
def sepNt := "sep"

/-- Created elements. -/
structure Mem where
  heap : Heap
  size : Nat

/-- A new element. -/
def Mem.new (m : Mem) (e : Elem) : Mem := { heap := m.heap.set m.size e, size := m.size + 1 }

/-- Lines 46-50, `Entry`. -/
structure Entry where
  node : Nat
  valueNode : Option Nat
  value : List Nat

/-- Lines 40-44, `Section`. -/
structure Section where
  nodes : List Nat
  entries : List Nat → Option Entry
  updated : Bool

/-- Lines 34-38, `Conf`. -/
structure Conf where
  root : Nat
  sections : List Nat → Option Section
  updated : Bool

/-- `m[k] = v` and `delete(m, k)`. -/
def setKey {α : Type} (m : List Nat → Option α) (k : List Nat) (v : Option α) : List Nat → Option α := fun n => if n = k then v else m n

/-- Lines 69-71, `tokenNode`; lines 73-75, `nlNode`. -/
def tokenNode (typ : String) (text : List Nat) : Elem := newTokenElement { type := 0, typeName := typ, content := text, pos := ⟨none, 0⟩ }

/-- A new token element is added to node `n` as the last child. -/
def Mem.addToken (m : Mem) (n : Nat) (typ : String) (text : List Nat) : Mem :=
  let m' := m.new (tokenNode typ text)
  { m' with heap := addChild m'.heap n (some m.size) none }

/-- Lines 77-81, `sepNode`: the new node is `m.size`. -/
def Mem.sepNode (m : Mem) : Mem := (m.new (newNodeElement sepNt none)).addToken m.size nlToken [10]

/-- Lines 83-92, `splitName`. -/
def splitName (name : List Nat) : List Nat × List Nat :=
  match name.reverse.idxOf? 46 with
  | none => ([], name)
  | some k => (name.take (name.length - 1 - k), name.drop (name.length - k))

/-- Lines 58-60: the first element found by a selector for the type. -/
def firstOf (h : Heap) (fuel : Nat) (typ : String) (n : Nat) : Run (Option Nat) :=
  bindRun ((newSelector.search h fuel (isA h [typ]) false).apply [some n]) fun l => .done l.head?

/-- `x.Token().Text()` for a found element. -/
def textOf (h : Heap) (x : Option Nat) : Run (List Nat) :=
  orPanic x fun x => orPanic (h x).token fun t => .done t.content

/-- Lines 112-123, `AddSectionNode`; the name of the section is returned. -/
def addSectionNode (fuel : Nat) (h : Heap) (c : Conf) (n : Nat) : Run (Conf × List Nat) :=
  bindRun (if (h n).typeName ≠ defSectionNt then bindRun (firstOf h fuel secNameToken n) (textOf h) else .done []) fun name =>
    match c.sections name with
    | some _ => .done (c, name)
    | none => .done ({ c with sections := setKey c.sections name (some ⟨[n], fun _ => none, false⟩) }, name)

/-- Lines 142-145: the first child that is a node. -/
def firstNode (h : Heap) : Nat → Option Nat → Run (Option Nat)
  | 0, _ => .timeout
  | _ + 1, none => .done none
  | fuel + 1, some c => if (h c).isNode then .done (some c) else firstNode h fuel (h c).next

/-- Lines 136-152: a node for the default section, `m.size` is its element. -/
def addDefault (fuel : Nat) (m : Mem) (root : Nat) : Run Mem :=
  let m1 := m.new (newNodeElement defSectionNt none)
  match (m1.heap root).lastChild with
  | none => .done { m1 with heap := addChild m1.heap root (some m.size) none }
  | some child =>
    if (m1.heap child).typeName ≠ defSectionNt then
      bindRun (firstNode m1.heap fuel (m1.heap root).firstChild) fun child =>
        match child with
        | none => .done { m1 with heap := addChild m1.heap root (some m.size) none }
        | some child =>
          let m2 := m1.sepNode
          let h := addChild m2.heap m.size (some m1.size) none
          .done { m2 with heap := prependSibling h (some child) (some m.size) }
    else .done m1

/-- Lines 153-169: a node for the named section, `m.size` is its element. -/
def addNamed (m : Mem) (root : Nat) (name : List Nat) : Run Mem :=
  let m1 := m.new (newNodeElement sectionNt none)
  let header := m1.size
  let m2 := m1.new (newNodeElement headerNt none)
  let m3 := (((m2.addToken header opToken [91]).addToken header secNameToken name).addToken header opToken [93]).addToken header nlToken [10]
  let m4 := { m3 with heap := addChild m3.heap m.size (some header) none }
  let last := match (m4.heap root).lastChild with
    | some child =>
      if (m4.heap child).isNode then
        orPanic (m4.heap child).lastChild fun x =>
          if (m4.heap x).typeName ≠ sepNt then
            let m5 := m4.sepNode
            .done { m5 with heap := addChild m5.heap child (some m4.size) none }
          else .done m4
      else .done m4
    | none => .done m4
  bindRun last fun m5 => .done { m5 with heap := addChild m5.heap root (some m.size) none }

/-- Lines 125-173, `AddSection`. -/
def addSection (fuel : Nat) (m : Mem) (c : Conf) (name : List Nat) : Run (Mem × Conf) :=
  match c.sections name with
  | some _ => .done (m, c)
  | none =>
    bindRun (if name = [] then addDefault fuel m c.root else addNamed m c.root name) fun m' =>
      bindRun (addSectionNode fuel m'.heap { c with updated := true } m.size) fun r => .done (m', r.1)

/-- Lines 179-188, the loop of `RemoveSection`. A token element is not a `NodeElement`. -/
def removeNodes (h : Heap) : List Nat → Run Heap
  | [] => .done h
  | n :: ns =>
    let step1 := match (h n).prev with
      | none => .done h
      | some p =>
        if (h p).isNode then
          match (h p).lastChild with
          | some x => if (h x).typeName = sepNt then .done (detach h (some x)) else .done h
          | none => .done h
        else .panic
    bindRun step1 fun h => removeNodes (detach h (some n)) ns

/-- Lines 175-191, `RemoveSection`. -/
def removeSection (m : Mem) (c : Conf) (name : List Nat) : Run (Mem × Conf) :=
  match c.sections name with
  | none => .done (m, c)
  | some sec => bindRun (removeNodes m.heap sec.nodes) fun h =>
      .done ({ m with heap := h }, { c with updated := true, sections := setKey c.sections name none })

/-- Lines 282-289, `Section.RemoveEntry`. -/
def Section.removeEntry (h : Heap) (s : Section) (name : List Nat) : Heap × Section :=
  match s.entries name with
  | none => (h, s)
  | some e => (detach h (some e.node), { s with updated := true, entries := setKey s.entries name none })

/-- Lines 193-199, `Conf.RemoveEntry`. -/
def removeEntry (m : Mem) (c : Conf) (name : List Nat) : Mem × Conf :=
  let (sn, en) := splitName name
  match c.sections sn with
  | none => (m, c)
  | some s => let r := s.removeEntry m.heap en; ({ m with heap := r.1 }, { c with sections := setKey c.sections sn (some r.2) })

/-- Lines 207-228, `AddEntryNode`. -/
def Section.addEntryNode (trim : List Nat → List Nat) (fuel : Nat) (h : Heap) (s : Section) (n : Nat) : Run (Heap × Section) :=
  bindRun (bindRun (firstOf h fuel nameToken n) (textOf h)) fun name =>
    let old := match s.entries name with
      | none => (h, s, none)
      | some e => (detach h (some e.node), { s with updated := true }, e.valueNode)
    let (h, s, vnode) := old
    bindRun (firstOf h fuel valueToken n) fun v =>
      match v with
      | none => .done (h, { s with entries := setKey s.entries name (some ⟨n, vnode, []⟩) })
      | some v => bindRun (textOf h (some v)) fun text =>
          .done (h, { s with entries := setKey s.entries name (some ⟨n, some v, trim text⟩) })

/-- Lines 245-248: an operator among next siblings; the end of siblings is a panic. -/
def findOp (h : Heap) : Nat → Option Nat → Run Nat
  | 0, _ => .timeout
  | _ + 1, none => .panic
  | fuel + 1, some c => if (h c).typeName ≠ opToken then findOp h fuel (h c).next else .done c

/-- Lines 269-272: the last node that is not a separator. -/
def lastPart (h : Heap) : Nat → Option Nat → Run (Option Nat)
  | 0, _ => .timeout
  | _ + 1, none => .done none
  | fuel + 1, some c => if ¬ (h c).isNode ∨ (h c).typeName = sepNt then lastPart h fuel (h c).prev else .done (some c)

/-- Lines 260-267: a new entry, `m.size` is its element. -/
def Mem.newEntry (m : Mem) (name value : List Nat) : Mem :=
  let m1 := m.new (newNodeElement entryNt none)
  let m2 := (m1.addToken m.size nameToken name).addToken m.size opToken [61]
  let m3 := if value ≠ [] then m2.addToken m.size valueToken value else m2
  m3.addToken m.size nlToken [10]

/-- Lines 230-280, `Section.SetEntry`. The element for the value is created before other ones in the code, numbers of elements mean
nothing. -/
def Section.setEntry (trim : List Nat → List Nat) (fuel : Nat) (m : Mem) (s : Section) (name value : List Nat) : Run (Mem × Section) :=
  match s.entries name with
  | some e =>
    if e.value = value then .done (m, s)
    else
      let vnode := if value ≠ [] then some m.size else none
      let m1 := if value ≠ [] then m.new (tokenNode valueToken value) else m
      let changed := match e.valueNode with
        | none =>
          orPanic (m1.heap e.node).firstChild fun c => bindRun (findOp m1.heap fuel (m1.heap c).next) fun c => .done (appendSibling m1.heap (some c) vnode)
        | some v => orPanic (replace m1.heap (some v) vnode) .done
      bindRun changed fun h =>
        .done ({ m1 with heap := h }, { s with updated := true, entries := setKey s.entries name (some ⟨e.node, vnode, value⟩) })
  | none =>
    let m1 := m.newEntry name value
    orPanic s.nodes.getLast? fun snode =>
    bindRun (lastPart m1.heap fuel (m1.heap snode).lastChild) fun last =>
      let h := match last with
        | none => addChild m1.heap snode (some m.size) (m1.heap snode).firstChild
        | some last => appendSibling m1.heap (some last) (some m.size)
      bindRun (({ s with updated := true } : Section).addEntryNode trim fuel h m.size) fun r => .done ({ m1 with heap := r.1 }, r.2)

/-- Lines 201-205, `Conf.SetEntry`. -/
def setEntry (trim : List Nat → List Nat) (fuel : Nat) (m : Mem) (c : Conf) (name value : List Nat) : Run (Mem × Conf) :=
  let (sn, en) := splitName name
  bindRun (addSection fuel m c sn) fun r =>
    orPanic (r.2.sections sn) fun s =>
    bindRun (s.setEntry trim fuel r.1 en value) fun x => .done (x.1, { r.2 with sections := setKey r.2.sections sn (some x.2) })

/-- Lines 322-327, the inner loop of `Parse`. -/
def loadEntries (trim : List Nat → List Nat) (fuel : Nat) : List Nat → Heap → Section → Run (Heap × Section)
  | [], h, s => .done (h, s)
  | x :: xs, h, s =>
    if (h x).typeName = entryNt then bindRun (s.addEntryNode trim fuel h x) fun r => loadEntries trim fuel xs r.1 r.2
    else loadEntries trim fuel xs h s

/-- Lines 316-328, the loop of `Parse`. -/
def loadSections (trim : List Nat → List Nat) (fuel : Nat) : List Nat → Heap → Conf → Run (Heap × Conf)
  | [], h, c => .done (h, c)
  | x :: xs, h, c =>
    if (h x).isNode then
      bindRun (addSectionNode fuel h c x) fun r =>
      bindRun (children h fuel (some x)) fun entries =>
      orPanic (r.1.sections r.2) fun s =>
      bindRun (loadEntries trim fuel entries h s) fun y =>
      loadSections trim fuel xs y.1 { r.1 with sections := setKey r.1.sections r.2 (some y.2) }
    else loadSections trim fuel xs h c

/-- Lines 313-330, the end of `Parse`: sections and entries of a parsed tree; lines 94-96, `NewConf`. -/
def load (trim : List Nat → List Nat) (fuel : Nat) (h : Heap) (root : Nat) : Run (Heap × Conf) :=
  bindRun (children h fuel (some root)) fun l => loadSections trim fuel l h ⟨root, fun _ => none, false⟩

/-- Lines 364-382, `Serialize`: all written text. A token element has a token. -/
def serialize (h : Heap) (fuel : Nat) (root : Nat) : Run (List Nat) :=
  bindRun (walk h fuel (some root) false (fun (out : List Nat) x =>
    if (h x.1).isNode then (out, 0) else (out ++ ((h x.1).token.map (·.content)).getD [], 0)) []) fun r => .done r.1

/-- Lines 98-110, `Updated`. -/
def Conf.Updated (c : Conf) : Prop := c.updated = true ∨ ∃ n s, c.sections n = some s ∧ s.updated = true

/-! `/repo/examples/conf-edit/conf-edit.go`. Checks of names are in `Model/ConfGrammar`. -/

/-- Lines 75-82, `setValue`. -/
def setValue (trim : List Nat → List Nat) (fuel : Nat) (m : Mem) (c : Conf) (cmd : List Nat) : Run (Mem × Conf) :=
  match cmd.idxOf? 61 with
  | none => setEntry trim fuel m c cmd []
  | some k => setEntry trim fuel m c (cmd.take k) (trim (cmd.drop (k + 1)))

/-- Lines 97-101, `Run`. -/
def runAll (handler : Mem → Conf → List Nat → Run (Mem × Conf)) : List (List Nat) → Mem → Conf → Run (Mem × Conf)
  | [], m, c => .done (m, c)
  | x :: xs, m, c => bindRun (handler m c x) fun r => runAll handler xs r.1 r.2

/-- Lines 39-43, a parsed file and all commands: the order of the lists is at lines 21-24. -/
def runCommands (trim : List Nat → List Nat) (fuel : Nat) (m : Mem) (root : Nat) (rs as cs ss : List (List Nat)) : Run (Mem × Conf) :=
  bindRun (load trim fuel m.heap root) fun r =>
  bindRun (runAll removeSection rs { m with heap := r.1 } r.2) fun r =>
  bindRun (runAll (addSection fuel) as r.1 r.2) fun r =>
  bindRun (runAll (fun m c x => .done (removeEntry m c x)) cs r.1 r.2) fun r =>
  runAll (setValue trim fuel) ss r.1 r.2

/-- Lines 44-46: the text to be saved if the configuration is updated. -/
def savedText (trim : List Nat → List Nat) (fuel : Nat) (m : Mem) (root : Nat) (rs as cs ss : List (List Nat)) : Run (Conf × List Nat) :=
  bindRun (runCommands trim fuel m root rs as cs ss) fun r => bindRun (serialize r.1.heap fuel r.2.root) fun t => .done (r.2, t)

end Verif.Model.ConfEdit
