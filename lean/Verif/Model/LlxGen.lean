/-
Model of `cmd/llxgen/llxgen.go`: `makeGo`, the Go source for a grammar.

Simplifications:
* `strconv.IsPrint` is a parameter. `strconv.Quote` (used by `fmt` for `%q`) and decimal numbers (`%d`) are modelled here.
* The directory name used when there is no package name (lines 92-98) is a parameter.
* `bytes.Buffer` is a byte list.
-/
import Verif.Model.Escape
import Verif.Model.LangParse
import Verif.Model.Utf8

namespace Verif.Model.LlxGen

open Verif.Model.LangDef

/-- A lower case hexadecimal digit. -/
def hexChar (d : Nat) : Nat := if d < 10 then 48 + d else 87 + d

/-- The last `k` hexadecimal digits of a number. -/
def hexChars : Nat → Nat → List Nat
  | 0, _ => []
  | k + 1, n => hexChars k (n / 16) ++ [hexChar (n % 16)]

/-- Go `strconv`, `appendEscapedRune` with `quote` = 34. -/
def escapeRune (isPrint : Nat → Bool) (r : Nat) : List Nat :=
  if r = 34 ∨ r = 92 then [92, r]
  else if isPrint r then appendRune [] r
  else if r = 7 then [92, 97]
  else if r = 8 then [92, 98]
  else if r = 12 then [92, 102]
  else if r = 10 then [92, 110]
  else if r = 13 then [92, 114]
  else if r = 9 then [92, 116]
  else if r = 11 then [92, 118]
  else if r < 32 ∨ r = 127 then [92, 120] ++ hexChars 2 r
  else
    let r := if validRune r then r else Utf8.runeError
    if r < 0x10000 then [92, 117] ++ hexChars 4 r else [92, 85] ++ hexChars 8 r

/-- Go `strconv`, the loop of `appendQuotedWith`. -/
def quoteLoop (isPrint : Nat → Bool) : List Nat → List Nat
  | [] => []
  | b :: t =>
    let d := Utf8.decodeRune (b :: t)
    (if d.2 = 1 ∧ d.1 = Utf8.runeError then [92, 120] ++ hexChars 2 b else escapeRune isPrint d.1) ++
      quoteLoop isPrint ((b :: t).drop d.2)
termination_by l => l.length
decreasing_by
  have := Utf8.decodeRune_width_pos b t
  simp only [List.length_drop, List.length_cons]
  omega

/-- Go `strconv.Quote`. -/
def quote (isPrint : Nat → Bool) (s : List Nat) : List Nat := [34] ++ quoteLoop isPrint s ++ [34]

/-- `%d` for a natural number. -/
def dec (n : Nat) : List Nat :=
  if n < 10 then [48 + n] else dec (n / 10) ++ [48 + n % 10]

/-- `%d`. -/
def decInt : Int → List Nat
  | .ofNat n => dec n
  | .negSucc n => 45 :: dec (n + 1)

/-- `grammar.TokenFlags` as a number, `/repo/grammar/grammar.go` lines 59-86. -/
def flagsNum (f : TokenFlags) : Nat :=
  f.literal.toNat + 2 * f.external.toNat + 4 * f.side.toNat + 8 * f.error.toNat + 16 * f.caseless.toNat + 32 * f.reserved.toNat +
    64 * f.noLiterals.toNat

/-- Lines 104-110: `^[A-Za-z_][A-Za-z_0-9]*$`. -/
def isName : List Nat → Bool
  | [] => false
  | b :: t => letter b && t.all fun c => letter c || (48 ≤ c && c ≤ 57)
where letter (b : Nat) : Bool := (65 ≤ b && b ≤ 90) || b == 95 || (97 ≤ b && b ≤ 122)

/-- Errors of `makeGo`; line 109 reports the package name instead of the variable name. -/
inductive GenErr
  | packageName (name : List Nat)
  | varName (name : List Nat)
deriving DecidableEq

/-- Line 121. -/
def tokenText (q : List Nat → List Nat) (t : GToken) : List Nat :=
  bytesOf "\t\t{Name: " ++ q t.name ++ bytesOf ", Re: " ++ q (t.re.getD []) ++ bytesOf ", Group: " ++ dec t.group ++
    bytesOf ", Flags: " ++ dec (flagsNum t.flags) ++ bytesOf "},\n"

/-- Lines 134-141. -/
def commandText (q : List Nat → List Nat) (c : LayerCommand) : List Nat :=
  bytesOf "\t\t\t{Command: " ++ q c.command ++
    (match c.arguments with
    | [] => []
    | a :: as => bytesOf ", Arguments: []string{" ++ q a ++ as.flatMap fun a => bytesOf ", " ++ q a) ++
    bytesOf "},\n"

/-- Lines 128-144. -/
def layerText (q : List Nat → List Nat) (l : LayerDef) : List Nat :=
  bytesOf "\t\t{Type: " ++ q l.type ++
    (if l.commands.length = 0 then bytesOf "},\n"
    else bytesOf ", Commands: []grammar.LayerCommand{\n" ++ l.commands.flatMap (commandText q) ++ bytesOf "\t\t}},\n")

/-- Lines 125-147. -/
def layersText (q : List Nat → List Nat) (ls : List LayerDef) : List Nat :=
  if ls.length ≠ 0 then bytesOf "\tLayers: []grammar.Layer{\n}" ++ ls.flatMap (layerText q) ++ bytesOf "\t},\n" else []

/-- Line 151. -/
def nodeText (q : List Nat → List Nat) (n : List Nat × Nat) : List Nat :=
  bytesOf "\t\t{Name: " ++ q n.1 ++ bytesOf ", FirstState: " ++ dec n.2 ++ bytesOf "},\n"

/-- Lines 158-168, the loop over states: `i` is the current index. -/
def statesText (nodes : List (List Nat × Nat)) : List GState → Nat → Nat → Nat → Option (List Nat)
  | [], _, _, _ => some []
  | st :: sts, i, nextIndex, nextItem =>
    let text := bytesOf "\t\t{" ++ dec st.types.toNat ++ bytesOf ", " ++ dec st.lowMulti ++ bytesOf ", " ++ dec st.highMulti ++ bytesOf ", " ++
      dec st.lowRule ++ bytesOf ", " ++ dec st.highRule ++ bytesOf "},"
    if i = nextIndex then
      (nodes[nextItem]?).bind fun n =>
        let next := match nodes[nextItem + 1]? with
          | some m => m.2
          | none => nextIndex
        (statesText nodes sts (i + 1) next (nextItem + 1)).map fun rest =>
          text ++ bytesOf " // " ++ n.1 ++ bytesOf "(" ++ dec i ++ bytesOf ")" ++ bytesOf "\n" ++ rest
    else (statesText nodes sts (i + 1) nextIndex nextItem).map fun rest => text ++ bytesOf "\n" ++ rest

/-- Lines 208-217, `findMultiRuleState`: index and state. -/
def findMultiState (states : List GState) (state : Nat) : Nat × Nat :=
  match (states.zipIdx.drop state).find? fun s => s.1.highMulti ≠ 0 with
  | some s => (s.1.lowMulti, s.2)
  | none => (0, 0)

/-- Lines 219-232, `findRuleState`. -/
def findRuleState (t : Tables) (state : Nat) : Option (Nat × Nat) :=
  match (t.states.zipIdx.drop state).find? fun s => s.1.highRule ≠ 0 with
  | some s =>
    if s.1.highMulti ≠ 0 then (t.multi[s.1.lowMulti]?).map fun m => (if m.lowRule < s.1.lowRule then m.lowRule else s.1.lowRule, s.2)
    else some (s.1.lowRule, s.2)
  | none => some (0, 0)

/-- Lines 177-183 and 193-199, the loops over multi rules and rules: `find` is the function searching for the next state. -/
def rulesText {α : Type} (text : α → List Nat) (find : Nat → Option (Nat × Nat)) : List α → Nat → Nat → Nat → Option (List Nat)
  | [], _, _, _ => some []
  | r :: rs, i, nextIndex, nextItem =>
    if i = nextIndex then
      (find (nextItem + 1)).bind fun n =>
        (rulesText text find rs (i + 1) n.1 n.2).map fun rest =>
          bytesOf "\n\t\t{" ++ text r ++ bytesOf "}," ++ bytesOf " // " ++ dec nextItem ++ bytesOf "(" ++ dec i ++ bytesOf ")" ++ rest
    else (rulesText text find rs (i + 1) nextIndex nextItem).map fun rest => bytesOf "\n\t\t{" ++ text r ++ bytesOf "}," ++ rest

/-- Lines 172-185 and 188-201. -/
def ruleBlock {α : Type} (head : String) (text : α → List Nat) (find : Nat → Option (Nat × Nat)) (rs : List α) : Option (List Nat) :=
  if rs.length = 0 then some (bytesOf head ++ bytesOf "},\n")
  else (find 0).bind fun n => (rulesText text find rs 0 n.1 n.2).map fun rest => bytesOf head ++ rest ++ bytesOf "\n\t},\n"

/-- Line 178. -/
def multiText (m : MultiRule) : List Nat := decInt m.token ++ bytesOf ", " ++ dec m.lowRule ++ bytesOf ", " ++ dec m.highRule

/-- Line 194. -/
def ruleText (r : Rule) : List Nat := decInt r.token ++ bytesOf ", " ++ decInt r.state ++ bytesOf ", " ++ decInt r.node

/-- Lines 112-205: the text. -/
def goText (isPrint : Nat → Bool) (pkg var : List Nat) (p : Parsed) : Option (List Nat) :=
  let q := quote isPrint
  let t := p.grammar.tables
  let nodes := p.names.zip p.grammar.firsts
  (statesText nodes t.states 0 0 0).bind fun states =>
    (ruleBlock "\tMultiRules: []grammar.MultiRule{" multiText (fun s => some (findMultiState t.states s)) t.multi).bind fun multi =>
      (ruleBlock "\tRules: []grammar.Rule{" ruleText (findRuleState t) t.rules).map fun rules =>
        bytesOf "// Code generated with llxgen.\n\npackage " ++ pkg ++ bytesOf "\n\nimport \"github.com/ava12/llx/grammar\"\n\nvar " ++ var ++
          bytesOf " = &grammar.Grammar{\n" ++
          bytesOf "\tTokens: []grammar.Token{\n" ++ p.grammar.tokens.flatMap (tokenText q) ++ bytesOf "\t},\n" ++
          layersText q p.layers ++
          bytesOf "\tNodes: []grammar.Node{\n" ++ nodes.flatMap (nodeText q) ++ bytesOf "\t},\n" ++
          bytesOf "\tStates: []grammar.State{\n" ++ states ++ bytesOf "\t},\n" ++
          multi ++ rules ++ bytesOf "}\n"

/-- `/repo/cmd/llxgen/llxgen.go` lines 90-206, `makeGo`: `dir` is the directory name; `none` is a panic. -/
def makeGo (isPrint : Nat → Bool) (dir packageName varName : List Nat) (p : Parsed) : Option (Except GenErr (List Nat)) :=
  let pkg := if packageName = [] then dir else packageName
  (if varName = [] then p.names[0]? else some varName).bind fun var =>
    if ¬ isName pkg then some (.error (.packageName pkg))
    else if ¬ isName var then some (.error (.varName pkg))
    else (goText isPrint pkg var p).map .ok

end Verif.Model.LlxGen
