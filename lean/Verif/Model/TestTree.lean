/-
Trees and the tree validator of the project's own tests (`/repo/parser/test/tree.go`).

Simplifications: strings are lists of bytes; an error is a value made of the parts of its message, `%`-formatting is not modelled;
the chain of `stackNode` values is a list, the current one goes first; `length` of a stack node is always `len(node.children)`
(lines 69, 129), so it is not stored; the regular expression `exprRe` is replaced with a scanner (its classes and quotes are ASCII, so
scanning of bytes and scanning of characters find the same strings).
-/
import Verif.Model.Go
import Verif.Model.Objects

namespace Verif.Model.TestTree

/-- `/repo/parser/test/tree.go` lines 17-21: `TreeNode`. -/
inductive TN
  | mk (isNode : Bool) (name text : List Nat) (children : List TN)

/-- Field `isNode`. -/
def TN.isNode : TN → Bool
  | .mk b _ _ _ => b

/-- Field `name`. -/
def TN.name : TN → List Nat
  | .mk _ n _ _ => n

/-- Field `text`. -/
def TN.text : TN → List Nat
  | .mk _ _ t _ => t

/-- Field `children`. -/
def TN.children : TN → List TN
  | .mk _ _ _ c => c

/-- `/repo/parser/test/tree.go` lines 23-25: `NodeNode`. -/
def nodeNode (name : List Nat) : TN := .mk true name [] []

/-- `/repo/parser/test/tree.go` lines 27-29: `TokenNode`. -/
def tokenNode (name content : List Nat) : TN := .mk false name content []

/-- `n.children = append(n.children, child)`. -/
def TN.append : TN → TN → TN
  | .mk b n t c, child => .mk b n t (c ++ [child])

/-- `/repo/parser/test/tree.go` lines 31-53: `testNodeHooks`, one hook for every node; the instance is the node itself.
`names` gives names of nodes, `typeName` gives bytes of names of token types. -/
def testHooks (names : Nat → List Nat) (typeName : String → List Nat) : Spec.HookClass TN TN where
  make node _ := .ok (nodeNode (names node))
  newNode n _ _ := .ok n
  token n tok := .ok (n.append (tokenNode (typeName tok.typeName) tok.content))
  handleNode n _ result := .ok (n.append result)
  endNode n := .ok n

/-- `/repo/parser/test/tree.go` lines 55-59: `stackNode`. -/
structure VFrame where
  node : TN
  index : Int

/-- Field `length` of a stack node. -/
def VFrame.length (f : VFrame) : Int := f.node.children.length

/-- Messages of the validator. -/
inductive Msg
  | expectingNode (name got : List Nat)
  | endInsteadOfToken (name : List Nat)
  | nodeInsteadOfToken (name got : List Nat)
  | otherToken (name gotName gotText : List Nat)
  | endInsteadOfNode
  | tokenInsteadOfNode (got : List Nat)
  | expectingEnd (got : List Nat)
  | excessive
  | missing
deriving DecidableEq

/-- `/repo/parser/test/tree.go` lines 72-88: an error has a path, a name of the current node, and a message. -/
structure VErr where
  path : List Int
  node : List Nat
  msg : Msg
deriving DecidableEq

/-- `/repo/parser/test/tree.go` lines 72-84: `newError`; `cur` is the current stack node, `parents` are its parents. -/
def newError (cur : VFrame) (parents : List VFrame) (msg : Msg) : VErr :=
  ⟨((cur :: parents).map VFrame.index).reverse, cur.node.name, msg⟩

/-- `/repo/parser/test/tree.go` lines 91-93. -/
def unquote (name : List Nat) : Option (List Nat) :=
  (Go.index name 0).bind fun c => if c = 39 then Go.slice name 1 (name.length - 1) else some name

/-- The current stack node and its parents. -/
abbrev Stack := VFrame × List VFrame

/-- `/repo/parser/test/tree.go` lines 90-117: `matchName`. -/
def matchName (s : Stack) (name : List Nat) : Option (Except VErr Stack) :=
  (unquote name).bind fun name =>
  let sn := s.1
  if sn.index < 0 then
    if sn.node.name ≠ name then some (.error (newError sn s.2 (.expectingNode name sn.node.name)))
    else some (.ok (⟨sn.node, sn.index + 1⟩, s.2))
  else if sn.index ≥ sn.length then some (.error (newError sn s.2 (.endInsteadOfToken name)))
  else
    (Go.index sn.node.children sn.index).bind fun child =>
    if child.isNode then some (.error (newError sn s.2 (.nodeInsteadOfToken name child.name)))
    else if child.name ≠ name ∧ child.text ≠ name then
      some (.error (newError sn s.2 (.otherToken name child.name child.text)))
    else some (.ok (⟨sn.node, sn.index + 1⟩, s.2))

/-- `/repo/parser/test/tree.go` lines 119-131: `matchNtStart`. -/
def matchNtStart (s : Stack) : Option (Except VErr Stack) :=
  let sn := s.1
  if sn.index ≥ sn.length then some (.error (newError sn s.2 .endInsteadOfNode))
  else
    (Go.index sn.node.children sn.index).bind fun child =>
    if !child.isNode then some (.error (newError sn s.2 (.tokenInsteadOfNode child.name)))
    else some (.ok (⟨child, -1⟩, sn :: s.2))

/-- `/repo/parser/test/tree.go` lines 133-145: `matchNtEnd`. -/
def matchNtEnd (s : Stack) : Option (Except VErr Stack) :=
  let sn := s.1
  match s.2 with
  | [] => some (.error (newError sn s.2 .excessive))
  | parent :: rest =>
    if sn.index ≠ sn.length then
      (Go.index sn.node.children sn.index).bind fun child =>
      some (.error (newError sn s.2 (.expectingEnd child.name)))
    else some (.ok (⟨parent.node, parent.index + 1⟩, rest))

/-- `/repo/parser/test/tree.go` lines 150-157: one command. -/
def command (s : Stack) (cmd : List Nat) : Option (Except VErr Stack) :=
  if cmd = [40] then matchNtStart s
  else if cmd = [41] then matchNtEnd s
  else matchName s cmd

/-- `/repo/parser/test/tree.go` lines 149-162: the loop of `Validate`. -/
def validateLoop (s : Stack) : List (List Nat) → Option (Except VErr Stack)
  | [] => some (.ok s)
  | cmd :: cmds =>
    (command s cmd).bind fun
    | .error e => some (.error e)
    | .ok s => validateLoop s cmds

/-- `/repo/parser/test/tree.go` lines 147-169: `Validate` of a validator made by lines 68-70. -/
def validate (n : TN) (cmds : List (List Nat)) : Option (Except VErr Unit) :=
  (validateLoop (⟨n, 0⟩, []) cmds).bind fun
  | .error e => some (.error e)
  | .ok s =>
    match s.2 with
    | [] => some (.ok ())
    | _ :: _ => some (.error (newError s.1 s.2 .missing))

/-- Class `\s` of regular expressions: tab, line feed, form feed, carriage return, space. -/
def isSpace (c : Nat) : Bool := c == 9 || c == 10 || c == 12 || c == 13 || c == 32

/-- Class `[^\s()]`. -/
def isPlain (c : Nat) : Bool := !isSpace c && c != 40 && c != 41

/-- Number of bytes before the nearest quote on this line. -/
def quoteAt : List Nat → Option Nat
  | [] => none
  | c :: s => if c = 39 then some 0 else if c = 10 then none else (quoteAt s).map (· + 1)

/-- Length of the longest prefix of bytes of a class. -/
def plainLen : List Nat → Nat
  | [] => 0
  | c :: s => if isPlain c then plainLen s + 1 else 0

/-- Length of a match of `'.+?'` at the beginning. -/
def quotedLen : List Nat → Option Nat
  | c :: d :: s => if c = 39 ∧ d ≠ 10 then (quoteAt s).map (· + 3) else none
  | _ => none

/-- `/repo/parser/test/tree.go` line 66: length of a match of `exprRe` at the beginning, 0 means no match. -/
def matchLen (s : List Nat) : Nat :=
  match s with
  | [] => 0
  | c :: _ =>
    if c = 40 then 1
    else if c = 41 then 1
    else match quotedLen s with
      | some n => n
      | none => plainLen s

/-- `exprRe.FindAllString(expr, -1)`, line 69; `n` limits the number of steps. -/
def findAll : Nat → List Nat → List (List Nat)
  | 0, _ => []
  | _ + 1, [] => []
  | n + 1, c :: s =>
    if matchLen (c :: s) = 0 then findAll n s
    else (c :: s).take (matchLen (c :: s)) :: findAll n ((c :: s).drop (matchLen (c :: s)))

/-- `/repo/parser/test/tree.go` lines 68-70 and 147-169: `NewTreeValidator(n, expr).Validate()`; every step of the search takes a byte. -/
def validateExpr (n : TN) (expr : List Nat) : Option (Except VErr Unit) := validate n (findAll expr.length expr)

end Verif.Model.TestTree
