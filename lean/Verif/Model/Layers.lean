/-
Model of hook layer templates: the registry (`parser/hooks.go`, `parser.New`), layers "convert" and "restrict"
(`parser/layers/convert/convert.go`, `parser/layers/restrict/restrict.go`), node part of `newHookLayer`.

Strings are lists of bytes; Go maps are lists of pairs with distinct keys. Error texts and arguments are not modelled.
-/
import Verif.Model.Pipeline

namespace Verif.Model

/-- `/repo/grammar/grammar.go` lines 88-94, type `LayerCommand`. -/
structure LayerCommand where
  command : List Nat
  arguments : List (List Nat) := []
deriving DecidableEq

/-- `/repo/grammar/grammar.go` lines 96-103, type `Layer`. -/
structure LayerDef where
  type : List Nat
  commands : List LayerCommand := []
deriving DecidableEq

/-- `/repo/parser/layers/common/errors.go` lines 11-27, error codes. -/
inductive LayerErr
  | unknownCommand
  | missingCommand
  | numberOfArguments
  | invalidArgument
  | commandAlreadyUsed
  | unknownTokenType
  | wrongToken
deriving DecidableEq

/-! Registry -/

/-- `/repo/parser/hooks.go` lines 189-207: map `knownHookLayers` and `RegisterHookLayer`; the flag is false if an error is
returned. The lock is not modelled (calls are made one after another). -/
def registerLayer {τ : Type} (known : List (List Nat × τ)) (name : List Nat) (tpl : τ) : List (List Nat × τ) × Bool :=
  match known.lookup name with
  | some _ => (known, false)
  | none => (known ++ [(name, tpl)], true)

/-- Errors of `parser.New` caused by layers. -/
inductive NewErr
  | unknownLayer (name : List Nat)
  | setup (e : LayerErr)
deriving DecidableEq

/-- `/repo/parser/parser.go` lines 27-31 and 47-50: options; the last `WithLayerTemplates` wins. -/
def layerTemplates {τ : Type} (opts : List (List (List Nat × τ))) : List (List Nat × τ) := opts.getLastD []

/-- `/repo/parser/parser.go` lines 115-118: the template for a layer. -/
def findTemplate {τ : Type} (templates known : List (List Nat × τ)) (name : List Nat) : Option τ :=
  match templates.lookup name with
  | some t => some t
  | none => known.lookup name

/-- `/repo/parser/parser.go` lines 114-128, the loop over layers of the grammar. -/
def newLayers {τ lay : Type} (setup : τ → List LayerCommand → Except LayerErr lay) (templates known : List (List Nat × τ)) :
    List LayerDef → Except NewErr (List lay)
  | [] => .ok []
  | d :: ds =>
    match findTemplate templates known d.type with
    | none => .error (.unknownLayer d.type)
    | some tpl =>
      match setup tpl d.commands with
      | .error e => .error (.setup e)
      | .ok l =>
        match newLayers setup templates known ds with
        | .error e => .error e
        | .ok ls => .ok (l :: ls)

/-! Layer "convert" -/

/-- Variables of `Setup`, `/repo/parser/layers/convert/convert.go` lines 75-81. -/
structure ConvertVars where
  inputTypeName : List Nat := []
  outputTypeName : List Nat := []
  replaces : List (List Nat × List Nat) := []
  savePosition : Bool := false
  gotReplaces : Bool := false
deriving DecidableEq

/-- `/repo/parser/layers/convert/convert.go` lines 117-125; the number of arguments is even. -/
def convertPairs : List (List Nat) → List (List Nat × List Nat) → Except LayerErr (List (List Nat × List Nat))
  | src :: dst :: args, replaces =>
    match replaces.lookup src with
    | some _ => .error .invalidArgument
    | none => convertPairs args (replaces ++ [(src, dst)])
  | _, replaces => .ok replaces

/-- `/repo/parser/layers/convert/convert.go` lines 84-132, the body of the loop over commands. -/
def convertCommand (g : Grammar) (v : ConvertVars) (c : LayerCommand) : Except LayerErr ConvertVars :=
  if c.command = bytesOf "input-type" ∨ c.command = bytesOf "output-type" then
    match c.arguments with
    | [arg] =>
      match g.tokenName arg with
      | none => .error .unknownTokenType
      | some _ =>
        if c.command = bytesOf "input-type" then
          if v.inputTypeName ≠ [] then .error .commandAlreadyUsed else .ok { v with inputTypeName := arg }
        else
          if v.outputTypeName ≠ [] then .error .commandAlreadyUsed else .ok { v with outputTypeName := arg }
    | _ => .error .numberOfArguments
  else if c.command = bytesOf "convert" then
    if c.arguments.length = 0 ∨ c.arguments.length % 2 ≠ 0 then .error .numberOfArguments
    else
      match convertPairs c.arguments v.replaces with
      | .error e => .error e
      | .ok r => .ok { v with gotReplaces := true, replaces := r }
  else if c.command = bytesOf "save-position" then .ok { v with savePosition := true }
  else .error .unknownCommand

/-- `/repo/parser/layers/convert/convert.go` lines 83-133, the loop over commands. -/
def convertCommands (g : Grammar) : ConvertVars → List LayerCommand → Except LayerErr ConvertVars
  | v, [] => .ok v
  | v, c :: cs =>
    match convertCommand g v c with
    | .error e => .error e
    | .ok v => convertCommands g v cs

/-- Type name of a token as shown in messages. -/
def nameOf (b : List Nat) : String := String.ofList (b.map Char.ofNat)

/-- `/repo/parser/layers/convert/convert.go` lines 149-167, the hook; captured variables do not change. -/
def convertHook {η : Type} (outputType : Option (Int × List Nat)) (v : ConvertVars) : TokenHook η := fun st token =>
  match v.replaces.lookup token.content with
  | none => .ret st true []
  | some replace =>
    let pos : SrcPos := if v.savePosition then token.pos else ⟨none, 0⟩
    let newToken : Token := match outputType with
      | none => ⟨token.type, token.typeName, replace, pos⟩
      | some (t, name) => ⟨t, nameOf name, replace, pos⟩
    .ret st false [newToken]

/-- `/repo/parser/layers/convert/convert.go` lines 74-170, `Setup`; the result of an unknown name is 0 in Go (it is
checked before, line 91). -/
def convertSetup {η : Type} (g : Grammar) (cs : List LayerCommand) : Except LayerErr (THooks η) :=
  match convertCommands g {} cs with
  | .error e => .error e
  | .ok v =>
    if ¬ v.gotReplaces then .error .missingCommand
    else
      let outputTypeName := if v.outputTypeName = [] ∧ v.inputTypeName ≠ [] then v.inputTypeName else v.outputTypeName
      let outputType := if outputTypeName = [] then none else some ((g.tokenName outputTypeName).getD 0, outputTypeName)
      .ok { tokens := [(v.inputTypeName, convertHook outputType v)] }

/-! Layer "restrict" -/

/-- `/repo/parser/layers/restrict/restrict.go` lines 77-100, variables of `Setup` (numbers of lines of that file). -/
structure RestrictVars where
  /-- keys of `result.Nodes`, all of them have the same hook -/
  nodes : List (List Nat) := []
  /-- `specialNodes` -/
  special : List (List Nat × Bool) := []
  restricted : Bool := false
deriving DecidableEq

/-- `/repo/parser/layers/restrict/restrict.go` lines 110-117. -/
def restrictNodes : List (List Nat) → List (List Nat) → Except LayerErr (List (List Nat))
  | [], nodes => .ok nodes
  | n :: ns, nodes => if n ∈ nodes then .error .invalidArgument else restrictNodes ns (nodes ++ [n])

/-- `/repo/parser/layers/restrict/restrict.go` lines 128-135. -/
def restrictSpecial (allow : Bool) : List (List Nat) → List (List Nat × Bool) → Except LayerErr (List (List Nat × Bool))
  | [], special => .ok special
  | n :: ns, special =>
    match special.lookup n with
    | some _ => .error .invalidArgument
    | none => restrictSpecial allow ns (special ++ [(n, allow)])

/-- `/repo/parser/layers/restrict/restrict.go` lines 103-139, the body of the loop over commands. -/
def restrictCommand (v : RestrictVars) (c : LayerCommand) : Except LayerErr RestrictVars :=
  if c.command = bytesOf "node" then
    if c.arguments.length = 0 then .error .numberOfArguments
    else
      match restrictNodes c.arguments v.nodes with
      | .error e => .error e
      | .ok nodes => .ok { v with nodes := nodes }
  else if c.command = bytesOf "allow-in" ∨ c.command = bytesOf "forbid-in" then
    if c.arguments.length = 0 then .error .numberOfArguments
    else
      let allow : Bool := c.command = bytesOf "allow-in"
      match restrictSpecial allow c.arguments v.special with
      | .error e => .error e
      | .ok special => .ok { v with special := special, restricted := v.restricted || !allow }
  else .error .unknownCommand

/-- `/repo/parser/layers/restrict/restrict.go` lines 102-140, the loop over commands. -/
def restrictCommands : RestrictVars → List LayerCommand → Except LayerErr RestrictVars
  | v, [] => .ok v
  | v, c :: cs =>
    match restrictCommand v c with
    | .error e => .error e
    | .ok v => restrictCommands v cs

/-- `/repo/parser/layers/restrict/restrict.go` lines 83-98, the hook: `stack` is `nc.NodeStack()`; there is never an
instance. -/
def restrictHook (special : List (List Nat × Bool)) : List (List Nat) → Except LayerErr Unit
  | [] => .ok ()
  | ancestor :: stack =>
    match special.lookup ancestor with
    | none => restrictHook special stack
    | some true => .ok ()
    | some false => .error .wrongToken

/-- `/repo/parser/layers/restrict/restrict.go` lines 77-151, `Setup`: names of hooked nodes and the list of special
nodes used by the hook. -/
def restrictSetup (cs : List LayerCommand) : Except LayerErr (List (List Nat) × List (List Nat × Bool)) :=
  match restrictCommands {} cs with
  | .error e => .error e
  | .ok v =>
    if v.nodes.length = 0 then .error .missingCommand
    else if ¬ v.restricted then .error .missingCommand
    else .ok (v.nodes, v.special)

/-! Node hooks of a layer -/

/-- `/repo/parser/parser.go` lines 73 and 102-104: `Parser.nodeNames`; the last node with the name wins. -/
def nodeName (names : List (List Nat)) (name : List Nat) : Option Int :=
  match ((List.range names.length).filter fun i => names[i]? = some name).getLast? with
  | some i => some i
  | none => if name = [] then some (-1) else none

/-- `/repo/parser/parser.go` lines 322-332, the part of `newHookLayer` for node hooks: the outer `none` is an error
(unknown node), the inner one is a panic. Index in the result is node index plus 1. -/
def newNodeLayer {H : Type} (names : List (List Nat)) : List (List Nat × H) → List (Option H) → Option (Option (List (Option H)))
  | [], hooks => some (some hooks)
  | (k, h) :: hs, hooks =>
    match nodeName names k with
    | none => none
    | some i =>
      match Go.setIndex hooks (i + 1) (some h) with
      | none => some none
      | some hooks => newNodeLayer names hs hooks

/-- `/repo/parser/parser.go` lines 268-272: node hooks of grammar layers are added to those of the user; errors returned by
`newHookLayer` are ignored; `none` is a panic. `hs` are layers in the order of initialization. -/
def addNodeLayers {H : Type} (names : List (List Nat)) : List (List (List Nat × H)) → List (List (Option H)) →
    Option (List (List (Option H)))
  | [], ls => some ls
  | h :: hs, ls =>
    if h.length > 0 then
      match newNodeLayer names h (List.replicate (names.length + 1) none) with
      | none => addNodeLayers names hs ls
      | some none => none
      | some (some l) => addNodeLayers names hs (ls ++ [l])
    else addNodeLayers names hs ls

/-- `/repo/parser/parser.go` lines 651-663, `getNodeHook`: choice of a hook; `none` is a panic. -/
def pickNodeHook {H : Type} (layer : List (Option H)) (index : Nat) : Option (Option H) :=
  (Go.index layer (index + 1)).bind fun h => match h with
    | some h => some (some h)
    | none => Go.index layer 0

end Verif.Model
