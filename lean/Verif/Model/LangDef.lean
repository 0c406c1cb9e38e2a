/-
Model of `/repo/langdef/parser.go` lines 194-350, 410-873: reading of a grammar description.

Simplifications:
- The input is the list of results of `llxLexer.Next` followed by `processStringToken` (C45): tokens and errors; then the end of
  file is returned forever. Results of these calls do not depend on the state of the reader.
- Tokens `-eof-` and `-eoi-` are not distinguished: all checks treat them in the same way.
- Positions and texts of errors are not modelled.
- `regexp.Compile` is a parameter telling whether an expression is correct.
- `result.Nodes` and `result.NIndex` are always changed together and are represented by one list of nodes.
- `FirstTokens` of a node item is empty at this stage. A chunk of a node is filled when its definition has been read.
- Go maps are lists of pairs, the first pair for a key is the current one.
-/
import Verif.Model.Compile
import Verif.Model.Layers
import Verif.Model.Escape

namespace Verif.Model.LangDef

open Verif.Model

/-- Kinds of tokens: `/repo/langdef/parser.go` lines 156-165, types of the lexer. -/
inductive Kind
  | string
  | name
  | dir
  | templateName
  | tokenName
  | regexp
  | op
  | eof
deriving DecidableEq

/-- `/repo/langdef/parser.go` lines 75-82: a type name; `/repo/lexer/token.go` line 81: `EofTokenName`. -/
def Kind.text : Kind → List Nat
  | .string => bytesOf "string"
  | .name => bytesOf "name"
  | .dir => bytesOf "dir"
  | .templateName => bytesOf "template-name"
  | .tokenName => bytesOf "token-name"
  | .regexp => bytesOf "regexp"
  | .op => bytesOf "op"
  | .eof => bytesOf "-eof-"

/-- A token: `TypeName()` and `Text()`. -/
structure LTok where
  kind : Kind
  text : List Nat
deriving DecidableEq

/-- `/repo/langdef/errors.go`: error codes; errors of the lexer and of `processStringToken`. -/
inductive LErr
  | lexer
  | escape (e : EscErr)
  | eof
  | unexpectedToken
  | unknownToken
  | wrongToken
  | tokenDefined
  | nodeDefined
  | wrongRegexp
  | tokenTypeNumber
  | undefinedToken
  | unknownLiteral
  | reassignedGroup
  | templateDefined
  | unknownTemplate
  | unknownDirective
deriving DecidableEq

/-- `/repo/langdef/parser.go` line 90: `equTok`. -/
def opEqu : List Nat := [61]
/-- `/repo/langdef/parser.go` line 91: `commaTok`. -/
def opComma : List Nat := [44]
/-- `/repo/langdef/parser.go` line 92: `semicolonTok`. -/
def opSemicolon : List Nat := [59]
/-- `/repo/langdef/parser.go` line 93: `pipeTok`. -/
def opPipe : List Nat := [124]
/-- `/repo/langdef/parser.go` line 94: `lBraceTok`. -/
def opLBrace : List Nat := [40]
/-- `/repo/langdef/parser.go` line 95: `rBraceTok`. -/
def opRBrace : List Nat := [41]
/-- `/repo/langdef/parser.go` line 96: `lSquareTok`. -/
def opLSquare : List Nat := [91]
/-- `/repo/langdef/parser.go` line 97: `rSquareTok`. -/
def opRSquare : List Nat := [93]
/-- `/repo/langdef/parser.go` line 98: `lCurlyTok`. -/
def opLCurly : List Nat := [123]
/-- `/repo/langdef/parser.go` line 99: `rCurlyTok`. -/
def opRCurly : List Nat := [125]
/-- `/repo/langdef/parser.go` line 608. -/
def opLayer : List Nat := [64]

/-- Field `q` (as the list of results of calls) and field `savedToken` of `parseContext`. -/
structure Feed where
  inp : List (Except LErr LTok)
  saved : Option LTok := none

/-- Result of a function that may panic, hang or return an error. -/
abbrev LRes (α : Type) := Run (Except LErr α)

/-- `if e != nil { return e }`. -/
def bindL {α β : Type} (x : LRes α) (f : α → LRes β) : LRes β :=
  match x with
  | .done (.ok a) => f a
  | .done (.error e) => .done (.error e)
  | .panic => .panic
  | .timeout => .timeout

/-- `/repo/langdef/parser.go` lines 294-300, `put`: panics if there is a saved token. -/
def put (f : Feed) (t : LTok) : Option Feed :=
  match f.saved with
  | some _ => none
  | none => some { f with saved := some t }

/-- `/repo/langdef/parser.go` lines 313-327: the saved token or the next one. -/
def next (f : Feed) : Except LErr LTok × Feed :=
  match f.saved with
  | some t => (.ok t, { f with saved := none })
  | none =>
    match f.inp with
    | [] => (.ok ⟨.eof, []⟩, f)
    | x :: inp => (x, { f with inp := inp })

/-- `/repo/langdef/parser.go` lines 307-349, `fetch` with `e` = nil; `none` is a panic, the token is `none` for nil. -/
def fetch (types : List (List Nat)) (strict : Bool) (f : Feed) : Option (Except LErr (Option LTok) × Feed) :=
  match next f with
  | (.error e, f) => some (.error e, f)
  | (.ok t, f) =>
    if t.kind.text ∈ types ∨ t.text ∈ types then some (.ok (some t), f)
    else if t.kind = .eof then
      if strict then some (.error .eof, f) else some (.ok (some t), f)
    else if strict then some (.error .unexpectedToken, f)
    else (put f t).map fun f => (.ok none, f)

/-- `t, e := c.fetch(types, false, nil); if e != nil { return e }`. -/
def tryFetch (types : List (List Nat)) (f : Feed) : LRes (Option LTok × Feed) :=
  orPanic (fetch types false f) fun r =>
    match r with
    | (.error e, _) => .done (.error e)
    | (.ok t, f) => .done (.ok (t, f))

/-- `t, e := c.fetch(types, true, nil); if e != nil { return e }` and lines 436-447, `skip`. A use of a nil token would be a
panic. -/
def need (types : List (List Nat)) (f : Feed) : LRes (LTok × Feed) :=
  orPanic (fetch types true f) fun r =>
    match r with
    | (.error e, _) => .done (.error e)
    | (.ok none, _) => .panic
    | (.ok (some t), f) => .done (.ok (t, f))

/-- `/repo/langdef/parser.go` lines 414-434, `fetchAll`. -/
def fetchAll : Nat → List (List Nat) → Feed → LRes (List LTok × Feed)
  | 0, _, _ => .timeout
  | fuel + 1, types, f =>
    bindL (tryFetch types f) fun (t, f) =>
      match t with
      | none => .done (.ok ([], f))
      | some t => bindL (fetchAll fuel types f) fun (ts, f) => .done (.ok (t :: ts, f))

/-- `/repo/langdef/parser.go` lines 523-527, 548-552, 574-578, 588-592: arguments of a directive and a semicolon. -/
def fetchList (fuel : Nat) (types : List (List Nat)) (f : Feed) : LRes (List LTok × Feed) :=
  bindL (fetchAll fuel types f) fun (ts, f) => bindL (need [opSemicolon] f) fun (_, f) => .done (.ok (ts, f))

/-- `/repo/langdef/parser.go` lines 112-116, `extraToken`. -/
structure ExtraToken where
  name : List Nat
  group : Nat := 0
  flags : TokenFlags := {}
deriving DecidableEq

/-- `/repo/langdef/parser.go` lines 21-26, `nodeItem`, and a node. -/
structure NodeEntry where
  name : List Nat
  deps : Finset Nat := ∅
  chunk : Option Chunk := none

/-- `/repo/langdef/parser.go` lines 123-136, `parseContext`, without `q` and `savedToken`; `result` is included. -/
structure Ctx where
  tokens : List GToken := []
  nodes : List NodeEntry := []
  layers : List LayerDef := []
  literals : List (List Nat × TokenFlags) := []
  tokenIndex : List (List Nat × Nat) := []
  literalIndex : List (List Nat × Nat) := []
  extraTokens : List ExtraToken := []
  extraIndex : List (List Nat × Nat) := []
  templates : List (List Nat × List Nat) := []
  currentGroup : Nat := 0
  restrictLiteralTypes : Bool := false
  restrictLiterals : Bool := false

/-- `a | b` for flags. -/
def orFlags (a b : TokenFlags) : TokenFlags where
  literal := a.literal || b.literal
  external := a.external || b.external
  side := a.side || b.side
  error := a.error || b.error
  caseless := a.caseless || b.caseless
  reserved := a.reserved || b.reserved
  noLiterals := a.noLiterals || b.noLiterals

/-- `/repo/langdef/parser.go` lines 449-460, `addToken`; an empty expression is `none`. -/
def addToken (c : Ctx) (name re : List Nat) (flags : TokenFlags) : Option Ctx :=
  let re := if re = [] then none else some re
  match c.extraIndex.lookup name with
  | some i => (c.extraTokens[i]?).map fun t =>
    { c with
      extraIndex := c.extraIndex.filter fun p => p.1 ≠ name
      tokens := c.tokens ++ [{ name := name, re := re, group := t.group, flags := orFlags flags t.flags }]
      tokenIndex := (name, c.tokens.length) :: c.tokenIndex }
  | none => some
    { c with
      tokens := c.tokens ++ [{ name := name, re := re, group := 0, flags := flags }]
      tokenIndex := (name, c.tokens.length) :: c.tokenIndex }

/-- `/repo/langdef/parser.go` lines 462-468, `addLiteralToken`. -/
def addLiteralToken (c : Ctx) (name : List Nat) (flags : TokenFlags) : Ctx :=
  match c.literalIndex.lookup name with
  | some _ => c
  | none => { c with
      literalIndex := (name, c.literals.length) :: c.literalIndex
      literals := c.literals ++ [(name, flags)] }

/-- `/repo/langdef/parser.go` lines 470-480, `useLiteralToken`. -/
def useLiteralToken (c : Ctx) (name : List Nat) (flags : TokenFlags) : Nat × Ctx :=
  match c.literalIndex.lookup name with
  | some i => (i, c)
  | none => (c.tokens.length, { c with
      tokens := c.tokens ++ [{ name := name, re := none, group := 0, flags := orFlags flags { literal := true } }]
      literalIndex := (name, c.tokens.length) :: c.literalIndex })

/-- `/repo/langdef/parser.go` lines 482-490, `addExtraToken`. -/
def addExtraToken (c : Ctx) (name : List Nat) : Nat × Ctx :=
  match c.extraIndex.lookup name with
  | some i => (i, c)
  | none => (c.extraTokens.length, { c with
      extraTokens := c.extraTokens ++ [{ name := name }]
      extraIndex := (name, c.extraTokens.length) :: c.extraIndex })

/-- `xs[i] = f(xs[i])`. -/
def update {α : Type} (xs : List α) (i : Nat) (f : α → α) : Option (List α) := (xs[i]?).map fun x => xs.set i (f x)

/-- `/repo/langdef/parser.go` lines 492-500, `addTokenFlag`. -/
def addTokenFlag (c : Ctx) (name : List Nat) (flag : TokenFlags) : Option Ctx :=
  match c.tokenIndex.lookup name with
  | some i => (update c.tokens i fun t => { t with flags := orFlags t.flags flag }).map fun ts => { c with tokens := ts }
  | none =>
    let (i, c) := addExtraToken c name
    (update c.extraTokens i fun t => { t with flags := orFlags t.flags flag }).map fun ts => { c with extraTokens := ts }

/-- `/repo/langdef/parser.go` line 103. -/
def sideDir : List Nat := bytesOf "!side"
/-- `/repo/langdef/parser.go` line 104. -/
def caselessDir : List Nat := bytesOf "!caseless"
/-- `/repo/langdef/parser.go` line 105. -/
def errorDir : List Nat := bytesOf "!error"
/-- `/repo/langdef/parser.go` line 106. -/
def externDir : List Nat := bytesOf "!extern"
/-- `/repo/langdef/parser.go` line 107. -/
def groupDir : List Nat := bytesOf "!group"
/-- `/repo/langdef/parser.go` line 108. -/
def literalDir : List Nat := bytesOf "!literal"
/-- `/repo/langdef/parser.go` line 109. -/
def reservedDir : List Nat := bytesOf "!reserved"

/-- `text[1:]`. -/
def tail1 (t : List Nat) : Option (List Nat) := Go.slice t 1 t.length

/-- `text[1:len(text)-1]`. -/
def innerText (t : List Nat) : Option (List Nat) := Go.slice t 1 (t.length - 1)

/-- `/repo/langdef/parser.go` lines 540-542, the loop of `parseTokenFlagDir`. -/
def addFlags (flag : TokenFlags) : List LTok → Ctx → Option Ctx
  | [], c => some c
  | t :: ts, c => (tail1 t.text).bind fun name => (addTokenFlag c name flag).bind (addFlags flag ts)

/-- `/repo/langdef/parser.go` lines 529-539. -/
def dirFlag (name : List Nat) : TokenFlags :=
  if name = sideDir then { side := true }
  else if name = caselessDir then { caseless := true }
  else if name = externDir then { external := true }
  else if name = errorDir then { error := true }
  else {}

/-- `/repo/langdef/parser.go` lines 522-545, `parseTokenFlagDir`. -/
def parseTokenFlagDir (fuel : Nat) (name : List Nat) (c : Ctx) (f : Feed) : LRes (Ctx × Feed) :=
  bindL (fetchList fuel [Kind.tokenName.text] f) fun (ts, f) =>
    orPanic (addFlags (dirFlag name) ts c) fun c => .done (.ok (c, f))

/-- `/repo/langdef/parser.go` lines 555-568, the loop of `parseGroupDir`. -/
def addGroups : List LTok → Ctx → LRes Ctx
  | [], c => .done (.ok c)
  | t :: ts, c =>
    orPanic (tail1 t.text) fun name =>
      match c.tokenIndex.lookup name with
      | some i =>
        orPanic (c.tokens[i]?) fun x =>
          if x.group ≠ 0 then .done (.error .reassignedGroup)
          else addGroups ts { c with tokens := c.tokens.set i { x with group := c.currentGroup } }
      | none =>
        let (i, c) := addExtraToken c name
        orPanic (update c.extraTokens i fun t => { t with group := c.currentGroup }) fun es =>
          addGroups ts { c with extraTokens := es }

/-- `/repo/langdef/parser.go` lines 547-570, `parseGroupDir`. -/
def parseGroupDir (fuel : Nat) (c : Ctx) (f : Feed) : LRes (Ctx × Feed) :=
  bindL (fetchList fuel [Kind.tokenName.text] f) fun (ts, f) =>
    bindL (addGroups ts { c with currentGroup := c.currentGroup + 1 }) fun c => .done (.ok (c, f))

/-- `/repo/langdef/parser.go` lines 580-583, the loop of `parseReservedDir`. -/
def addReserved : List LTok → Ctx → Option Ctx
  | [], c => some c
  | t :: ts, c => (innerText t.text).bind fun name => addReserved ts (addLiteralToken c name { reserved := true })

/-- `/repo/langdef/parser.go` lines 572-585, `parseReservedDir`. -/
def parseReservedDir (fuel : Nat) (c : Ctx) (f : Feed) : LRes (Ctx × Feed) :=
  bindL (fetchList fuel [Kind.string.text] f) fun (ts, f) =>
    orPanic (addReserved ts c) fun c => .done (.ok (c, f))

/-- `/repo/langdef/parser.go` lines 594-603, the loop of `parseLiteralDir`. -/
def addLiterals : List LTok → Ctx → Option Ctx
  | [], c => some c
  | t :: ts, c =>
    if t.kind = .tokenName then
      (tail1 t.text).bind fun name =>
        (addTokenFlag { c with restrictLiteralTypes := true } name { noLiterals := true }).bind (addLiterals ts)
    else
      (innerText t.text).bind fun name => addLiterals ts (addLiteralToken { c with restrictLiterals := true } name {})

/-- `/repo/langdef/parser.go` lines 587-605, `parseLiteralDir`. -/
def parseLiteralDir (fuel : Nat) (c : Ctx) (f : Feed) : LRes (Ctx × Feed) :=
  bindL (fetchList fuel [Kind.string.text, Kind.tokenName.text] f) fun (ts, f) =>
    orPanic (addLiterals ts c) fun c => .done (.ok (c, f))

/-- `/repo/langdef/parser.go` lines 502-520, `parseDir`. -/
def parseDir (fuel : Nat) (t : LTok) (c : Ctx) (f : Feed) : LRes (Ctx × Feed) :=
  if t.text ∈ [sideDir, caselessDir, externDir, errorDir] then parseTokenFlagDir fuel t.text c f
  else if t.text = groupDir then parseGroupDir fuel c f
  else if t.text = reservedDir then parseReservedDir fuel c f
  else if t.text = literalDir then parseLiteralDir fuel c f
  else .done (.error .unknownDirective)

/-- `/repo/langdef/parser.go` lines 641-661: the loop reading arguments of a layer command. -/
def layerArgs : Nat → Feed → LRes (List (List Nat) × Feed)
  | 0, _ => .timeout
  | fuel + 1, f =>
    bindL (need [Kind.string.text, Kind.name.text] f) fun (t, f) =>
      orPanic (if t.kind = .string then innerText t.text else some t.text) fun arg =>
        bindL (need [opComma, opRBrace] f) fun (t, f) =>
          if t.text = opRBrace then .done (.ok ([arg], f))
          else bindL (layerArgs fuel f) fun (args, f) => .done (.ok (arg :: args, f))

/-- `/repo/langdef/parser.go` lines 619-664: the loop reading commands of a layer. An error of `fetchOne` at line 635 is ignored. -/
def layerCommands : Nat → Feed → LRes (List LayerCommand × Feed)
  | 0, _ => .timeout
  | fuel + 1, f =>
    bindL (need [Kind.name.text, opSemicolon] f) fun (t, f) =>
      if t.kind = .op then .done (.ok ([], f))
      else
        bindL (need [opLBrace] f) fun (_, f) =>
          orPanic (fetch [opRBrace] false f) fun (r, f) =>
            match r with
            | .ok (some _) => bindL (layerCommands fuel f) fun (cs, f) => .done (.ok ({ command := t.text } :: cs, f))
            | _ =>
              bindL (layerArgs fuel f) fun (args, f) =>
                bindL (layerCommands fuel f) fun (cs, f) =>
                  .done (.ok ({ command := t.text, arguments := args } :: cs, f))

/-- `/repo/langdef/parser.go` lines 607-668, `parseLayerDef`. -/
def parseLayerDef (fuel : Nat) (t : LTok) (c : Ctx) (f : Feed) : LRes (Ctx × Feed) :=
  if t.text ≠ opLayer then .done (.error .unexpectedToken)
  else
    bindL (need [Kind.name.text] f) fun (n, f) =>
      bindL (layerCommands fuel f) fun (cs, f) =>
        .done (.ok ({ c with layers := c.layers ++ [{ type := n.text, commands := cs }] }, f))

/-- `/repo/langdef/parser.go` lines 709-723, the loop of `fetchRegexp`. -/
def joinRe (templates : List (List Nat × List Nat)) : List LTok → LRes (List Nat)
  | [] => .done (.ok [])
  | t :: ts =>
    match t.kind with
    | .regexp => orPanic (innerText t.text) fun x => bindL (joinRe templates ts) fun y => .done (.ok (x ++ y))
    | .name =>
      match templates.lookup t.text with
      | none => .done (.error .unknownTemplate)
      | some x => bindL (joinRe templates ts) fun y => .done (.ok (x ++ y))
    | _ => joinRe templates ts

/-- `/repo/langdef/parser.go` lines 696-732, `fetchRegexp` with `e` = nil. If there are no tokens then the strict `fetch` gives an error; it cannot
succeed. -/
def fetchRegexp (okRe : List Nat → Bool) (fuel : Nat) (c : Ctx) (f : Feed) : LRes (List Nat × Feed) :=
  bindL (fetchAll fuel [Kind.regexp.text, Kind.name.text] f) fun (ts, f) =>
    match ts with
    | [] => bindL (need [Kind.regexp.text, Kind.name.text] f) fun (_, f) => .done (.ok ([], f))
    | _ :: _ => bindL (joinRe c.templates ts) fun re =>
      if okRe re then .done (.ok (re, f)) else .done (.error .wrongRegexp)

/-- `/repo/langdef/parser.go` lines 670-673, 683-686: the common part of `parseTemplateDef` and `parseTokenDef`. -/
def parseReDef (okRe : List Nat → Bool) (fuel : Nat) (c : Ctx) (f : Feed) : LRes (List Nat × Feed) :=
  bindL (need [opEqu] f) fun (_, f) =>
    bindL (fetchRegexp okRe fuel c f) fun (re, f) =>
      bindL (need [opSemicolon] f) fun (_, f) => .done (.ok (re, f))

/-- `result.NIndex[name]`: the index. -/
def nodeIndex (c : Ctx) (name : List Nat) : Option Nat := c.nodes.findIdx? fun r => r.name = name

/-- `/repo/langdef/parser.go` lines 734-751, `addNode`: the index of the node. -/
def declareNode (c : Ctx) (name : List Nat) (define : Bool) : Nat × Ctx :=
  let group := if define then some (Chunk.group [] false false) else none
  match nodeIndex c name with
  | some i => (i, { c with nodes := c.nodes.modify i fun r => if r.chunk.isNone ∧ define then { r with chunk := group } else r })
  | none => (c.nodes.length, { c with nodes := c.nodes ++ [{ name := name, chunk := group }] })

mutual

/-- `/repo/langdef/parser.go` lines 761-778, `parseGroup` with `e` = nil: items of the group. -/
def parseGroup : Nat → List Nat → Ctx → Feed → LRes (List Chunk × Ctx × Feed)
  | 0, _, _, _ => .timeout
  | fuel + 1, name, c, f =>
    bindL (parseVariants fuel name c f) fun (item, c, f) =>
      bindL (tryFetch [opComma] f) fun (t, f) =>
        match t with
        | none => .done (.ok ([item], c, f))
        | some _ => bindL (parseGroup fuel name c f) fun (items, c, f) => .done (.ok (item :: items, c, f))

/-- `/repo/langdef/parser.go` lines 780-806, `parseVariants`. -/
def parseVariants : Nat → List Nat → Ctx → Feed → LRes (Chunk × Ctx × Feed)
  | 0, _, _, _ => .timeout
  | fuel + 1, name, c, f =>
    bindL (parseVariant fuel name c f) fun (ch, c, f) =>
      bindL (tryFetch [opPipe] f) fun (t, f) =>
        match t with
        | none => .done (.ok (ch, c, f))
        | some _ => bindL (moreVariants fuel name c f) fun (chs, c, f) => .done (.ok (.variant (ch :: chs), c, f))

/-- `/repo/langdef/parser.go` lines 792-803, the loop of `parseVariants`. -/
def moreVariants : Nat → List Nat → Ctx → Feed → LRes (List Chunk × Ctx × Feed)
  | 0, _, _, _ => .timeout
  | fuel + 1, name, c, f =>
    bindL (parseVariant fuel name c f) fun (ch, c, f) =>
      bindL (tryFetch [opPipe] f) fun (t, f) =>
        match t with
        | none => .done (.ok ([ch], c, f))
        | some _ => bindL (moreVariants fuel name c f) fun (chs, c, f) => .done (.ok (ch :: chs, c, f))

/-- `/repo/langdef/parser.go` lines 808-873, `parseVariant`. -/
def parseVariant : Nat → List Nat → Ctx → Feed → LRes (Chunk × Ctx × Feed)
  | 0, _, _, _ => .timeout
  | fuel + 1, name, c, f =>
    bindL (need [Kind.name.text, Kind.tokenName.text, Kind.string.text, opLBrace, opLSquare, opLCurly] f) fun (t, f) =>
      match t.kind with
      | .name =>
        let (i, c) := declareNode c t.text false
        orPanic (nodeIndex c name) fun j =>
          .done (.ok (.node i, { c with nodes := c.nodes.modify j fun r => { r with deps := insert i r.deps } }, f))
      | .tokenName =>
        orPanic (tail1 t.text) fun tokenName =>
          if tokenName = [] then .done (.ok (.eoi, c, f))
          else
            match c.tokenIndex.lookup tokenName with
            | none => .done (.error .unknownToken)
            | some i => orPanic (c.tokens[i]?) fun x =>
              if x.flags.side ∨ x.flags.error then .done (.error .wrongToken)
              else .done (.ok (.token i, c, f))
      | .string =>
        orPanic (innerText t.text) fun lit =>
          match c.literalIndex.lookup lit with
          | some i => .done (.ok (.token i, c, f))
          | none =>
            if c.restrictLiterals then .done (.error .unknownLiteral)
            else
              let (i, c) := useLiteralToken c lit {}
              .done (.ok (.token i, c, f))
      | _ =>
        let repeated := decide (t.text = opLCurly)
        let optional := decide (t.text ≠ opLBrace)
        let lastToken := if repeated then opRCurly else if optional then opRSquare else opRBrace
        bindL (parseGroup fuel name c f) fun (items, c, f) =>
          bindL (need [lastToken] f) fun (_, f) => .done (.ok (.group items optional repeated, c, f))

end

/-- `/repo/langdef/parser.go` lines 753-759, `parseNodeDef`. -/
def parseNodeDef (fuel : Nat) (name : List Nat) (c : Ctx) (f : Feed) : LRes (Ctx × Feed) :=
  let (i, c) := declareNode c name true
  bindL (need [opEqu] f) fun (_, f) =>
    bindL (parseGroup fuel name c f) fun (items, c, f) =>
      bindL (need [opSemicolon] f) fun (_, f) =>
        .done (.ok ({ c with nodes := c.nodes.modify i fun r => { r with chunk := some (.group items false false) } }, f))

/-- `/repo/langdef/parser.go` lines 200-238: the loop reading definitions of tokens and directives; the result includes the first name. -/
def parseHead (okRe : List Nat → Bool) : Nat → Ctx → Feed → LRes (LTok × Ctx × Feed)
  | 0, _, _ => .timeout
  | fuel + 1, c, f =>
    bindL (need [Kind.name.text, Kind.dir.text, Kind.op.text, Kind.templateName.text, Kind.tokenName.text] f) fun (t, f) =>
      match t.kind with
      | .name => .done (.ok (t, c, f))
      | .dir => bindL (parseDir fuel t c f) fun (c, f) => parseHead okRe fuel c f
      | .op => bindL (parseLayerDef fuel t c f) fun (c, f) => parseHead okRe fuel c f
      | .templateName =>
        orPanic (Go.slice t.text 2 t.text.length) fun name =>
          if (c.templates.lookup name).isSome then .done (.error .templateDefined)
          else bindL (parseReDef okRe fuel c f) fun (re, f) =>
            parseHead okRe fuel { c with templates := (name, re) :: c.templates } f
      | .tokenName =>
        orPanic (tail1 t.text) fun name =>
          orPanic (match c.tokenIndex.lookup name with
            | none => some false
            | some i => (c.tokens[i]?).map fun x => x.re.isSome) fun has =>
            if has ∨ name = [] then .done (.error .tokenDefined)
            else bindL (parseReDef okRe fuel c f) fun (re, f) =>
              orPanic (addToken c name re {}) fun c => parseHead okRe fuel c f
      | _ => parseHead okRe fuel c f

/-- `/repo/langdef/parser.go` lines 247-256: tokens listed in directives but not defined. -/
def addExternals : List ExtraToken → Ctx → LRes Ctx
  | [], c => .done (.ok c)
  | et :: ets, c =>
    match c.extraIndex.lookup et.name with
    | none => addExternals ets c
    | some _ =>
      if et.flags.external then orPanic (addToken c et.name [] et.flags) (addExternals ets)
      else .done (.error .undefinedToken)

/-- `/repo/langdef/parser.go` lines 258-266: `!literal` lists allowed types. -/
def restrictTypes : List GToken → List GToken
  | [] => []
  | t :: ts =>
    if t.flags.literal then t :: ts
    else { t with flags := { t.flags with noLiterals := !t.flags.noLiterals } } :: restrictTypes ts

/-- `/repo/langdef/parser.go` lines 243-271: after the directives. -/
def finishHead (c : Ctx) : LRes Ctx :=
  if c.tokens.length + c.extraTokens.length ≥ maxTokenType then .done (.error .tokenTypeNumber)
  else bindL (addExternals c.extraTokens c) fun c =>
    let c := if c.restrictLiteralTypes then { c with tokens := restrictTypes c.tokens } else c
    .done (.ok (c.literals.foldl (fun c lt => (useLiteralToken c lt.1 lt.2).2) { c with literalIndex := [] }))

/-- `/repo/langdef/parser.go` lines 273-290: the loop reading definitions of nodes and layers. -/
def parseBody : Nat → LTok → Ctx → Feed → LRes Ctx
  | 0, _, _, _ => .timeout
  | fuel + 1, t, c, f =>
    if t.kind = .eof then .done (.ok c)
    else
      bindL (if t.kind = .op then parseLayerDef fuel t c f
        else if ∃ r ∈ c.nodes, r.name = t.text ∧ r.chunk.isSome then .done (.error .nodeDefined)
        else parseNodeDef fuel t.text c f) fun (c, f) =>
        bindL (need [Kind.name.text, Kind.op.text, Kind.eof.text, bytesOf "-eoi-"] f) fun (t, f) =>
          parseBody fuel t c f

/-- `/repo/langdef/parser.go` lines 194-292, `parseContext.Parse`. -/
def read (okRe : List Nat → Bool) (fuel : Nat) (inp : List (Except LErr LTok)) : LRes Ctx :=
  bindL (parseHead okRe fuel {} { inp := inp }) fun (t, c, f) =>
    bindL (finishHead c) fun c => parseBody fuel t c f

end Verif.Model.LangDef
