/-
Model of the token pipeline of `parser/parser.go` and `parser/hooks.go`: lexers, token hook layers and `PeekToken`.

Simplifications:
* A token hook is a program: it can look at the state of all hooks `η` (captured variables), peek tokens, read and change
  the source queue (but not save and restore it), and then return. Extra tokens are never nil.
* `queue.Queue` values are lists (C01); the context is never cancelled.
* Go maps of hooks are lists of pairs in some iteration order.
-/
import Verif.Model.Parser

namespace Verif.Model

open Tree (bindRun)

/-- Calls of methods of `source.Queue` that change it (`/repo/source/source.go`); `next` is `NextSource`. -/
inductive QueueCall
  | append (s : Option Src)
  | prepend (s : Option Src)
  | skip (n : Int)
  | rewind (n : Int)
  | seek (n : Int)
  | next

/-- Effect of a call. -/
def QueueCall.run (q : SrcQueue) : QueueCall → Option SrcQueue
  | .append s => q.append s
  | .prepend s => q.prepend s
  | .skip n => some (q.skip n)
  | .rewind n => some (q.rewind n)
  | .seek n => some (q.seek n)
  | .next => q.nextSource.map (·.1)

/-- A token hook being executed: `TokenHook`, `/repo/parser/hooks.go` line 18. -/
inductive HookProg (η : Type)
  /-- `return emit, extra, nil` -/
  | ret (st : η) (emit : Bool) (extra : List Token)
  /-- `return …, e` -/
  | fail (st : η) (e : Nat)
  /-- panic in the hook -/
  | crash
  /-- `tc.PeekToken()` -/
  | peek (k : Except PErr (Option Token) → HookProg η)
  /-- reading `tc.ParseContext().Sources()`: all that can be seen is the current source and position -/
  | read (k : Option Src → Int → HookProg η)
  /-- changing `tc.ParseContext().Sources()` -/
  | call (c : QueueCall) (k : HookProg η)

/-- `/repo/parser/hooks.go` line 18, type `TokenHook`. -/
abbrev TokenHook (η : Type) := η → Token → HookProg η

/-- `/repo/parser/parser.go` lines 216-219, `tokenHookRec.hooks`: index is token type plus 3. -/
abbrev TokenLayer (η : Type) := List (Option (TokenHook η))

/-- `/repo/parser/hooks.go` lines 88-100, type `Hooks`, token part. -/
structure THooks (η : Type) where
  tokens : List (List Nat × TokenHook η) := []
  literals : List (List Nat × TokenHook η) := []

/-- Name of the special token as bytes. -/
def bytesOf (s : String) : List Nat := s.toUTF8.toList.map (·.toNat)

/-- `/repo/parser/parser.go` lines 70-95: `Parser.tokenNames`; names are those of tokens that are neither literals nor
error tokens, the last one wins. -/
def Grammar.tokenName (g : Grammar) (name : List Nat) : Option Int :=
  match ((List.range g.tokens.length).filter fun i =>
      (g.tokens[i]?).any fun t => ¬ t.flags.literal && ¬ t.flags.error && t.name == name).getLast? with
  | some i => some i
  | none =>
    if name = [] then some anyToken
    else if name = bytesOf "-eof-" then some eofTokenType
    else if name = bytesOf "-eoi-" then some eoiTokenType
    else none

/-- `pc.literals`: literals of the grammar and those used by hooks only, in order of appearance. -/
def Grammar.pcLiteral (g : Grammar) (extra : List (List Nat)) (text : List Nat) : Option Nat :=
  match g.literal text with
  | some i => some i
  | none => (extra.idxOf? text).map (g.tokens.length + ·)

/-- `/repo/parser/parser.go` lines 283-292: the loop over `hs.Tokens`; `none` is an unknown name. -/
def tokenMax (g : Grammar) : List (List Nat) → Int → Option Int
  | [], m => some m
  | k :: ks, m =>
    match g.tokenName k with
    | none => none
    | some i => tokenMax g ks (if i > m then i else m)

/-- `/repo/parser/parser.go` lines 294-303: the loop over `hs.Literals`. -/
def literalMax (g : Grammar) : List (List Nat) → List (List Nat) → Int → List (List Nat) × Int
  | [], extra, m => (extra, m)
  | k :: ks, extra, m =>
    match g.pcLiteral extra k with
    | some i => literalMax g ks extra (if (i : Int) > m then i else m)
    | none =>
      let i := g.tokens.length + extra.length
      literalMax g ks (extra ++ [k]) (if (i : Int) > m then i else m)

/-- `/repo/parser/parser.go` lines 279-320, `newHookLayer`, token part: literals known to the parse context and a new
layer if there is one; `none` is an error. A write out of bounds panics, that is a `none` inside. -/
def newTokenLayer {η : Type} (g : Grammar) (extra : List (List Nat)) (hs : THooks η) :
    Option (Option (List (List Nat) × Option (TokenLayer η))) :=
  if hs.tokens.length + hs.literals.length > 0 then
    (tokenMax g (hs.tokens.map (·.1)) 0).map fun m =>
      let (extra, m) := literalMax g (hs.literals.map (·.1)) extra m
      let layer : Option (TokenLayer η) := some (List.replicate (m + 3 + 1).toNat none)
      let layer := hs.tokens.foldl (fun l h => l.bind fun l => (g.tokenName h.1).bind fun i =>
        Go.setIndex l (i + 3) (some h.2)) layer
      let layer := hs.literals.foldl (fun l h => l.bind fun l => (g.pcLiteral extra h.1).bind fun i =>
        Go.setIndex l (i + 3) (some h.2)) layer
      layer.map fun l => (extra, some l)
  else some (some (extra, none))

/-- Parser data used by the pipeline. -/
structure TEnv (η : Type) where
  g : Grammar
  lexers : List Lexer
  /-- `pc.literals` not present in the grammar -/
  extra : List (List Nat) := []

/-- Sources and hook variables. -/
structure PState (η : Type) where
  src : SrcQueue
  st : η

variable {η : Type}

/-- `/repo/parser/parser.go` lines 814-829, `fetchToken`: the loop over lexers and the result. -/
def fetchLoop (types : TokenTypeSet) (fuel : Nat) : List Lexer → SrcQueue → Option LlxError →
    Run (SrcQueue × Except PErr (Option Token))
  | [], src, firstError =>
    match firstError with
    | some e => if types = allTokenTypes then .done (src, .error (.lexer e)) else .done (src, .ok none)
    | none => .done (src, .ok none)
  | l :: ls, src, firstError =>
    bindRun (l.nextOf fuel src types) fun r =>
      match r with
      | (src, .ok (some t)) => .done (src, .ok (some t))
      | (src, .ok none) => fetchLoop types fuel ls src firstError
      | (src, .error e) => fetchLoop types fuel ls src (match firstError with
        | none => some e
        | some e' => some e')

/-- `/repo/parser/parser.go` lines 809-830, `fetchToken`. -/
def fetchToken (env : TEnv η) (fuel : Nat) (src : SrcQueue) (types : TokenTypeSet) :
    Run (SrcQueue × Except PErr (Option Token)) :=
  fetchLoop types fuel env.lexers src none

/-- `/repo/parser/parser.go` lines 753-794, the part of `handleToken` choosing a hook; `none` is a panic. -/
def pickHook (env : TEnv η) (hooks : TokenLayer η) (tok : Token) : Option (Option (TokenHook η)) :=
  let maxTokenType : Int := hooks.length - 3 - 1
  let get (i : Int) : Option (Option (TokenHook η)) := Go.index hooks (i + 3)
  let first : List Int → Option (Option (TokenHook η)) := List.foldr (fun i rest =>
    (get i).bind fun h => match h with
      | some h => some (some h)
      | none => rest) (some none)
  if tok.type < 0 then first [tok.type]
  else (Go.index env.g.tokens tok.type).bind fun t =>
    let lit : List Int := if t.flags.noLiterals then [] else
      match env.g.pcLiteral env.extra tok.content with
      | some i => if (i : Int) ≤ maxTokenType then [(i : Int)] else []
      | none => []
    first (lit ++ (if tok.type ≤ maxTokenType then [tok.type] else []) ++ [-1])

/-- `/repo/parser/hooks.go` lines 132-140, the loop of `PeekToken` over queues of layers. -/
def peekQueues : List (List Token) → Nat → Option Token
  | [], _ => none
  | q :: qs, distance => if distance < q.length then q[distance]? else peekQueues qs (distance - q.length)

/-- State of `TokenContext` (`/repo/parser/hooks.go` lines 103-109) and sources while a hook is working. -/
structure TC where
  src : SrcQueue
  distance : Nat := 0
  snap : Option QSnapshot := none

/-- `/repo/parser/hooks.go` lines 125-145, `PeekToken`; `qs` are queues of layers below the current one. -/
def peekToken (env : TEnv η) (fuel : Nat) (qs : List (List Token)) (tc : TC) :
    Run (TC × Except PErr (Option Token)) :=
  let fetch (tc : TC) := bindRun (fetchToken env fuel tc.src allTokenTypes) fun r => .done ({ tc with src := r.1 }, r.2)
  if tc.snap.isSome then fetch tc
  else
    match peekQueues qs tc.distance with
    | some t => .done ({ tc with distance := tc.distance + 1 }, .ok (some t))
    | none =>
      orPanic tc.src.snapshot fun s => fetch { tc with distance := tc.distance + 1, snap := some s }

/-- Execution of a hook. -/
def HookProg.run (env : TEnv η) (fuel : Nat) (qs : List (List Token)) :
    HookProg η → TC → Run (TC × η × Except PErr (Bool × List Token))
  | .ret st emit extra, tc => .done (tc, st, .ok (emit, extra))
  | .fail st e, tc => .done (tc, st, .error (.hook e))
  | .crash, _ => .panic
  | .peek k, tc => bindRun (peekToken env fuel qs tc) fun r => (k r.2).run env fuel qs r.1
  | .read k, tc => (k tc.src.source tc.src.pos).run env fuel qs tc
  | .call c k, tc => orPanic (c.run tc.src) fun src => k.run env fuel qs { tc with src := src }

/-- `/repo/parser/hooks.go` lines 147-153, `restore`. -/
def TC.restore (tc : TC) : Option SrcQueue :=
  match tc.snap with
  | some s => tc.src.restore s
  | none => some tc.src

/-- `/repo/parser/parser.go` lines 753-807, `handleToken`. -/
def handleToken (env : TEnv η) (fuel : Nat) (hooks : TokenLayer η) (qs : List (List Token)) (ps : PState η)
    (tok : Option Token) : Run (PState η × Except PErr (Bool × List Token)) :=
  match tok with
  | none => .done (ps, .ok (true, []))
  | some tok =>
    orPanic (pickHook env hooks tok) fun hook =>
      match hook with
      | none => .done (ps, .ok (true, []))
      | some hook =>
        bindRun ((hook ps.st tok).run env fuel qs { src := ps.src }) fun r =>
          orPanic r.1.restore fun src =>
            .done ({ src := src, st := r.2.1 }, r.2.2.map fun x =>
              if ¬ x.1 ∧ tok.type < 0 then
                if x.2.isEmpty then (true, x.2) else (x.1, x.2 ++ [tok])
              else x)

/-- Queues of hook layers, sources and hook variables. -/
structure LState (η : Type) where
  queues : List (List Token)
  ps : PState η

/-- `/repo/parser/parser.go` lines 708-713: extra tokens are checked and appended. -/
def appendExtra (g : Grammar) : List Token → List Token → Except PErr (List Token)
  | q, [] => .ok q
  | q, t :: ts => if g.isValidType t.type then appendExtra g (q ++ [t]) ts else .error (.wrongToken t)

/-- Extra tokens appended before the wrong one. -/
def appendedExtra (g : Grammar) (q extra : List Token) : List Token := q ++ extra.takeWhile fun t => g.isValidType t.type

/-- `/repo/parser/parser.go` lines 697-723, the loop of `pullToken` for a layer; `q` is the (empty) queue of this layer,
`lower` is `pullToken` for the next one. -/
def hookLoop (env : TEnv η) (fuel0 : Nat) (hooks : TokenLayer η)
    (lower : LState η → Run (LState η × Except PErr (Option Token))) :
    Nat → List Token → LState η → Run (LState η × Except PErr (Option Token))
  | 0, _, _ => .timeout
  | fuel + 1, q, ls =>
    bindRun (lower ls) fun r =>
      match r with
      | (ls, .error e) => .done ({ ls with queues := q :: ls.queues }, .error e)
      | (ls, .ok result) =>
        bindRun (handleToken env fuel0 hooks ls.queues ls.ps result) fun h =>
          match h with
          | (ps, .error e) => .done ({ queues := q :: ls.queues, ps := ps }, .error e)
          | (ps, .ok (emit, extra)) =>
            match appendExtra env.g q extra with
            | .error e => .done ({ queues := appendedExtra env.g q extra :: ls.queues, ps := ps }, .error e)
            | .ok q =>
              if emit then .done ({ queues := q :: ls.queues, ps := ps }, .ok result)
              else
                match q with
                | t :: q => .done ({ queues := q :: ls.queues, ps := ps }, .ok (some t))
                | [] => hookLoop env fuel0 hooks lower fuel [] { ls with ps := ps }

/-- `/repo/parser/parser.go` lines 685-724, `pullToken`; the list of layers starts with the current one. -/
def pullToken (env : TEnv η) (fuel : Nat) (types : TokenTypeSet) : List (TokenLayer η) → LState η →
    Run (LState η × Except PErr (Option Token))
  | [], ls => bindRun (fetchToken env fuel ls.ps.src types) fun r =>
      .done ({ ls with ps := { ls.ps with src := r.1 } }, r.2)
  | hooks :: layers, ls =>
    match ls.queues with
    | [] => .panic
    | (t :: q) :: qs => .done ({ ls with queues := q :: qs }, .ok (some t))
    | [] :: qs => hookLoop env fuel hooks (pullToken env fuel types layers) fuel [] { ls with queues := qs }

/-- `/repo/parser/parser.go` lines 524-530: a token is put back to sources. -/
def unreadToken (src : SrcQueue) (t : Token) : Option SrcQueue :=
  (if t.pos.src ≠ src.source then src.prepend t.pos.src else some src).map fun src => src.seek t.pos.pos

/-- `/repo/parser/parser.go` lines 222-276: parser and hooks of `env` working with lexers and token hook layers. -/
def pipelineEnv {σ : Type} (env : PEnv σ) (tenv : TEnv η) (layers : List (TokenLayer η)) (fuel : Nat) : PEnv (LState η) where
  g := env.g
  upper := env.upper
  pull := fun ls types => pullToken tenv fuel types layers ls
  unread := fun ls t => (unreadToken ls.ps.src t).map fun src => { ls with ps := { ls.ps with src := src } }
  passSides := env.passSides
  fullSource := env.fullSource
  watchNodes := env.watchNodes
  layers := env.layers
  hooked := env.hooked
  onMake := env.onMake
  onCall := env.onCall
  grow := env.grow

end Verif.Model
