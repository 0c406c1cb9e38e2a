/-
Model of `lexer/token.go` and `lexer/lexer.go`.

`regexp.Regexp.FindSubmatchIndex` is a parameter: a function from the remaining content to `none` (no match) or a
list of pairs of offsets - the first one for the whole match, the others for capturing groups, `(-1, -1)` for a group
that did not participate (pairs are used instead of the flat slice). What is assumed about it is stated in `ReOk`.
Texts of error messages are simplified, codes and positions are exact.
-/
import Verif.Model.Llx
import Verif.Model.Source
import Verif.Model.SrcQueue

namespace Verif

/-- Result of a bounded run of a Go loop: run-time panic, bound is too small, or a value. -/
inductive Run (α : Type)
  | panic
  | timeout
  | done (a : α)
deriving Repr, DecidableEq

namespace Model

/-- `/repo/source/source.go` lines 59-73, `LineCol` of a source with a fresh cache (the answer does not depend on it,
see C05; there are no panics, see C04). -/
def Src.lineCol (s : Src) (pos : Int) : Int × Int :=
  match (Source.new s.name s.content).bind (·.lineCol pos) with
  | some (_, lc) => lc
  | none => (0, 0)

/-- `/repo/source/source.go` lines 178-184, `Pos.LineCol`. -/
def SrcPos.lineCol (p : SrcPos) : Int × Int :=
  match p.src with
  | none => (0, 0)
  | some s => s.lineCol p.pos

/-- `/repo/lexer/token.go` lines 12-17, type `Token`. -/
structure Token where
  type : Int
  typeName : String
  content : List Nat
  pos : SrcPos
deriving Repr, DecidableEq, Inhabited

/-- `/repo/lexer/token.go` line 78. -/
def eofTokenType : Int := -2
/-- `/repo/lexer/token.go` line 84. -/
def eoiTokenType : Int := -3
/-- `/repo/lexer/lexer.go` line 16. -/
def errorTokenType : Int := -4

/-- `/repo/lexer/token.go` lines 94-96, `EofToken`; `s.Len()` panics when `s` is nil. -/
def eofToken (s : Option Src) : Option Token :=
  match s with
  | none => none
  | some s => some { type := eofTokenType, typeName := "-eof-", content := [], pos := SrcPos.new (some s) s.len }

/-- `/repo/lexer/token.go` lines 99-101, `EoiToken`. -/
def eoiToken : Token := { type := eoiTokenType, typeName := "-eoi-", content := [], pos := ⟨none, 0⟩ }

/-- `/repo/lexer/lexer.go` lines 33-39, type `TokenType`. -/
structure TokenType where
  type : Int
  typeName : String
deriving Repr, DecidableEq

/-- Anchored matcher. -/
abbrev Regexp := List Nat → Option (List (Int × Int))

/-- `/repo/lexer/lexer.go` lines 42-44. -/
abbrev TokenTypeSet := BitVec 64

/-- `/repo/lexer/lexer.go` line 44. -/
def allTokenTypes : TokenTypeSet := BitVec.allOnes 64

/-- `/repo/lexer/lexer.go` lines 53-57, type `Lexer`. -/
structure Lexer where
  types : List TokenType
  re : Regexp
  typeMask : TokenTypeSet

namespace Lexer

/-- `/repo/lexer/lexer.go` lines 67-69: token type mask of a type, empty for a wrong type. -/
def typeBit (t : Int) : TokenTypeSet := if 0 ≤ t ∧ t < 64 then 1#64 <<< t.toNat else 0

/-- `/repo/lexer/lexer.go` lines 62-75, `New`. -/
def new (re : Regexp) (types : List TokenType) : Lexer :=
  { types := types.map fun t =>
      if 0 ≤ t.type ∧ t.type < 64 then t else { type := errorTokenType, typeName := t.typeName }
    re := re
    typeMask := types.foldl (fun tm t => tm ||| typeBit t.type) 0 }

/-- `/repo/lexer/lexer.go` lines 24-30, error codes. -/
def wrongCharCode : Nat := lexicalErrors
/-- `/repo/lexer/lexer.go` line 30. -/
def badTokenCode : Nat := lexicalErrors + 1

/-- `/repo/lexer/lexer.go` lines 77-81, `wrongCharError`. -/
def wrongCharError (s : Src) (lc : Int × Int) : LlxError := newError wrongCharCode "wrong char" s.name lc.1 lc.2

/-- `/repo/lexer/lexer.go` lines 83-85, `wrongTokenError`. -/
def wrongTokenError (t : Token) : LlxError :=
  formatErrorPos (t.pos.sourceName, t.pos.lineCol) badTokenCode "bad token"

/-- Result of `matchToken`: error, or token (nil is `none`) and number of bytes to skip. -/
abbrev MatchResult := Except LlxError (Option Token × Int)

/-- `/repo/lexer/lexer.go` lines 96-115, the loop of `matchToken` over captured groups. `g` is the group number minus
one (`(i >> 1) - 1`), `end_` is `match[1]`, `matched` is `subMaskMatched`. -/
def groupLoop (l : Lexer) (src : Src) (content : List Nat) (pos : Int) (tts : TokenTypeSet) (end_ : Int) :
    List (Int × Int) → Nat → Bool → Option MatchResult
  | [], _, matched => some (.ok (none, if matched then 0 else end_))
  | (a, b) :: groups, g, matched =>
    if a ≥ 0 ∧ b ≥ 0 then
      let (tokenType, typeName) := match l.types[g]? with
        | some t => (t.type, t.typeName)
        | none => (errorTokenType, "-error-")
      if tokenType ≥ 0 ∧ tts &&& (1#64 <<< tokenType.toNat) = 0 then
        groupLoop l src content pos tts end_ groups (g + 1) true
      else do
        let text ← Go.slice content a b
        let token : Token := { type := tokenType, typeName := typeName, content := text,
                               pos := SrcPos.new (some src) (pos + a) }
        if tokenType = errorTokenType then return .error (wrongTokenError token)
        else return .ok (some token, end_)
    else groupLoop l src content pos tts end_ groups (g + 1) matched

/-- `/repo/lexer/lexer.go` lines 87-122, `matchToken`. -/
def matchToken (l : Lexer) (src : Src) (content : List Nat) (pos : Int) (tts : TokenTypeSet) : Option MatchResult := do
  let content ← Go.slice content pos content.length
  match l.re content with
  | none => return .error (wrongCharError src (src.lineCol pos))
  | some [] => return .error (wrongCharError src (src.lineCol pos))
  | some ((s, e) :: groups) =>
    if s ≠ 0 ∨ e ≤ s then return .error (wrongCharError src (src.lineCol pos))
    else groupLoop l src content pos tts e groups 0 false

/-- Result of a lexer call: new queue state and error or token (nil is `none`). -/
abbrev FetchResult := SrcQueue × Except LlxError (Option Token)

/-- `/repo/lexer/lexer.go` lines 124-139, `fetch`; the second boolean result is `advanced`. -/
def fetch (l : Lexer) (q : SrcQueue) (tSet : TokenTypeSet) : Option (FetchResult × Bool) :=
  let (content, pos) := q.contentPos
  match q.source with
  | none =>
    if (content.length : Int) - pos ≤ 0 then some ((q, .ok (some eoiToken)), false) else none
  | some src =>
    if (content.length : Int) - pos ≤ 0 then do
      let (q, _) ← q.nextSource
      return ((q, .ok (some (← eofToken src))), false)
    else do
      match ← matchToken l src content pos tSet with
      | .error e => return ((q.skip 0, .error e), false)
      | .ok (tok, advance) => return ((q.skip advance, .ok tok), advance > 0)

/-- `/repo/lexer/lexer.go` lines 145-152, `Next`, at most `fuel` iterations. -/
def next (l : Lexer) : Nat → SrcQueue → Run FetchResult
  | 0, _ => .timeout
  | fuel + 1, q =>
    match l.fetch q allTokenTypes with
    | none => .panic
    | some ((q, .error e), _) => .done (q, .error e)
    | some ((q, .ok (some t)), _) => .done (q, .ok (some t))
    | some ((q, .ok none), _) => l.next fuel q

/-- `/repo/lexer/lexer.go` lines 163-169, the loop of `NextOf`, at most `fuel` iterations. -/
def nextOfLoop (l : Lexer) (tts : TokenTypeSet) : Nat → SrcQueue → Run FetchResult
  | 0, _ => .timeout
  | fuel + 1, q =>
    match l.fetch q tts with
    | none => .panic
    | some ((q, .error e), _) => .done (q, .error e)
    | some ((q, .ok (some t)), _) => .done (q, .ok (some t))
    | some ((q, .ok none), advanced) => if advanced then l.nextOfLoop tts fuel q else .done (q, .ok none)

/-- `/repo/lexer/lexer.go` lines 158-170, `NextOf`. -/
def nextOf (l : Lexer) (fuel : Nat) (q : SrcQueue) (tts : TokenTypeSet) : Run FetchResult :=
  if tts &&& l.typeMask = 0 then .done (q, .ok none)
  else l.nextOfLoop tts fuel q

end Lexer

end Model

end Verif
