/-
Directives and definitions of tokens (`/repo/langdef/docs.go`): syntax and meaning.
-/
import Verif.Spec.LangSyntax

namespace Verif.Spec.LangDef

open Verif.Model Verif.Model.LangDef

/-- Directives listing token types. -/
inductive Dir
  | side
  | caseless
  | extern
  | error
deriving DecidableEq

/-- The word. -/
def Dir.word : Dir → List Nat
  | .side => bytesOf "!side"
  | .caseless => bytesOf "!caseless"
  | .extern => bytesOf "!extern"
  | .error => bytesOf "!error"

/-- A part of a regular expression: a text or the name of a template. -/
inductive Part
  | text (re : List Nat)
  | name (n : List Nat)
deriving DecidableEq

/-- An argument of `!literal`. -/
inductive LitArg
  | type (n : List Nat)
  | literal (n : List Nat)
deriving DecidableEq

/-- Items before the first node. -/
inductive HeadItem
  | flags (d : Dir) (ns : List (List Nat))
  | group (ns : List (List Nat))
  | reserved (ls : List (List Nat))
  | literal (as : List LitArg)
  | layer (l : LayerDef)
  | template (n : List Nat) (ps : List Part)
  | token (n : List Nat) (ps : List Part)

/-- Tokens of a list, one for each element. -/
inductive EachTok {α : Type} (R : α → LTok → Prop) : List α → List LTok → Prop
  | nil : EachTok R [] []
  | cons {a : α} {t : LTok} {as : List α} {ts : List LTok} : R a t → EachTok R as ts → EachTok R (a :: as) (t :: ts)

/-- A token of a part. -/
def IsPart : Part → LTok → Prop
  | .text re, t => t = ⟨.regexp, 47 :: re ++ [47]⟩
  | .name n, t => t = ⟨.name, n⟩

/-- A token of an argument. -/
def IsLitArg : LitArg → LTok → Prop
  | .type n, t => t = typeTok n
  | .literal n, t => IsString n t

/-- Tokens of an item. -/
inductive DerivesHead : HeadItem → List LTok → Prop
  | flags (d : Dir) {ns : List (List Nat)} {ts : List LTok} : EachTok (fun n t => t = typeTok n) ns ts →
    DerivesHead (.flags d ns) (⟨.dir, d.word⟩ :: ts ++ [op 59])
  | group {ns : List (List Nat)} {ts : List LTok} : EachTok (fun n t => t = typeTok n) ns ts →
    DerivesHead (.group ns) (⟨.dir, bytesOf "!group"⟩ :: ts ++ [op 59])
  | reserved {ls : List (List Nat)} {ts : List LTok} : EachTok IsString ls ts →
    DerivesHead (.reserved ls) (⟨.dir, bytesOf "!reserved"⟩ :: ts ++ [op 59])
  | literal {as : List LitArg} {ts : List LTok} : EachTok IsLitArg as ts →
    DerivesHead (.literal as) (⟨.dir, bytesOf "!literal"⟩ :: ts ++ [op 59])
  | layer {l : LayerDef} {ts : List LTok} : DerivesLayer l ts → DerivesHead (.layer l) ts
  | template (n : List Nat) {ps : List Part} {ts : List LTok} : ps ≠ [] → EachTok IsPart ps ts →
    DerivesHead (.template n ps) (⟨.templateName, 36 :: 36 :: n⟩ :: op 61 :: ts ++ [op 59])
  | token (n : List Nat) {ps : List Part} {ts : List LTok} : n ≠ [] → ps ≠ [] → EachTok IsPart ps ts →
    DerivesHead (.token n ps) (typeTok n :: op 61 :: ts ++ [op 59])

/-- Items one after another. -/
inductive DerivesHeads : List HeadItem → List LTok → Prop
  | nil : DerivesHeads [] []
  | cons {i : HeadItem} {ts : List LTok} {is : List HeadItem} {ts' : List LTok} : DerivesHead i ts → DerivesHeads is ts' →
    DerivesHeads (i :: is) (ts ++ ts')

/-! Regular expressions -/

/-- Concatenation of parts; templates are replaced. -/
def resolve (T : List (List Nat × List Nat)) : List Part → Option (List Nat)
  | [] => some []
  | .text re :: ps => (resolve T ps).map (re ++ ·)
  | .name n :: ps => (T.lookup n).bind fun re => (resolve T ps).map (re ++ ·)

/-- Templates and token types with their regular expressions, in the order of definition; `none` if a template is not defined yet, a
name is defined twice or an expression is wrong. -/
def definitions (okRe : List Nat → Bool) (T D : List (List Nat × List Nat)) : List HeadItem → Option (List (List Nat × List Nat) × List (List Nat × List Nat))
  | [] => some (T, D)
  | .template n ps :: is => (resolve T ps).bind fun re =>
    if okRe re = true ∧ n ∉ T.map Prod.fst then definitions okRe (T ++ [(n, re)]) D is else none
  | .token n ps :: is => (resolve T ps).bind fun re =>
    if okRe re = true ∧ n ∉ D.map Prod.fst then definitions okRe T (D ++ [(n, re)]) is else none
  | _ :: is => definitions okRe T D is

/-! Directives -/

/-- A type is listed in a directive. -/
def listed (items : List HeadItem) (d : Dir) (n : List Nat) : Bool :=
  items.any fun
    | .flags d' ns => decide (d' = d) && ns.contains n
    | _ => false

/-- A type is listed in `!literal`. -/
def allowed (items : List HeadItem) (n : List Nat) : Bool :=
  items.any fun
    | .literal as => as.contains (.type n)
    | _ => false

/-- `!literal` lists types. -/
def typesRestricted (items : List HeadItem) : Bool :=
  items.any fun
    | .literal as => as.any fun | .type _ => true | _ => false
    | _ => false

/-- `!literal` lists literals. -/
def litsRestricted (items : List HeadItem) : Bool :=
  items.any fun
    | .literal as => as.any fun | .literal _ => true | _ => false
    | _ => false

/-- Lists of `!group` directives. -/
def groups (items : List HeadItem) : List (List (List Nat)) :=
  items.filterMap fun
    | .group ns => some ns
    | _ => none

/-- The number of the last list, from `k` + 1, with a name; zero if there is none. -/
def lastGroup (n : List Nat) : Nat → List (List (List Nat)) → Nat
  | _, [] => 0
  | k, g :: gs => if lastGroup n (k + 1) gs ≠ 0 then lastGroup n (k + 1) gs else if n ∈ g then k + 1 else 0

/-- Types mentioned in an item that is not a definition. -/
def HeadItem.mentions : HeadItem → List (List Nat)
  | .flags _ ns => ns
  | .group ns => ns
  | .literal as => as.filterMap fun | .type n => some n | _ => none
  | _ => []

/-- Literals of an item; is it reserved. -/
def HeadItem.lits : HeadItem → List (List Nat × Bool)
  | .reserved ls => ls.map (·, true)
  | .literal as => as.filterMap fun | .literal n => some (n, false) | _ => none
  | _ => []

/-- Layers of an item. -/
def HeadItem.layers : HeadItem → List LayerDef
  | .layer l => [l]
  | _ => []

/-- A token type. -/
def typeEntry (items : List HeadItem) (n : List Nat) (re : Option (List Nat)) : GToken where
  name := n
  re := re
  group := lastGroup n 0 (groups items)
  flags := {
    external := listed items .extern n
    side := listed items .side n
    error := listed items .error n
    caseless := listed items .caseless n
    noLiterals := typesRestricted items && !allowed items n }

/-- Types that are mentioned, but not defined, in the order of the first mention. -/
def undefinedTypes (items : List HeadItem) (D : List (List Nat × List Nat)) : List (List Nat) :=
  (enlist [] (items.flatMap HeadItem.mentions)).filter fun n => !(D.map Prod.fst).contains n

/-- Literals, each with the first mention. -/
def enlistDecl (l : List (List Nat × Bool)) : List (List Nat × Bool) → List (List Nat × Bool)
  | [] => l
  | m :: ms => enlistDecl (if m.1 ∈ l.map Prod.fst then l else l ++ [m]) ms

/-- A literal. -/
def literalEntry (l : List Nat × Bool) : GToken := { name := l.1, re := none, flags := { literal := true, reserved := l.2 } }

/-- The table of tokens before nodes are read: defined types, other types, literals. -/
def headTable (items : List HeadItem) (D : List (List Nat × List Nat)) : List GToken :=
  D.map (fun d => typeEntry items d.1 (some d.2)) ++ (undefinedTypes items D).map (fun n => typeEntry items n none) ++
    (enlistDecl [] (items.flatMap HeadItem.lits)).map literalEntry

end Verif.Spec.LangDef
