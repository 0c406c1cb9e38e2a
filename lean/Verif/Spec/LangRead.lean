/-
Whole grammar descriptions.
-/
import Verif.Spec.LangHead

namespace Verif.Spec.LangDef

open Verif.Model Verif.Model.LangDef

/-- A description in the documented syntax: directives and definitions of tokens, then definitions of nodes; layers may be anywhere. -/
def IsDescription (head : List HeadItem) (body : List BodyItem) (inp : List (Except LErr LTok)) : Prop :=
  ∃ ts1 ts2 n es rest, inp = (ts1 ++ ts2).map .ok ∧ DerivesHeads head ts1 ∧ DerivesBody body ts2 ∧ body = .node n es :: rest

/-- Regular expressions of token types (`none` if definitions are wrong, see `definitions`). -/
def typeDefs (okRe : List Nat → Bool) (head : List HeadItem) : Option (List (List Nat × List Nat)) :=
  (definitions okRe [] [] head).map Prod.snd

/-- Documented restrictions. -/
structure Correct (okRe : List Nat → Bool) (head : List HeadItem) (body : List BodyItem) (D : List (List Nat × List Nat)) : Prop where
  /-- Templates are defined before use, templates and token types are defined at most once, regular expressions are valid. -/
  defs : typeDefs okRe head = some D
  /-- A type that is listed in a directive is either defined or external. -/
  extern : ∀ n ∈ head.flatMap HeadItem.mentions, n ∈ D.map Prod.fst ∨ listed head .extern n = true
  /-- A node is defined at most once. -/
  distinct : (body.flatMap BodyItem.defined).Nodup
  /-- A type used in a definition of a node is either defined or external, not a side token and not an error token. -/
  types : ∀ n es, BodyItem.node n es ∈ body → ∀ m ∈ Expr.typesOf es, (m ∈ D.map Prod.fst ∨ listed head .extern m = true) ∧
    listed head .side m = false ∧ listed head .error m = false
  /-- If literals are listed in `!literal` then only literals listed in directives are used. -/
  lits : litsRestricted head = true → ∀ m ∈ body.flatMap BodyItem.lits, m ∈ (head.flatMap HeadItem.lits).map Prod.fst
  /-- Types are less than the limit. -/
  number : D.length + (undefinedTypes head D).length < maxTokenType

/-- What definitions of nodes and layers mean. -/
structure Nodes (head : List HeadItem) (body : List BodyItem) (c : Ctx) : Prop where
  /-- Nodes are numbered in the order of the first mention. -/
  names : c.nodes.map NodeEntry.name = enlist [] (body.flatMap BodyItem.names)
  /-- The structure of a defined node is the denotation of its expression, nested nodes are those mentioned in it. -/
  defined : ∀ n es, BodyItem.node n es ∈ body → ∃ e ∈ c.nodes, e.name = n ∧
    ∃ chs, Expr.chunks (namesOf c.tokens (c.nodes.map NodeEntry.name)) es = some chs ∧ e.chunk = some (.group chs false false) ∧
      e.deps = Chunk.nodesOf chs
  /-- Other nodes have no structure. -/
  undefined : ∀ e ∈ c.nodes, e.name ∉ body.flatMap BodyItem.defined → e.chunk = none ∧ e.deps = ∅
  /-- Layers are in the order of the text. -/
  layers : c.layers = head.flatMap HeadItem.layers ++ body.flatMap BodyItem.layers

end Verif.Spec.LangDef
