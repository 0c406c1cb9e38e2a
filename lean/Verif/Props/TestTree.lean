/-
C76: the tree validator of the project's tests accepts exactly the trees described by its expression.
-/
import Verif.Proof.TestTree
import Verif.Props.Fold

namespace Verif.Props

open Verif.Model Verif.Model.TestTree Verif.Spec Verif.Spec.TestTree Verif.Proof Verif.Proof.TestTree

variable {σ : Type}

/-- C76: for every tree and every sequence of commands, the validator accepts if and only if the commands are written patterns and these patterns
describe the first children of the root one by one; nested nodes are described completely. -/
theorem C76_validate_iff (root : TN) (cmds : List (List Nat)) :
    validate root cmds = some (.ok ()) ↔ ∃ ps first rest, cmds = wordsOf ps ∧ root.children = first ++ rest ∧ FitsAll ps first := by
  constructor
  · intro h
    rw [validate] at h
    obtain ⟨r, hr, h⟩ := Option.bind_eq_some_iff.1 h
    cases r with
    | error e => cases h
    | ok s =>
      have hs := seen_loop (root := root) (w := wordsOf []) (.base (i := 0) (Nat.zero_le _) (by rw [List.take_zero, FitsAll]; trivial)) hr
      rw [wordsOf, List.nil_append] at hs
      obtain ⟨f, rest⟩ := s
      cases rest with
      | cons p rest => cases h
      | nil =>
        generalize hf : ((f, []) : Stack) = s at hs
        cases hs with
        | base h1 h2 => exact ⟨_, _, _, rfl, (List.take_append_drop _ _).symm, h2⟩
        | start => cases hf
        | opened => cases hf
  · rintro ⟨ps, first, rest, rfl, hc, hf⟩
    have := loop_fitsAll root [] 0 ps first ⟨rest, by rw [List.drop_zero, hc]⟩ hf
    rw [validate]
    rw [show ((0 : Nat) : Int) = 0 from rfl] at this
    rw [this]
    rfl

/-- C76, panics: the validator does not panic if no `(` is followed by a parenthesis and no word is empty or a single quote. -/
theorem C76_no_panic_partial (root : TN) (cmds : List (List Nat)) (h : Proper cmds) : ∃ r, validate root cmds = some r := by
  obtain ⟨r, hr⟩ := loop_some (root := root) (cmds := cmds) (w := wordsOf [])
    (.base (i := 0) (Nat.zero_le _) (by rw [List.take_zero, FitsAll]; trivial)) h (by simp)
  rw [validate]
  rw [show ((0 : Nat) : Int) = 0 from rfl] at hr
  rw [hr, Option.bind_some]
  cases r with
  | error e => exact ⟨_, rfl⟩
  | ok s =>
    obtain ⟨f, rest⟩ := s
    cases rest <;> exact ⟨_, rfl⟩

/-- C76, texts: an expression is split into the words which it is written from. -/
theorem C76_words (expr : List Nat) (ws : List (List Nat)) (h : Written expr ws) : findAll expr.length expr = ws :=
  findAll_written h _ (Nat.le_refl _)

/-- C76, texts: an expression written from the words of patterns is accepted if and only if some patterns with these words describe the first children. -/
theorem C76_expr (root : TN) (expr : List Nat) (ws : List (List Nat)) (h : Written expr ws) :
    validateExpr root expr = some (.ok ()) ↔ ∃ ps first rest, ws = wordsOf ps ∧ root.children = first ++ rest ∧ FitsAll ps first := by
  rw [validateExpr, C76_words expr ws h]
  exact C76_validate_iff root ws

/-- C76, with the parser: after a successful parse with hooks of tests (any grammar, any token pipeline, any other hooks), the result is the tree made of
the parse tree, its leaves are the consumed tokens, and an expression is accepted if and only if it describes the first items of the root node. -/
theorem C76_parsed (names : Nat → List Nat) (typeName : String → List Nat) (env : PEnv σ) (fuel : Nat) (src : σ) (pos : SrcPos) (pc : PC σ)
    (h : parse (withObjects (testHooks names typeName) env) fuel src pos = .done (.ok pc)) :
    ∃ items k tree, leavesOf items = (consumedBy pc.steps).reduceOption ∧ pc.lastResult = some k ∧
      (objectsAfter (testHooks names typeName) pc.log).vals k = some tree ∧ tree = .mk true (names 0) [] (treesOf names typeName items) ∧
      ∀ expr ws, Written expr ws → (validateExpr tree expr = some (.ok ()) ↔
        ∃ ps first rest, ws = wordsOf ps ∧ items = first ++ rest ∧ FitsAll ps (treesOf names typeName first)) := by
  obtain ⟨items, k, tree, h1, h2, h3, h4⟩ := C69_result_is_fold (testHooks names typeName) env fuel src pos pc h
  have ht : tree = .mk true (names 0) [] (treesOf names typeName items) := by
    have := append_items names typeName true (names 0) [] items []
    rw [List.nil_append] at this
    rw [HookClass.node] at h4
    simp only [testHooks, nodeNode, orStop] at h4 this
    rw [this] at h4
    cases h4
    rfl
  refine ⟨items, k, tree, h1, h2, h3, ht, fun expr ws hw => ?_⟩
  rw [C76_expr tree expr ws hw, ht]
  have map : ∀ l : List Item, treesOf names typeName l = l.map (treeOf names typeName) := by
    intro l
    induction l with
    | nil => rw [treesOf]; rfl
    | cons i l ih => rw [treesOf, ih]; rfl
  constructor
  · rintro ⟨ps, first, rest, e, hc, hf⟩
    rw [TN.children, map] at hc
    obtain ⟨i1, i2, rfl, rfl, rfl⟩ := List.map_eq_append_iff.1 hc
    exact ⟨ps, i1, i2, e, rfl, by rw [map]; exact hf⟩
  · rintro ⟨ps, first, rest, e, rfl, hf⟩
    exact ⟨ps, _, treesOf names typeName rest, e, by simp only [TN.children, map, List.map_append], hf⟩

/-- C76: nodes at the end of the root node are not noticed, nor is the name of the root. -/
theorem C76_rest_unnoticed (b b' : Bool) (n n' t t' : List Nat) (cs more : List TN) (cmds : List (List Nat))
    (h : validate (.mk b n t cs) cmds = some (.ok ())) : validate (.mk b' n' t' (cs ++ more)) cmds = some (.ok ()) := by
  rw [C76_validate_iff] at h ⊢
  obtain ⟨ps, first, rest, e, hc, hf⟩ := h
  refine ⟨ps, first, rest ++ more, e, ?_, hf⟩
  simp only [TN.children] at hc ⊢
  rw [hc, List.append_assoc]

/-- C76: the empty expression accepts every tree. -/
theorem C76_empty (root : TN) : validateExpr root [] = some (.ok ()) := by
  rw [C76_expr root [] [] .nil]
  exact ⟨[], [], root.children, by rw [wordsOf], rfl, by rw [FitsAll]; trivial⟩

/-- Bytes of a text. -/
def asBytes (s : String) : List Nat := s.toList.map Char.toNat

/-- The tree from the test of the validator (`/repo/parser/test/tree.go` lines 187-188): `baz foo`. -/
def bazFoo : TN := .mk true (asBytes "g") [] [.mk true (asBytes "baz") [] [.mk false (asBytes "any") (asBytes "baz") []],
  .mk true (asBytes "foo") [] [.mk false (asBytes "any") (asBytes "foo") []]]

/-- C76: some wrong expressions make the validator panic. -/
theorem C76_panics : (validateExpr bazFoo (asBytes "()")).isNone ∧ (validateExpr bazFoo (asBytes "((baz")).isNone ∧
    (validateExpr bazFoo (asBytes "(baz '")).isNone := by
  decide +kernel

-- samples from the test, lines 190-192
example : (validateExpr bazFoo (asBytes "(baz baz)(foo foo)")).any (fun r => match r with | .ok _ => true | .error _ => false) = true := by
  decide +kernel
example : (validateExpr bazFoo (asBytes "(baz baz))(foo foo)")).any (fun r => match r with
    | .error e => e.msg = .excessive ∧ e.path = [1] | .ok _ => False) = true := by decide +kernel
example : (validateExpr bazFoo (asBytes "(baz baz)(foo foo")).any (fun r => match r with
    | .error e => e.msg = .missing ∧ e.path = [1, 1] | .ok _ => False) = true := by decide +kernel
-- by the token type, in quotes; another text
example : (validateExpr bazFoo (asBytes " ( 'baz' any)\n(foo 'foo' )")).any (fun r => match r with | .ok _ => true | .error _ => false) = true := by
  decide +kernel
example : (validateExpr bazFoo (asBytes "(baz bar)")).any (fun r => match r with
    | .error e => e.msg = .otherToken (asBytes "bar") (asBytes "any") (asBytes "baz") ∧ e.path = [0, 0] | .ok _ => False) = true := by decide +kernel
-- the second node is not noticed
example : (validateExpr bazFoo (asBytes "(baz any)")).any (fun r => match r with | .ok _ => true | .error _ => false) = true := by decide +kernel

/-- Patterns of the sample. -/
def bazFooPats : List Pat := [.node (asBytes "baz") [.tok (asBytes "any")], .node (asBytes "'foo'") [.tok (asBytes "foo")]]

example : FitsAll bazFooPats bazFoo.children := by
  simp only [bazFooPats, bazFoo, TN.children, FitsAll, TestTree.Fits, and_true, true_and]
  exact ⟨⟨.inr (by decide +kernel), _, .inr ⟨rfl, by decide +kernel⟩, .inl rfl⟩, .inl ⟨39, by decide +kernel⟩, _, .inr ⟨rfl, by decide +kernel⟩, .inr rfl⟩

example : Written (asBytes "(baz any) ('foo'foo)") (wordsOf bazFooPats) := by
  have e : wordsOf bazFooPats = [[40], asBytes "baz", asBytes "any", [41], [40], asBytes "'foo'", asBytes "foo", [41]] := by
    simp [bazFooPats, wordsOf, Pat.words]
  have e1 : asBytes "(baz any) ('foo'foo)" = 40 :: ([98, 97, 122] ++ 32 :: ([97, 110, 121] ++ 41 :: 32 :: 40 :: 39 :: ([102, 111, 111] ++ 39 :: ([102, 111, 111] ++ [41])))) := by
    decide
  have e2 : asBytes "baz" = [98, 97, 122] := by decide +kernel
  have e3 : asBytes "any" = [97, 110, 121] := by decide +kernel
  have e4 : asBytes "'foo'" = 39 :: ([102, 111, 111] ++ [39]) := by decide +kernel
  have e5 : asBytes "foo" = [102, 111, 111] := by decide +kernel
  rw [e, e1, e2, e3, e4, e5]
  exact .left (.word (by decide +kernel) (by decide +kernel) (by simp [InWord, Blank]) (by simp [InWord, Blank])
    (.blank (.inr (.inr (.inr (.inr rfl)))) (.word (by decide +kernel) (by decide +kernel) (by simp [InWord, Blank]) (by simp [InWord, Blank])
    (.right (.blank (.inr (.inr (.inr (.inr rfl)))) (.left (.quoted (by decide +kernel) (by simp)
    (.word (by decide +kernel) (by decide +kernel) (by simp [InWord, Blank]) (by simp [InWord, Blank]) (.right .nil)))))))))

example : Proper [[40], asBytes "baz", asBytes "any", [41]] := by
  rw [Proper, Proper, Proper, Proper, Proper]
  decide +kernel

/-- Names of nodes of the sample. -/
def testNames (i : Nat) : List Nat := if i = 0 then asBytes "g" else asBytes "n"

-- a parsed text: `root = n, 'y'; n = 'x'`
example : (match sampleCompile [cSeq [.node 1, cY], cX] with
    | .done (.ok g) => (match parse (withObjects (testHooks testNames asBytes) (pickyEnv g)) 100 (charTokens "xy") ⟨none, 0⟩ with
      | .done (.ok pc) => (pc.lastResult.bind (objectsAfter (testHooks testNames asBytes) pc.log).vals).any fun tree =>
        (validateExpr tree (asBytes "(n x) y")).any fun r => match r with | .ok _ => true | .error _ => false
      | _ => false)
    | _ => false) = true := by decide +kernel

end Verif.Props
