/-
C66: a syntax tree keeps the text it was built for.
-/
import Verif.Proof.Lossless
import Verif.Props.TreeHook
import Verif.Props.TextIff

namespace Verif.Props

open Verif.Model Verif.Spec Verif.Spec.Ebnf Verif.Proof

variable {σ η : Type}

/-- C66: pieces put together are the text. -/
theorem C66_pieces {l : SrcList.State Src} {toks : List Token} (h : Pieces l toks []) :
    toks.flatMap (·.content) = l.flatMap fun x => x.1.content.drop x.2 := by
  generalize hl : ([] : SrcList.State Src) = l' at h
  induction h with
  | nil => subst hl; rfl
  | @tok src p n t rest l toks h1 h2 h3 h4 h5 _ ih =>
    rw [List.flatMap_cons, ih hl, List.flatMap_cons, List.flatMap_cons, ← List.append_assoc, ← List.drop_drop, h4, List.take_append_drop]
  | eof _ ih =>
    rw [List.flatMap_cons, ih hl, List.flatMap_cons, List.drop_length]
    rfl

theorem content_filter {p : Token → Bool} (l : List Token) (h : ∀ t ∈ l, p t = false → t.content = []) :
    (l.filter p).flatMap (·.content) = l.flatMap (·.content) := by
  induction l with
  | nil => rfl
  | cons t l ih =>
    have ih' := ih fun t ht => h t (by simp [ht])
    cases hp : p t with
    | true => rw [List.filter_cons_of_pos hp, List.flatMap_cons, List.flatMap_cons, ih']
    | false =>
      rw [List.filter_cons_of_neg (by simp [hp]), List.flatMap_cons, h t (by simp) hp, ih']
      rfl

theorem pieces_eof {l l' : SrcList.State Src} {toks : List Token} (h : Pieces l toks l') : ∀ t ∈ toks, t.type = eofTokenType → t.content = [] := by
  induction h with
  | nil => simp
  | tok _ _ h3 _ _ _ ih =>
    refine List.forall_mem_cons.mpr ⟨fun he => ?_, ih⟩
    rw [he] at h3
    exact absurd h3 (by simp [eofTokenType])
  | eof _ ih => exact List.forall_mem_cons.mpr ⟨fun _ => rfl, ih⟩

/-- C66, partial: let the grammar be compiled, let the parser have the lexers of the grammar and options `WithSides` and
`WithFullSource`, and let `tree.NodeHook` be set for any node. When a text (a list of sources, from their current places) is parsed,
the tokens of the tree, followed by some side tokens, are pieces of the text in the order of the text, every one at its place, and
together they are the whole text. `n` is the number of steps sufficient for the lexer.
Missing: those last side tokens are not in the tree (`C66_trailing_lost`); token hooks (false, hooks change tokens), grammars in
which branches are overwritten during a lookahead (see `SafeLookahead`, C31). -/
theorem C66_tree_text_partial {upper : List Nat → List Nat} {find : Nat → List Nat → List Nat} {ts a b c : List GToken}
    {bodies : List (Option Chunk)} {order1 order2 order3 : List Nat} {k : Nat}
    (env : PEnv σ) (hc : compile upper find ts bodies order1 order2 order3 k = .done (.ok env.g))
    (hwf : ∀ c, some c ∈ bodies → WF c) (hlay : Layout ts a b c) (hsafe : SafeLookahead env.g env.upper)
    (hpass : env.passSides = true) (hfull : env.fullSource = true)
    (tenv : TEnv η) {re : List Nat → Option Matcher} (hl : LexersOf re ts tenv.lexers)
    {n : Nat} (hn : 0 < n) {ls : LState η} {l : SrcList.State Src} (hq : Lexer.Holds ls.ps.src l) (hlen : ∀ x ∈ l, x.1.content.length < n)
    (names : Nat → String) {fuel : Nat} {pos : SrcPos} {pc : PC (LState η)}
    (h : parse (withTree (pipelineEnv env tenv [] n)) fuel ls pos = .done (.ok pc)) :
    ∃ (F : Trees.Forest) (t : Trees.Tree) (leaves sides toks : List Token),
      pc.lastResult = some t.id ∧ Shows (Tree.treeHeap names pc.log) F ∧ t.Of F ∧
      (t.tokens (Tree.kinds (Tree.treeHeap names pc.log))).map (fun x => (Tree.treeHeap names pc.log x).token) = leaves.map some ∧
      (∀ s ∈ sides, env.g.isSideType s.type = true) ∧ Pieces l toks [] ∧
      leaves.filter (fun t => t.type ≠ eoiTokenType) ++ sides = toks.filter (fun t => t.type ≠ eofTokenType) ∧
      leaves.flatMap (·.content) ++ sides.flatMap (·.content) = l.flatMap fun x => x.1.content.drop x.2 := by
  obtain ⟨n, rfl⟩ : ∃ k, n = k + 1 := ⟨n - 1, by omega⟩
  obtain ⟨F, t, -, -, -, -, h1, h2, -, h3, -, -, h4⟩ := C34_tree _ names fuel ls pos pc h
  have h' : parse (pipelineEnv (withTree env) tenv [] (n + 1)) fuel ls pos = .done (.ok pc) := h
  obtain ⟨h5, h6⟩ := parse_took (withTree env) hl hpass hsafe hfull (compiled_sides hc hwf hlay) ⟨hq, hlen⟩ h'
  obtain ⟨toks, sides, h7, h8, h9, h10⟩ := took_all h5 h6
  refine ⟨F, t, _, sides, toks, h1, h2, h3, h4, h8, h7, h10, ?_⟩
  rw [← C66_pieces h7, ← content_filter (p := fun t => t.type ≠ eofTokenType) toks (fun t ht hp => pieces_eof h7 t ht (by simpa using hp)), ← h10,
    List.flatMap_append, content_filter]
  intro t ht hp
  rw [h9 t ht (by simpa using hp)]
  rfl

/-! ### Samples -/

/-- A parser with the sample lexer, the option `WithSides` and a tree. -/
def keepEnv (g : Grammar) : PEnv (LState Nat) :=
  withTree (pipelineEnv { pickyEnv g with passSides := true } ({ g := g, lexers := textLexers } : TEnv Nat) [] 20)

/-- Contents of tokens of elements made by a parse, in the order they were made (the tree of `sampleOne` is made in the order of the text). -/
def madeText (pc : PC (LState Nat)) : List Nat :=
  (pc.log.filterMap fun e => match e with
    | .token 0 _ t => some t.content
    | _ => none).flatten

/-- The text ` 1y x y  ` is parsed, so the tree and trailing side tokens keep it. -/
example : ∃ g pc, compile id sampleFind textTokens (sampleOne.map some) (List.range 2) (List.range 2) (List.range 2) 100 = .done (.ok g) ∧
    parse (keepEnv g) 100 (textState " 1y x y  ") ⟨none, 0⟩ = .done (.ok pc) ∧
    ∃ (F : Trees.Forest) (t : Trees.Tree) (leaves sides toks : List Token),
      pc.lastResult = some t.id ∧ Shows (Tree.treeHeap (fun _ => "") pc.log) F ∧ t.Of F ∧
      (t.tokens (Tree.kinds (Tree.treeHeap (fun _ => "") pc.log))).map (fun x => (Tree.treeHeap (fun _ => "") pc.log x).token) = leaves.map some ∧
      (∀ s ∈ sides, g.isSideType s.type = true) ∧ Pieces [(textSource 1 " 1y x y  ", 0)] toks [] ∧
      leaves.filter (fun t => t.type ≠ eoiTokenType) ++ sides = toks.filter (fun t => t.type ≠ eofTokenType) ∧
      leaves.flatMap (·.content) ++ sides.flatMap (·.content) =
        [(textSource 1 " 1y x y  ", 0)].flatMap fun x => x.1.content.drop x.2 := by
  have hrun : (match compile id sampleFind textTokens (sampleOne.map some) (List.range 2) (List.range 2) (List.range 2) 100 with
      | .done (.ok g) => decide (g.tables.multi = []) && (match parse (keepEnv g) 100 (textState " 1y x y  ") ⟨none, 0⟩ with
        | .done (.ok _) => true
        | _ => false)
      | _ => false) = true := by decide +kernel
  split at hrun
  · rename_i g hg
    simp only [Bool.and_eq_true, decide_eq_true_eq] at hrun
    obtain ⟨hm, hrun⟩ := hrun
    split at hrun
    · rename_i pc hp
      refine ⟨g, pc, hg, hp, ?_⟩
      exact C66_tree_text_partial (a := textTokens.take 3) (b := []) (c := textTokens.drop 3) { pickyEnv g with passSides := true } hg
        (by simp [sampleOne, cSeq, cRep, cOpt, cX, cY, WF, WFs]) ⟨by decide, by decide, by decide, by decide⟩ (safe_of_single hm) rfl rfl
        ({ g := g, lexers := textLexers } : TEnv Nat) textLexers_of.lexers (by decide) (ls := textState " 1y x y  ") (textQueue_holds _)
        (by simp only [List.mem_singleton, forall_eq]; decide) (fun _ => "") hp
    · cases hrun
  · cases hrun

/-- The same for the text `a by ` and a grammar with several rules for a token. -/
example : ∃ g pc, compile id sampleFind textTokens (sampleLookahead.map some) (List.range 3) (List.range 3) (List.range 3) 100 = .done (.ok g) ∧
    g.tables.multi ≠ [] ∧ parse (keepEnv g) 100 (textState "a by ") ⟨none, 0⟩ = .done (.ok pc) ∧
    ∃ (F : Trees.Forest) (t : Trees.Tree) (leaves sides toks : List Token),
      pc.lastResult = some t.id ∧ Shows (Tree.treeHeap (fun _ => "") pc.log) F ∧ t.Of F ∧
      (t.tokens (Tree.kinds (Tree.treeHeap (fun _ => "") pc.log))).map (fun x => (Tree.treeHeap (fun _ => "") pc.log x).token) = leaves.map some ∧
      (∀ s ∈ sides, g.isSideType s.type = true) ∧ Pieces [(textSource 1 "a by ", 0)] toks [] ∧
      leaves.filter (fun t => t.type ≠ eoiTokenType) ++ sides = toks.filter (fun t => t.type ≠ eofTokenType) ∧
      leaves.flatMap (·.content) ++ sides.flatMap (·.content) =
        [(textSource 1 "a by ", 0)].flatMap fun x => x.1.content.drop x.2 := by
  have hrun : (match compile id sampleFind textTokens (sampleLookahead.map some) (List.range 3) (List.range 3) (List.range 3) 100 with
      | .done (.ok g) => calmCheck g ((List.range g.tables.states.length).drop 1) && decide (g.tables.multi ≠ []) &&
        (match parse (keepEnv g) 100 (textState "a by ") ⟨none, 0⟩ with
        | .done (.ok _) => true
        | _ => false)
      | _ => false) = true := by decide +kernel
  split at hrun
  · rename_i g hg
    simp only [Bool.and_eq_true, decide_eq_true_eq] at hrun
    obtain ⟨⟨h1, h2⟩, hrun⟩ := hrun
    split at hrun
    · rename_i pc hp
      have hwf : ∀ c, some c ∈ sampleLookahead.map some → WF c := by simp [sampleLookahead, cSeq, cX, cY, WF, WFs]
      obtain ⟨m, hm⟩ := compiled_means hg (fun c hc => hwf c (List.mem_map_of_mem hc))
      refine ⟨g, pc, hg, h2, hp, ?_⟩
      exact C66_tree_text_partial (a := textTokens.take 3) (b := []) (c := textTokens.drop 3) { pickyEnv g with passSides := true } hg
        hwf ⟨by decide, by decide, by decide, by decide⟩ (C31_safe_if_calm hm (calm_of_check hm h1)) rfl rfl
        ({ g := g, lexers := textLexers } : TEnv Nat) textLexers_of.lexers (by decide) (ls := textState "a by ") (textQueue_holds _)
        (by simp only [List.mem_singleton, forall_eq]; decide) (fun _ => "") hp
    · cases hrun
  · cases hrun

/-- C66 is false without exceptions: side tokens after the end of the root node are not in the tree (`WithSides` is documented as
sending all tokens to node hooks). -/
theorem C66_trailing_lost :
    (match compile id sampleFind textTokens (sampleOne.map some) (List.range 2) (List.range 2) (List.range 2) 100 with
      | .done (.ok g) => (match parse (keepEnv g) 100 (textState " 1 x y  ") ⟨none, 0⟩ with
        | .done (.ok pc) => decide (madeText pc = [32, 49, 32, 120, 32, 121])
        | _ => false)
      | _ => false) = true := by decide +kernel

end Verif.Props
