/-
C56: grammars made from descriptions.
-/
import Verif.Proof.LangParse
import Verif.Props.LangSyntax
import Verif.Props.Sound
import Verif.Props.Types

namespace Verif.Props

open Verif Verif.Model Verif.Model.LangDef Verif.Spec Verif.Spec.Ebnf Verif.Spec.LangDef Verif.Proof Verif.Proof.LangDef

variable {σ : Type}

/-- A grammar made from a description; map orders are any. -/
structure MadeFrom (upper : List Nat → List Nat) (find : List Nat → List Nat → List Nat) (okRe : List Nat → Bool)
    (order1 order2 order3 : List Nat) (fuel : Nat) (inp : List (Except LErr LTok)) (head : List HeadItem) (body : List BodyItem)
    (p : Parsed) : Prop where
  ok : langParse upper find okRe order1 order2 order3 fuel inp = .done (.ok p)
  plain : Plain inp
  text : IsDescription head body inp
  order1 : order1.Perm (List.range (nodeList body).length)
  order2 : order2.Perm (List.range (nodeList body).length)
  order3 : order3.Perm (List.range (nodeList body).length)

/-- C56: what a grammar made from a description holds. Tokens, names of nodes and layers are as the text says; all mentioned nodes are
defined in the text, and the grammar is compiled from denotations of their definitions. Missing: names `string` and `token-name`,
empty regular expressions and errors inside layer definitions (C53). -/
theorem C56_content_partial {upper : List Nat → List Nat} {find : List Nat → List Nat → List Nat} {okRe : List Nat → Bool}
    {order1 order2 order3 : List Nat} {fuel : Nat} {inp : List (Except LErr LTok)} {head : List HeadItem} {body : List BodyItem}
    {p : Parsed} (h : MadeFrom upper find okRe order1 order2 order3 fuel inp head body p) :
    ∃ D bodies, Correct okRe head body D ∧ p.grammar.tokens = enlistLits (headTable head D) (body.flatMap BodyItem.lits) ∧
      p.names = nodeList body ∧ p.layers = head.flatMap HeadItem.layers ++ body.flatMap BodyItem.layers ∧
      Denoted body p.grammar.tokens bodies ∧ DistinctLiterals p.grammar ∧
      Compiled upper (findRe find p.grammar.tokens) p.grammar.tokens bodies order1 order2 order3 fuel p.grammar := by
  obtain ⟨c, hr, hc, hn, hl⟩ := langParse_steps h.ok
  obtain ⟨head', body', D, hi', hcor, hnodes, htok⟩ := accepted h.plain hr
  obtain ⟨rfl, rfl⟩ := C53_unambiguous h.text hi'
  obtain ⟨_, _, _, _, _, -, hund, -, -, -, -, -, -, hg⟩ := compile_steps hc
  have hlen : (c.nodes.map NodeEntry.chunk).length = (nodeList body).length := by
    rw [List.length_map, ← List.length_map (f := NodeEntry.name), hnodes.names]; rfl
  have hall := fetched_all (by rw [hlen]; exact h.order1) hund
  generalize hb : (c.nodes.map NodeEntry.chunk).filterMap id = bodies at hall
  have hden := nodes_denoted hnodes hall
  have hwf := denoted_wf h.text hden
  refine ⟨D, bodies, hcor, by rw [hg, htok], by rw [hn, hnodes.names]; rfl, by rw [hl, hnodes.layers], by rw [hg]; exact hden, ?_, ?_⟩
  · apply distinct_of
    rw [hg, htok]
    exact enlistLits_distinct _ _ (headTable_distinct _ _)
  · rw [hg]
    refine ⟨by rw [← hall]; exact hc, fun c hc => ⟨(hwf c hc).1, (hwf c hc).2.1⟩, fun c hc => (hwf c hc).2.2, ?_, ?_⟩
    · rw [hden.count]; exact h.order2
    · rw [hden.count]; exact h.order3

theorem made_compiled {upper : List Nat → List Nat} {find : List Nat → List Nat → List Nat} {okRe : List Nat → Bool}
    {order1 order2 order3 : List Nat} {fuel : Nat} {inp : List (Except LErr LTok)} {head : List HeadItem} {body : List BodyItem}
    {p : Parsed} (h : MadeFrom upper find okRe order1 order2 order3 fuel inp head body p) {bodies : List Chunk}
    (hb : Denoted body p.grammar.tokens bodies) : p.names = nodeList body ∧ DistinctLiterals p.grammar ∧
      Compiled upper (findRe find p.grammar.tokens) p.grammar.tokens bodies order1 order2 order3 fuel p.grammar := by
  obtain ⟨D, bodies', hcor, -, hn, -, hb', hd, hc⟩ := C56_content_partial h
  rw [denoted_unique hcor.distinct hb hb']
  exact ⟨hn, hd, hc⟩

/-- The words of the definition of node `i`: there is the definition in the text, and the word is described by its expression. -/
def TextWords (p : Parsed) (body : List BodyItem) (i : Nat) (w : List Sym) : Prop :=
  ∃ n es, p.names[i]? = some n ∧ BodyItem.node n es ∈ body ∧ ∃ v ∈ Expr.wordsSeq es, Spelled (namesOf p.grammar.tokens p.names) v w

theorem textWords_iff {p : Parsed} {body : List BodyItem} {bodies : List Chunk} (hn : p.names = nodeList body)
    (hd : (body.flatMap BodyItem.defined).Nodup) (hb : Denoted body p.grammar.tokens bodies) (i : Nat) (w : List Sym) :
    (∃ c, bodies[i]? = some c ∧ w ∈ lang c) ↔ TextWords p body i w := by
  constructor
  · rintro ⟨c, hc, hw⟩
    have hi := (List.getElem?_eq_some_iff.1 hc).1
    rw [hb.count] at hi
    obtain ⟨es, chs, h1, h2, h3⟩ := hb.each i _ (List.getElem?_eq_getElem hi)
    rw [hc] at h3
    cases h3
    refine ⟨_, es, by rw [hn, List.getElem?_eq_getElem hi], h1, ?_⟩
    rw [hn]
    exact (body_lang h2 w).1 hw
  · rintro ⟨n, es, h1, h2, h3⟩
    rw [hn] at h1
    obtain ⟨es', chs, h4, h5, h6⟩ := hb.each i n h1
    have := defined_once hd h2 h4
    subst this
    rw [hn] at h3
    exact ⟨_, h6, (body_lang h5 w).2 h3⟩

/-- C56: the machine of every node accepts exactly the words of its definition in the text. Missing: as in C51 (`LoopOk`,
`SafeMachines`) and C53 (`Plain`). -/
theorem C56_words_partial {upper : List Nat → List Nat} {find : List Nat → List Nat → List Nat} {okRe : List Nat → Bool}
    {order1 order2 order3 : List Nat} {fuel : Nat} {inp : List (Except LErr LTok)} {head : List HeadItem} {body : List BodyItem}
    {p : Parsed} (h : MadeFrom upper find okRe order1 order2 order3 fuel inp head body p) {bodies : List Chunk}
    (hb : Denoted body p.grammar.tokens bodies) (hloop : ∀ c ∈ bodies, LoopOk true c) (hsafe : SafeMachines bodies order2 order3 fuel) :
    ∃ m, Means p.grammar.tables m ∧ p.grammar.firsts.length = p.names.length ∧
      ∀ (i f : Nat), p.grammar.firsts[i]? = some f → ∀ w, Accepts m f w ↔ TextWords p body i w := by
  obtain ⟨D, bodies', hcor, -, hn, -, hb', hd, hc⟩ := C56_content_partial h
  have hbb := denoted_unique hcor.distinct hb hb'
  subst hbb
  obtain ⟨m, hm, -, hlen, hacc⟩ := C51_compiled_language_partial hc hloop hsafe
  refine ⟨m, hm, by rw [hlen, hn, hb.count], fun i f hf w => ?_⟩
  have hi : i < bodies.length := by rw [← hlen]; exact (List.getElem?_eq_some_iff.mp hf).1
  rw [hacc i _ f (List.getElem?_eq_getElem hi) hf w, ← textWords_iff hn hcor.distinct hb]
  rw [List.getElem?_eq_getElem hi]
  simp

/-- C56: a successful parse with the grammar means that the input is described by the text. Missing: as in C51 (`LoopOk`, `SafeMachines`,
`SafeLookahead`) and C53 (`Plain`). -/
theorem C56_accepted_is_described_partial {upper : List Nat → List Nat} {find : List Nat → List Nat → List Nat} {okRe : List Nat → Bool}
    {order1 order2 order3 : List Nat} {fuel : Nat} {inp : List (Except LErr LTok)} {head : List HeadItem} {body : List BodyItem}
    {p : Parsed} (h : MadeFrom upper find okRe order1 order2 order3 fuel inp head body p) {bodies : List Chunk}
    (hb : Denoted body p.grammar.tokens bodies) (hloop : ∀ c ∈ bodies, LoopOk true c) (hsafe : SafeMachines bodies order2 order3 fuel)
    (env : PEnv σ) (henv : env.g = p.grammar) (hlook : SafeLookahead env.g env.upper) (fuel' : Nat) (src : σ) (pos : SrcPos) (pc : PC σ)
    (hp : parse env fuel' src pos = .done (.ok pc)) :
    ∃ items, leavesOf items = (consumedBy pc.steps).reduceOption ∧ Described p.grammar env.upper (TextWords p body) items := by
  obtain ⟨D, bodies', hcor, -, hn, -, hb', hd, hc⟩ := C56_content_partial h
  have hbb := denoted_unique hcor.distinct hb hb'
  subst hbb
  obtain ⟨items, h1, h2⟩ := C51_accepted_is_described_partial hc hloop hsafe hd env henv hlook fuel' src pos pc hp
  refine ⟨items, h1, ?_⟩
  rwa [show (fun i w => ∃ c, bodies[i]? = some c ∧ w ∈ lang c) = TextWords p body from
    funext fun i => funext fun w => propext (textWords_iff hn hcor.distinct hb i w)] at h2

/-- The order of tokens of a description. -/
theorem text_layout (head : List HeadItem) (body : List BodyItem) (D : List (List Nat × List Nat)) :
    ∃ a b c, Layout (enlistLits (headTable head D) (body.flatMap BodyItem.lits)) a b c ∧ a.length = D.length := by
  obtain ⟨l, hl, hlit⟩ := enlistLits_tail (headTable head D) (body.flatMap BodyItem.lits)
  refine ⟨D.map fun d => typeEntry head d.1 (some d.2), (undefinedTypes head D).map fun n => typeEntry head n none,
    (enlistDecl [] (head.flatMap HeadItem.lits)).map literalEntry ++ l, ⟨by rw [hl, headTable]; simp only [List.append_assoc], ?_, ?_, ?_⟩, by simp⟩
  · intro t ht
    obtain ⟨d, -, rfl⟩ := List.mem_map.1 ht
    exact ⟨rfl, rfl⟩
  · intro t ht
    obtain ⟨d, -, rfl⟩ := List.mem_map.1 ht
    exact ⟨rfl, rfl⟩
  · intro t ht
    rcases List.mem_append.1 ht with ht | ht
    · obtain ⟨d, -, rfl⟩ := List.mem_map.1 ht
      exact ⟨rfl, rfl⟩
    · exact hlit t ht

/-- C56: token types expected in a state are side types, types and types providing literals which have rules in this state; a literal is
provided by a type if the regular expression of the type in the text matches the whole literal, the type may be a literal (`!literal`), and the
literal is in upper case if the type is caseless. Missing: as in C53 (`Plain`). -/
theorem C56_types_partial {upper : List Nat → List Nat} {find : List Nat → List Nat → List Nat} {okRe : List Nat → Bool}
    {order1 order2 order3 : List Nat} {fuel : Nat} {inp : List (Except LErr LTok)} {head : List HeadItem} {body : List BodyItem}
    {p : Parsed} (h : MadeFrom upper find okRe order1 order2 order3 fuel inp head body p) {m : Nat → Int → List Rule}
    (hm : Means p.grammar.tables m) {s : Nat} {gs : GState} (hs : p.grammar.tables.states[s]? = some gs) {j : Nat} (hj : j < 64) :
    gs.types.getLsbD j = true ↔ (∃ t, p.grammar.tokens[j]? = some t ∧ t.flags.side = true) ∨
      ∃ k : Nat, m s k ≠ [] ∧ Provides upper (findRe find p.grammar.tokens) p.grammar.tokens k j := by
  obtain ⟨D, bodies, hcor, htok, hn, -, hb, hd, hc⟩ := C56_content_partial h
  obtain ⟨a, b, c, hlay, -⟩ := text_layout head body D
  rw [← htok] at hlay
  refine C40_types_exact hc.ok ?_ hlay hm hs hj
  intro c hcm
  obtain ⟨c', hc', he⟩ := List.mem_map.1 hcm
  cases he
  exact (hc.wf c hc').1

/-- Sample `FindString` for `/a/`. -/
def descFind (re text : List Nat) : List Nat := if re = bytesOf "a" ∧ text = bytesOf "a" then text else []

/-- The denotation of `$n, {'a'}`. -/
def descBodies : List Chunk := [.group [.token 1, .group [.token 2] true true] false false]

/-- `a aa` for the sample: spaces are of type 0, letters are of type 1. -/
def descInput : List Token :=
  [⟨1, "", bytesOf "a", ⟨none, 0⟩⟩, ⟨0, "", bytesOf " ", ⟨none, 0⟩⟩, ⟨1, "", bytesOf "a", ⟨none, 0⟩⟩, ⟨1, "", bytesOf "a", ⟨none, 0⟩⟩]

/-- All hypotheses of the theorems hold for the sample and a text is accepted. -/
theorem descSample_meets : ∃ p, MadeFrom id descFind (fun _ => true) [0] [0] [0] 100 descSample descHead descBody p ∧
    Denoted descBody p.grammar.tokens descBodies ∧ (∀ c ∈ descBodies, LoopOk true c) ∧ SafeMachines descBodies [0] [0] 100 ∧
    SafeLookahead p.grammar id ∧ ∃ pc, parse (streamEnv p.grammar) 100 descInput ⟨none, 0⟩ = .done (.ok pc) := by
  have hwf : ∀ c ∈ descBodies, WF c := by simp [descBodies, WF, WFs]
  have hr : (match langParse id descFind (fun _ => true) [0] [0] [0] 100 descSample with
    | .done (.ok p) => calmCheck p.grammar [] &&
        decide ((namesOf p.grammar.tokens (nodeList descBody)).token (bytesOf "n") = some 1) &&
        decide ((namesOf p.grammar.tokens (nodeList descBody)).literal (bytesOf "a") = some 2) &&
        (match parse (streamEnv p.grammar) 100 descInput ⟨none, 0⟩ with
        | .done (.ok _) => true
        | _ => false)
    | _ => false) = true := by decide +kernel
  split at hr
  · next p hp =>
    simp only [Bool.and_eq_true, decide_eq_true_eq] at hr
    obtain ⟨⟨⟨h1, h2⟩, h3⟩, h4⟩ := hr
    have hmade : MadeFrom id descFind (fun _ => true) [0] [0] [0] 100 descSample descHead descBody p :=
      ⟨hp, descSample_plain, descSample_description, List.Perm.refl _, List.Perm.refl _, List.Perm.refl _⟩
    obtain ⟨D, bodies, -, -, -, -, -, -, hc⟩ := C56_content_partial hmade
    obtain ⟨m, hm⟩ := compiled_means hc.ok (fun c hc' => (hc.wf c hc').1)
    refine ⟨p, hmade, ⟨rfl, ?_⟩, ?_, safe_of_check hwf (by decide +kernel), safe_of_calm hm (calm_of_check hm h1), ?_⟩
    · intro i n hn
      have hl : nodeList descBody = [bytesOf "root"] := by decide +kernel
      rw [hl] at hn
      cases i with
      | zero =>
        cases hn
        refine ⟨_, _, List.mem_singleton.2 rfl, ?_, rfl⟩
        simp only [Expr.chunks, Expr.chunk, h2, h3, Option.map_some, Option.bind_some]
      | succ i => cases hn
    · simp [descBodies, LoopOk, LoopOkSeq]
    · split at h4
      · next pc hpc => exact ⟨pc, hpc⟩
      · cases h4
  · cases hr

end Verif.Props
