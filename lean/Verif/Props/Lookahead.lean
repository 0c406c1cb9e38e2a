/-
C31: a lookahead follows every variant.
-/
import Verif.Proof.Calm
import Verif.Proof.CompileMeans
import Verif.Props.ParseTokens
import Verif.Props.Samples

namespace Verif.Props

open Verif.Model Verif.Spec Verif.Spec.Ebnf Verif.Proof

variable {σ : Type}

/-- C31, partial: if no branch is overwritten during a lookahead then every variant of using the tokens inside the current
node is followed: if some variants use all the tokens that were read, the chosen one is among them; else if some variants
leave the node after all the tokens but the last one, the chosen one is among them; in any case the chosen rules use all the
tokens, or all but the last one, for which they leave the node or find no rules; they are used in accordance with the tables,
one after another. The lookahead stops only when at most one variant is left, or no token is
expected by any variant, or the next token cannot be read. Missing: lookaheads in which branches are overwritten (false,
`C31_branch_overwritten`); what follows the node is never looked at (`C31_following_ignored`). -/
theorem C31_variants_followed_partial (env : PEnv σ) (hsafe : SafeLookahead env.g env.upper) (fuel : Nat) (pc pc' : PC σ)
    (tok : Option Token) (node : NodeRec) (rest : List NodeRec) (hs : pc.stack = node :: rest) (found : List Rule)
    (hf : findRules env.g env.upper tok node.state = some found) (hl : 1 < found.length) (tokens : List (Option Token))
    (rules : List Rule) (h : resolveConflict env fuel pc tok = .done (pc', tokens, rules)) :
    ((∃ rs st, TakesAll env.g env.upper tokens [node.state] rs st) →
      ∃ st, TakesAll env.g env.upper tokens [node.state] rules st) ∧
    (∀ ts last, tokens = ts ++ [last] → (¬ ∃ rs st, TakesAll env.g env.upper tokens [node.state] rs st) →
      (∃ rs1 st rs2, TakesAll env.g env.upper ts [node.state] rs1 st ∧ Leaves env.g env.upper last st rs2) →
      ∃ rs1 st rs2, TakesAll env.g env.upper ts [node.state] rs1 st ∧ Leaves env.g env.upper last st rs2 ∧
        rules = rs1 ++ rs2) ∧
    (∃ ts last, tokens = ts ++ [last] ∧ ((∃ st, TakesAll env.g env.upper tokens [node.state] rules st) ∨
      ∃ rs1 st rs2, TakesAll env.g env.upper ts [node.state] rs1 st ∧ rules = rs1 ++ rs2 ∧
        (Leaves env.g env.upper last st rs2 ∨ Stuck env.g env.upper last st rs2))) ∧
    Legal env.g env.upper tokens [node.state] rules ∧
    ((∀ rs st rs' st', TakesAll env.g env.upper tokens [node.state] rs st →
        TakesAll env.g env.upper tokens [node.state] rs' st' → rs = rs' ∧ st = st') ∨
      ∃ types : TokenTypeSet, types = 0 ∨ ∃ fuel pc pc' e, nextToken env fuel pc types = .done (pc', .error e)) := by
  obtain ⟨h1, h2⟩ := resolve_chosen hsafe hs hf hl h
  exact ⟨h1.taken, fun ts last e1 e2 e3 => h1.left e2 ts last e1 e3, h1.shape, h1.legal, h2⟩

/-- C31: a lookahead is safe if there are no further conflicts in states that can be entered during it. -/
theorem C31_safe_if_calm {g : Grammar} {upper : List Nat → List Nat} {m : Nat → Int → List Rule} (hm : Means g.tables m)
    {S : Int → Prop} (h : CalmSet g m S) : SafeLookahead g upper := safe_of_calm hm h

/-- Tokens described by a word, side tokens ignored. -/
inductive Fringe (rel : Sym → Token → Prop) (L : Nat → List Sym → Prop) : List Sym → List Token → Prop
  | nil : Fringe rel L [] []
  | tok {x t w ts} : rel x t → Fringe rel L w ts → Fringe rel L (x :: w) (t :: ts)
  | node {i u w ts1 ts2} : L i u → Fringe rel L u ts1 → Fringe rel L w ts2 → Fringe rel L (.node i :: w) (ts1 ++ ts2)

theorem spells_fringe {rel : Sym → Token → Prop} {side : Token → Prop} {L : Nat → List Sym → Prop} {w : List Sym}
    {items : List Item} (h : Spells rel side L w items) : (∀ t ∈ leavesOf items, ¬ side t) → Fringe rel L w (leavesOf items) := by
  induction h with
  | nil => exact fun _ => .nil
  | side hs _ _ => exact fun hn => absurd hs (hn _ (by simp [leavesOf, Item.leaves]))
  | tok hr _ ih => exact fun hn => .tok hr (ih fun t ht => hn t (by simp [leavesOf, ht]))
  | node hl _ _ ih1 ih2 =>
    intro hn
    exact .node hl (ih1 fun t ht => hn t (by simp [leavesOf, Item.leaves, ht])) (ih2 fun t ht => hn t (by simp [leavesOf, ht]))

theorem fringe_nil {rel : Sym → Token → Prop} {L : Nat → List Sym → Prop} {ts : List Token} :
    Fringe rel L [] ts ↔ ts = [] :=
  ⟨fun h => by cases h; rfl, fun h => by rw [h]; exact .nil⟩

theorem fringe_tok {rel : Sym → Token → Prop} {L : Nat → List Sym → Prop} {k : Nat} {w : List Sym} {ts : List Token} :
    Fringe rel L (.tok k :: w) ts ↔ ∃ t ts', ts = t :: ts' ∧ rel (.tok k) t ∧ Fringe rel L w ts' := by
  constructor
  · intro h
    cases h with
    | tok h1 h2 => exact ⟨_, _, rfl, h1, h2⟩
  · rintro ⟨t, ts', rfl, h1, h2⟩
    exact .tok h1 h2

theorem fringe_node {rel : Sym → Token → Prop} {L : Nat → List Sym → Prop} {i : Nat} {w : List Sym} {ts : List Token}
    (hrel : ∀ t, ¬ rel (.node i) t) :
    Fringe rel L (.node i :: w) ts ↔ ∃ u ts1 ts2, ts = ts1 ++ ts2 ∧ L i u ∧ Fringe rel L u ts1 ∧ Fringe rel L w ts2 := by
  constructor
  · intro h
    cases h with
    | tok h1 h2 => exact absurd h1 (hrel _)
    | node h1 h2 h3 => exact ⟨_, _, _, rfl, h1, h2, h3⟩
  · rintro ⟨u, ts1, ts2, rfl, h1, h2, h3⟩
    exact .node h1 h2 h3

/-- Definitions of nodes. -/
def defsOf (bodies : List Chunk) (i : Nat) (w : List Sym) : Prop := ∃ c, bodies[i]? = some c ∧ w ∈ lang c

/-- `root = foo | bar; foo = $n, (p | q); bar = $n, $n, '3'; p = $n, '1'; q = $n, $n, '2'`. -/
def sampleOverwrite : List Chunk :=
  [cSeq [.variant [.node 1, .node 2]], cSeq [.token 0, .variant [.node 3, .node 4]], cSeq [.token 0, .token 0, .token 7],
    cSeq [.token 0, .token 5], cSeq [.token 0, .token 0, .token 6]]

/-- `root = n, 'y'; n = 'x' | ('x', 'y')`. -/
def sampleFollow : List Chunk := [cSeq [.node 1, cY], cSeq [.variant [cX, cSeq [cX, cY]]]]

/-- Sample grammars have sample tokens. -/
theorem sample_tokens {defs : List Chunk} (h : (match sampleCompile defs with
    | .done (.ok g) => decide (g.tokens = sampleTokens)
    | _ => false) = true) {g : Grammar} (hg : sampleCompile defs = .done (.ok g)) : g.tokens = sampleTokens := by
  rw [hg] at h
  exact decide_eq_true_eq.mp h

/-- What sample tokens match. -/
theorem sample_matches {g : Grammar} (hg : g.tokens = sampleTokens) (k c : Nat) (hk : k < 8)
    (h : k = charType c ∨ (charType c ≠ 2 ∧ (sampleTokens[k]?).any fun t => t.flags.literal && t.name == [c])) :
    Stands g id (.tok k) { type := charType c, typeName := "", content := [c], pos := ⟨none, 0⟩ } := by
  have hres : ∀ i, ¬ IsReserved g i := by
    rintro i ⟨lt, h1, h2⟩
    rw [hg] at h1
    have := List.mem_of_getElem? h1
    simp only [sampleTokens, List.mem_cons, List.not_mem_nil, or_false] at this
    rcases this with rfl | rfl | rfl | rfl | rfl | rfl | rfl | rfl <;> cases h2
  rcases h with h | ⟨h0, h⟩
  · exact .inr ⟨by rw [h], fun i _ => hres i⟩
  · left
    rw [Option.any_eq_true] at h
    obtain ⟨lt, h1, h2⟩ := h
    simp only [Bool.and_eq_true, beq_iff_eq] at h2
    refine ⟨by simp, ?_⟩
    have hc : charType c = 0 ∨ charType c = 1 := by
      unfold charType at h0 ⊢
      split
      · exact .inl rfl
      · rename_i h3
        rw [if_neg h3] at h0
        split
        · rename_i h4; rw [if_pos h4] at h0; omega
        · exact .inr rfl
    rw [hg]
    rcases hc with hc | hc
    · exact ⟨sampleTokens[0], lt, by rw [hc]; rfl, rfl, h1, h2.1, by simpa [sampleTokens] using h2.2⟩
    · exact ⟨sampleTokens[1], lt, by rw [hc]; rfl, rfl, h1, h2.1, by simpa [sampleTokens] using h2.2⟩

/-- A digit is not matched as another digit. -/
theorem sample_not_matches {g : Grammar} (hg : g.tokens = sampleTokens) (k c : Nat) (h1 : k ≠ charType c)
    (h2 : (sampleTokens[k]?).any (fun t => t.flags.literal && t.name == [c]) = false) :
    ¬ Stands g id (.tok k) { type := charType c, typeName := "", content := [c], pos := ⟨none, 0⟩ } := by
  rintro (⟨-, tt, lt, e1, e2, e3, e4, e5⟩ | ⟨h, -⟩)
  · rw [hg] at e3
    rw [e3] at h2
    simp only [Option.any_some, e4, Bool.true_and, beq_eq_false_iff_ne, ne_eq] at h2
    apply h2
    rw [e5]
    simp
  · dsimp only at h
    omega

theorem mem_singleton_lang {x w : List Sym} : w ∈ ({x} : Language Sym) ↔ w = x := Iff.rfl

theorem mem_lang_cons {x : Sym} {l : Language Sym} {w : List Sym} :
    w ∈ ({[x]} : Language Sym) * l ↔ ∃ v, v ∈ l ∧ w = x :: v := by
  rw [Language.mem_mul]
  constructor
  · rintro ⟨a, ha, b, hb, rfl⟩
    rw [mem_singleton_lang] at ha
    subst ha
    exact ⟨b, hb, rfl⟩
  · rintro ⟨v, hv, rfl⟩
    exact ⟨[x], rfl, v, hv, rfl⟩

/-- Words of the definitions. -/
theorem overwrite_words (i : Nat) (w : List Sym) : defsOf sampleOverwrite i w ↔
    (i = 0 ∧ (w = [.node 1] ∨ w = [.node 2])) ∨ (i = 1 ∧ (w = [.tok 0, .node 3] ∨ w = [.tok 0, .node 4])) ∨
    (i = 2 ∧ w = [.tok 0, .tok 0, .tok 7]) ∨ (i = 3 ∧ w = [.tok 0, .tok 5]) ∨ (i = 4 ∧ w = [.tok 0, .tok 0, .tok 6]) := by
  unfold defsOf sampleOverwrite
  rcases i with _ | _ | _ | _ | _ | i <;>
    simp [cSeq, lang, langSeq, langAny, mem_lang_cons, mem_singleton_lang, Language.mem_add, Language.mem_one, mul_add]

/-- C31 is false: a branch that produces two branches makes the array of next branches overwrite branches not traced yet.
For `root = foo | bar; foo = $n, (p | q); bar = $n, $n, '3'; p = $n, '1'; q = $n, $n, '2'` input `a b 2` is accepted though
it is not described by the grammar (a branch is moved twice by one token), and `a b 3` is rejected though it is described. -/
theorem C31_branch_overwritten : ∃ g, sampleCompile sampleOverwrite = .done (.ok g) ∧
    (∃ pc, parse (streamEnv g) 100 (charTokens "ab2") ⟨none, 0⟩ = .done (.ok pc)) ∧
    (¬ ∃ items, leavesOf items = charTokens "ab2" ∧ Described g id (defsOf sampleOverwrite) items) ∧
    (∃ e, parse (streamEnv g) 100 (charTokens "ab3") ⟨none, 0⟩ = .done (.error e)) ∧
    ∃ items, leavesOf items = charTokens "ab3" ∧ Described g id (defsOf sampleOverwrite) items := by
  have hc : (match sampleCompile sampleOverwrite with
      | .done (.ok g) => decide (g.tokens = sampleTokens) &&
        (match parse (streamEnv g) 100 (charTokens "ab2") ⟨none, 0⟩ with
        | .done (.ok _) => true
        | _ => false) &&
        (match parse (streamEnv g) 100 (charTokens "ab3") ⟨none, 0⟩ with
        | .done (.error _) => true
        | _ => false)
      | _ => false) = true := by decide +kernel
  split at hc
  · rename_i g hs
    simp only [Bool.and_eq_true, decide_eq_true_eq] at hc
    obtain ⟨⟨hg, h1⟩, h2⟩ := hc
    refine ⟨g, hs, ?_, ?_, ?_, ?_⟩
    · split at h1
      · rename_i pc hp; exact ⟨pc, hp⟩
      · cases h1
    · rintro ⟨items, hl, w, hw, hsp⟩
      have hfr := spells_fringe hsp (by
        intro t ht
        rw [hl] at ht
        simp only [Grammar.isSideType, hg]
        revert t
        decide)
      rw [hl] at hfr
      have hn : ∀ i t, ¬ Stands g id (.node i) t := fun _ _ h => h
      have h5 : ¬ Stands g id (.tok 5) { type := (1 : Int), typeName := "", content := [50], pos := ⟨none, 0⟩ } :=
        sample_not_matches hg 5 50 (by decide) (by decide)
      have h7 : ¬ Stands g id (.tok 7) { type := (1 : Int), typeName := "", content := [50], pos := ⟨none, 0⟩ } :=
        sample_not_matches hg 7 50 (by decide) (by decide)
      have ht : charTokens "ab2" = [⟨0, "", [97], ⟨none, 0⟩⟩, ⟨0, "", [98], ⟨none, 0⟩⟩, ⟨1, "", [50], ⟨none, 0⟩⟩] := by decide
      rw [ht] at hfr
      have hw : w = [.node 1] ∨ w = [.node 2] := by simpa [overwrite_words, rootNode] using hw
      have words1 : ∀ u, defsOf sampleOverwrite 1 u → u = [.tok 0, .node 3] ∨ u = [.tok 0, .node 4] := by
        intro u hu; simpa [overwrite_words] using hu
      have words2 : ∀ u, defsOf sampleOverwrite 2 u → u = [.tok 0, .tok 0, .tok 7] := by
        intro u hu; simpa [overwrite_words] using hu
      have words3 : ∀ u, defsOf sampleOverwrite 3 u → u = [.tok 0, .tok 5] := by
        intro u hu; simpa [overwrite_words] using hu
      have words4 : ∀ u, defsOf sampleOverwrite 4 u → u = [.tok 0, .tok 0, .tok 6] := by
        intro u hu; simpa [overwrite_words] using hu
      rcases hw with rfl | rfl
      · obtain ⟨u, ts1, ts2, e1, e2, e3, e4⟩ := (fringe_node (hn _)).mp hfr
        rw [fringe_nil.mp e4, List.append_nil] at e1
        subst e1
        rcases words1 u e2 with rfl | rfl
        · obtain ⟨t, ts, f1, -, e3⟩ := fringe_tok.mp e3
          cases f1
          obtain ⟨u, ts1, ts2, e1, e2, e3, e4⟩ := (fringe_node (hn _)).mp e3
          rw [fringe_nil.mp e4, List.append_nil] at e1
          subst e1
          rw [words3 u e2] at e3
          obtain ⟨t, ts, f1, -, e3⟩ := fringe_tok.mp e3
          cases f1
          obtain ⟨t, ts, f1, f2, -⟩ := fringe_tok.mp e3
          cases f1
          exact h5 f2
        · obtain ⟨t, ts, f1, -, e3⟩ := fringe_tok.mp e3
          cases f1
          obtain ⟨u, ts1, ts2, e1, e2, e3, e4⟩ := (fringe_node (hn _)).mp e3
          rw [fringe_nil.mp e4, List.append_nil] at e1
          subst e1
          rw [words4 u e2] at e3
          obtain ⟨t, ts, f1, -, e3⟩ := fringe_tok.mp e3
          cases f1
          obtain ⟨t, ts, f1, -, e3⟩ := fringe_tok.mp e3
          cases f1
          obtain ⟨t, ts, f1, -, -⟩ := fringe_tok.mp e3
          cases f1
      · obtain ⟨u, ts1, ts2, e1, e2, e3, e4⟩ := (fringe_node (hn _)).mp hfr
        rw [fringe_nil.mp e4, List.append_nil] at e1
        subst e1
        rw [words2 u e2] at e3
        obtain ⟨t, ts, f1, -, e3⟩ := fringe_tok.mp e3
        cases f1
        obtain ⟨t, ts, f1, -, e3⟩ := fringe_tok.mp e3
        cases f1
        obtain ⟨t, ts, f1, f2, -⟩ := fringe_tok.mp e3
        cases f1
        exact h7 f2
    · split at h2
      · rename_i e hp; exact ⟨e, hp⟩
      · cases h2
    · refine ⟨[.node 2 none [.tok ⟨0, "", [97], ⟨none, 0⟩⟩, .tok ⟨0, "", [98], ⟨none, 0⟩⟩, .tok ⟨1, "", [51], ⟨none, 0⟩⟩]],
        by simp [leavesOf, Item.leaves]; decide, [.node 2], by simp [overwrite_words, rootNode], ?_⟩
      refine .node (u := [.tok 0, .tok 0, .tok 7]) (by simp [overwrite_words]) ?_ .nil
      exact .tok (sample_matches hg 0 97 (by decide) (by decide)) (.tok (sample_matches hg 0 98 (by decide) (by decide))
        (.tok (sample_matches hg 7 51 (by decide) (by decide)) .nil))
  · cases hc

/-- C31 is false: what follows the current node is never looked at. For `root = n, 'y'; n = 'x' | ('x', 'y')` input `x y` is
rejected though it is described by the grammar: the longer variant of `n` is chosen. -/
theorem C31_following_ignored : ∃ g, sampleCompile sampleFollow = .done (.ok g) ∧
    (∃ e, parse (streamEnv g) 100 (charTokens "xy") ⟨none, 0⟩ = .done (.error e)) ∧
    ∃ items, leavesOf items = charTokens "xy" ∧ Described g id (defsOf sampleFollow) items := by
  have hc : (match sampleCompile sampleFollow with
      | .done (.ok g) => decide (g.tokens = sampleTokens) &&
        (match parse (streamEnv g) 100 (charTokens "xy") ⟨none, 0⟩ with
        | .done (.error _) => true
        | _ => false)
      | _ => false) = true := by decide +kernel
  split at hc
  · rename_i g hs
    simp only [Bool.and_eq_true, decide_eq_true_eq] at hc
    obtain ⟨hg, h2⟩ := hc
    refine ⟨g, hs, ?_, ?_⟩
    · split at h2
      · rename_i e hp; exact ⟨e, hp⟩
      · cases h2
    · refine ⟨[.node 1 none [.tok ⟨0, "", [120], ⟨none, 0⟩⟩], .tok ⟨0, "", [121], ⟨none, 0⟩⟩],
        by simp [leavesOf, Item.leaves]; decide, [.node 1, .tok 4], ?_, ?_⟩
      · exact ⟨_, rfl, by simp [cSeq, cY, lang, langSeq, mem_lang_cons, mem_singleton_lang]⟩
      · refine .node (u := [.tok 3]) ?_ (.tok (sample_matches hg 3 120 (by decide) (by decide)) .nil)
          (.tok (sample_matches hg 4 121 (by decide) (by decide)) .nil)
        exact ⟨_, rfl, by simp [cSeq, cX, cY, lang, langSeq, langAny, mem_singleton_lang, Language.mem_add]⟩
  · cases hc

/-- `root = a | b; a = $n, $n, 'x'; b = $n, $n, 'y'`: several rules for the first token, then no conflicts; the lookahead is
safe, reads three tokens and chooses the second variant. -/
example : ∃ g, sampleCompile sampleLookahead = .done (.ok g) ∧ SafeLookahead g id ∧
    ∃ found pc' rules, findRules g id (charTokens "a").head? 0 = some found ∧ found.length = 2 ∧
      resolveConflict (streamEnv g) 100 { src := charTokens "by", stack := [{ types := 0, index := 0, state := 0 }] }
        (charTokens "a").head? = .done (pc', (charTokens "aby").map some, rules) ∧ rules.head? = found[1]? := by
  have hc : (match sampleCompile sampleLookahead with
      | .done (.ok g) => calmCheck g ((List.range g.tables.states.length).drop 1) &&
        (match findRules g id (charTokens "a").head? 0,
          resolveConflict (streamEnv g) 100 { src := charTokens "by", stack := [{ types := 0, index := 0, state := 0 }] }
            (charTokens "a").head? with
        | some found, .done (_, tokens, rules) => decide (found.length = 2 ∧ tokens = (charTokens "aby").map some ∧
            rules.head? = found[1]?)
        | _, _ => false)
      | _ => false) = true := by decide +kernel
  split at hc
  · rename_i g hs
    rw [Bool.and_eq_true] at hc
    obtain ⟨h1, h2⟩ := hc
    obtain ⟨m, hm⟩ := compiled_means (bodies := sampleLookahead) hs (by
      simp [sampleLookahead, cSeq, cX, cY, WF, WFs])
    refine ⟨g, hs, C31_safe_if_calm hm (calm_of_check hm h1), ?_⟩
    split at h2
    · rename_i found pc' tokens rules e1 e2
      obtain ⟨e3, rfl, e5⟩ := decide_eq_true_eq.mp h2
      exact ⟨found, pc', rules, e1, e3, e2, e5⟩
    · cases h2
  · cases hc

end Verif.Props
