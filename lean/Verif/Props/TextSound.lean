/-
C77: only described texts are accepted, whatever is read ahead.
-/
import Verif.Proof.Cuts
import Verif.Props.SoundOn
import Verif.Props.FullSource
import Verif.Props.ManyTokens

namespace Verif.Props

open Verif.Model Verif.Spec Verif.Spec.Ebnf Verif.Proof

variable {σ η : Type}

/-- C77, partial: let the grammar be compiled, let the parser have the lexers of the grammar (of any number of groups) and be told to read
the whole input, let hooks of nodes be any. If the parser accepts a text (a list of sources, from their current places), then the text is
cut into tokens to the very end, and ordinary tokens are the leaves of a tree described by the grammar; hooks have been told about that
tree, possibly with side tokens. `n` is the number of steps sufficient for the lexer.
Missing: token hooks; grammars in which branches are overwritten during a lookahead (see `SafeLookahead`, C31), definitions which are not
`LoopOk` (C29), unsafe dropping of states (C28). -/
theorem C77_accepted_text_is_described_partial {upper : List Nat → List Nat} {find : Nat → List Nat → List Nat} {ts a b c : List GToken}
    {bodies : List Chunk} {order1 order2 order3 : List Nat} {fuel : Nat} {g : Grammar}
    (h : Compiled upper find ts bodies order1 order2 order3 fuel g) (hloop : ∀ c ∈ bodies, LoopOk true c)
    (hsafe : SafeMachines bodies order2 order3 fuel) (hd : DistinctLiterals g) (hlay : Layout ts a b c)
    (env : PEnv σ) (henv : env.g = g) (hlook : SafeLookahead g env.upper) (hfull : env.fullSource = true)
    {re : List Nat → Option Matcher} (tenv : TEnv η) (hl : LexersOf re ts tenv.lexers)
    {root : Chunk} (hroot : bodies[rootNode]? = some root) {n : Nat} (hn : 0 < n) {ls : LState η} {l : SrcList.State Src}
    (hq : Lexer.Holds ls.ps.src l) (hlen : ∀ x ∈ l, x.1.content.length < n) {fuel' : Nat} {pos : SrcPos} {pc : PC (LState η)}
    (hp : parse (pipelineEnv env tenv [] n) fuel' ls pos = .done (.ok pc)) :
    ∃ toks w items hooks results, Cuts re ts l toks [] ∧ w ∈ lang root ∧
      NodeRun (pipelineEnv env tenv [] n) rootNode (some (rootToken pos)) items [] hooks results pc.log ∧
      Spells (fun x t => Stands g env.upper x t ∧ g.isSideType t.type = false) (fun t => g.isSideType t.type = true)
        (fun i u => ∃ c, bodies[i]? = some c ∧ u ∈ lang c) w items ∧
      leavesOf (dropSides g items) = toks.filter fun t => t.type ≠ eofTokenType ∧ g.isSideType t.type = false := by
  subst henv
  obtain ⟨n, rfl⟩ : ∃ k, n = k + 1 := ⟨n - 1, by omega⟩
  have hwf : ∀ c, some c ∈ bodies.map some → WF c := by
    intro c hc
    obtain ⟨c', h2, h3⟩ := List.mem_map.mp hc
    cases h3
    exact (h.wf c h2).1
  obtain ⟨h1, h2⟩ := parse_cut env hl hlook hfull (compiled_sides h.ok hwf hlay) ⟨hq, hlen⟩ hp
  obtain ⟨toks, sides, h3, h4, h5⟩ := cut_all h1 h2
  obtain ⟨items, h6, ⟨w, ⟨c, hc, hw⟩, h7⟩, -, ⟨hooks, results, h8, -⟩, -⟩ := accepted_words h hloop hsafe hd (pipelineEnv env tenv [] (n + 1)) rfl
    (P := fun _ => True) (fun _ _ _ _ _ _ _ => trivial) (fun f tok0 rules _ hf hr ts L _ h9 tok dead fuel _ => hlook f tok0 rules hf hr ts L h9 tok dead fuel) hp
  rw [hroot] at hc
  cases hc
  refine ⟨toks, w, items, hooks, results, h3, hw, h8, ?_, ?_⟩
  · refine spells_mono (Q := fun _ => True) ?_ (fun _ _ _ h => ⟨h, fun _ _ => trivial⟩) h7 fun _ _ => trivial
    rintro x t - ⟨⟨k, rfl, h9⟩, h10⟩
    exact ⟨h9, h10⟩
  · have hord : (toks.filter fun t => decide (t.type ≠ eofTokenType ∧ env.g.isSideType t.type = false)) =
        (toks.filter (keeps env.g env.passSides)).filter fun t => !env.g.isSideType t.type := by
      rw [List.filter_filter]
      congr 1
      funext t
      unfold keeps
      cases env.g.isSideType t.type <;> simp
    rw [hord, ← h5, List.filter_append, leaves_dropSides, h6]
    have hs : sides.filter (fun t => !env.g.isSideType t.type) = [] := by
      rw [List.filter_eq_nil_iff]
      intro t ht
      simp [h4 t ht]
    rw [hs, List.append_nil, List.filter_filter]
    refine List.filter_congr fun t ht => ?_
    have hne : env.g.isSideType t.type = false → t.type ≠ eoiTokenType := by
      intro h9 h10
      rw [← h6] at ht
      have key : ∀ {w : List Sym} {items : List Item}, Spells (fun x t => (∃ k, x = .tok k ∧ MatchesAs env.g env.upper t k) ∧ env.g.isSideType t.type = false)
          (fun t => env.g.isSideType t.type = true) (fun i w => ∃ c, bodies[i]? = some c ∧ w ∈ lang c) w items →
          ∀ t ∈ leavesOf items, env.g.isSideType t.type = true ∨ ∃ k, MatchesAs env.g env.upper t k := by
        intro w items h
        induction h with
        | nil => intro t ht; simp [leavesOf] at ht
        | side h1 _ ih =>
          intro t ht
          simp only [leavesOf, List.flatMap_cons, Item.leaves, List.mem_append, List.mem_singleton] at ht
          rcases ht with rfl | ht
          · exact .inl h1
          · exact ih t ht
        | tok h1 _ ih =>
          intro t ht
          simp only [leavesOf, List.flatMap_cons, Item.leaves, List.mem_append, List.mem_singleton] at ht
          rcases ht with rfl | ht
          · obtain ⟨⟨k, -, h1⟩, -⟩ := h1
            exact .inr ⟨k, h1⟩
          · exact ih t ht
        | node _ _ _ ih1 ih2 =>
          intro t ht
          simp only [leavesOf, List.flatMap_cons, Item.leaves, List.mem_append] at ht
          rcases ht with ht | ht
          · exact ih1 t ht
          · exact ih2 t ht
      rcases key h7 t ht with h11 | ⟨k, ⟨h11, -⟩ | ⟨h11, -⟩⟩
      · rw [h9] at h11; cases h11
      · rw [h10] at h11; exact absurd h11 (by decide)
      · rw [h10] at h11
        have : (eoiTokenType : Int) < 0 := by decide
        omega
    cases h9 : env.g.isSideType t.type with
    | true => simp
    | false => simp [hne h9]

/-- C77, partial: let also tokens read ahead be enough to choose what to do (C74), let the lexer have one group, and let no node in use be
possibly empty. Then the parser accepts a text, for any sufficient numbers of steps, if and only if the text is cut into tokens to the
very end and ordinary tokens are the leaves of a tree described by the grammar.
Missing: as in `C74_text_partial` and `C77_accepted_text_is_described_partial`. -/
theorem C77_text_accepted_iff_described_partial {upper : List Nat → List Nat} {find : Nat → List Nat → List Nat} {ts a b c : List GToken}
    {bodies : List Chunk} {order1 order2 order3 : List Nat} {fuel : Nat} {g : Grammar}
    (h : Compiled upper find ts bodies order1 order2 order3 fuel g) (hloop : ∀ c ∈ bodies, LoopOk true c)
    {E : Nat → Bool} (hmv : Moves E bodies)
    (hsafe : SafeMachines bodies order2 order3 fuel) (hd : DistinctLiterals g) (hbelow : ∀ c ∈ bodies, c.Below ts.length)
    (hlay : Layout ts a b c) (hlen : a.length + b.length ≤ 64) (hup : ∀ l, upper (upper l) = upper l)
    (hcase : ∀ (j : Nat) (rt : GToken) l, ts[j]? = some rt → rt.re.isSome = true → rt.flags.caseless = true → find j l = l →
      find j (upper l) = upper l)
    (hused : ∀ (d : Chunk) (w : List Sym) (i : Nat) (c : Chunk), d ∈ bodies → w ∈ lang d → Sym.node i ∈ w → bodies[i]? = some c → [] ∉ lang c)
    (env : PEnv σ) (henv : env.g = g) (hupper : env.upper = upper) (hfull : env.fullSource = true) (hh : HooksPass env)
    (hlook : SafeLookahead g upper) (hmany : ManyTokensGrammar upper find env.passSides (AsksText ts) g)
    {re : List Nat → Option Matcher} (tenv : TEnv η) (hx : TextLexer re find ts tenv.lexers)
    {ls : LState η} {l : SrcList.State Src} (hq : Lexer.Holds ls.ps.src l) (hl : l.length + 1 < 2 ^ 31)
    {root : Chunk} (hroot : bodies[rootNode]? = some root) (pos : SrcPos) :
    (∃ N, ∀ k n, N ≤ k → N ≤ n → ∃ pc, parse (pipelineEnv env tenv [] k) n ls pos = .done (.ok pc)) ↔
      ∃ toks w items, Reads re ts l toks [] ∧ w ∈ lang root ∧
        Spells (fun x t => Stands g upper x t ∧ g.isSideType t.type = false) (fun _ => False)
          (fun i u => ∃ c, bodies[i]? = some c ∧ u ∈ lang c) w items ∧
        leavesOf items = toks.filter fun t => t.type ≠ eofTokenType ∧ g.isSideType t.type = false := by
  subst hupper
  have full : ∀ {w : List Sym} {items : List Item}, w ∈ lang root → Spells (fun x t => Stands g env.upper x t ∧ g.isSideType t.type = false)
      (fun t => g.isSideType t.type = true) (fun i u => ∃ c, bodies[i]? = some c ∧ u ∈ lang c) w items →
      Spells (fun x t => Stands g env.upper x t ∧ g.isSideType t.type = false) (fun _ => False)
        (fun i u => u ≠ [] ∧ ∃ c, bodies[i]? = some c ∧ u ∈ lang c) w (dropSides g items) := by
    intro w items hw hsp
    refine spells_dropSides (C := fun w => ∃ d ∈ bodies, w ∈ lang d) ?_ (fun x t h => h.2) hsp w ⟨root, List.mem_of_getElem? hroot, hw⟩ fun _ h => h
    rintro i u w ⟨d, h1, h2⟩ h3 ⟨c, h4, h5⟩
    exact ⟨⟨fun he => hused d w i c h1 h2 h3 h4 (he ▸ h5), c, h4, h5⟩, c, List.mem_of_getElem? h4, h5⟩
  constructor
  · rintro ⟨N, hN⟩
    obtain ⟨B, hB⟩ : ∃ B, ∀ x ∈ l, x.1.content.length < B := by
      refine ⟨(l.map fun x => x.1.content.length).sum + 1, fun x hx => Nat.lt_succ_of_le ?_⟩
      exact List.single_le_sum (by simp) _ (List.mem_map.mpr ⟨x, hx, rfl⟩)
    obtain ⟨pc, hp⟩ := hN (max N (B + 1)) N (le_max_left _ _) le_rfl
    have hB1 : B + 1 ≤ max N (B + 1) := le_max_right _ _
    obtain ⟨toks, w, items, -, -, h1, h2, -, h3, h4⟩ := C77_accepted_text_is_described_partial h hloop hsafe hd hlay env henv hlook hfull tenv hx.lexers hroot
      (by omega) hq (fun x hx => by have := hB x hx; omega) hp
    refine ⟨toks, w, dropSides g items, cuts_reads hx.group h1, h2, ?_, h4⟩
    exact spells_mono (Q := fun _ => True) (fun _ _ _ h => h) (fun _ _ _ h => ⟨h.2, fun _ _ => trivial⟩) (full h2 h3) fun _ _ => trivial
  · rintro ⟨toks, w, items, h1, h2, h3, h4⟩
    have hdrop : dropSides g items = items := dropSides_none (by
      intro t ht
      rw [h4] at ht
      have := (List.mem_filter.mp ht).2
      simp only [decide_eq_true_eq] at this
      exact this.2)
    have h5 := full h2 (spells_side (fun _ h => h.elim) h3)
    rw [hdrop] at h5
    obtain ⟨N, hN⟩ := C74_text_partial h hloop hmv hsafe hd hbelow hlay hlen hup hcase env henv rfl hh hmany tenv hx hq hl hroot h2 h1 h5 h4 pos
    refine ⟨N, fun k n hk hn => ?_⟩
    obtain ⟨pc, -, -, -, h6, -⟩ := hN k n hk hn
    exact ⟨pc, h6⟩

/-! ### Samples -/

theorem sampleThree_safe {g : Grammar} (hg : compile id sampleFind textTokens (sampleThree.map some) (List.range 2) (List.range 2) (List.range 2) 100 = .done (.ok g))
    (hm : Means g.tables (tableOf g)) : SafeLookahead g id := by
  have hc : (match compile id sampleFind textTokens (sampleThree.map some) (List.range 2) (List.range 2) (List.range 2) 100 with
      | .done (.ok g) => calmCheck g [2, 3, 4, 5, 6]
      | _ => false) = true := by decide +kernel
  rw [hg] at hc
  exact safe_of_calm hm (calm_of_check hm hc)

/-- Nested nodes of the sample are never empty. -/
theorem sampleThree_used (d : Chunk) (w : List Sym) (i : Nat) (c : Chunk) (hd : d ∈ sampleThree) (hw : w ∈ lang d) (hi : Sym.node i ∈ w)
    (hc : sampleThree[i]? = some c) : [] ∉ lang c := by
  have key : i = 1 := by
    simp only [sampleThree, List.mem_cons, List.not_mem_nil, or_false] at hd
    rcases hd with rfl | rfl
    · obtain ⟨u, ⟨us, rfl, hus⟩, v, hv, rfl⟩ := hw
      cases hv
      dsimp only at hi
      rw [List.append_nil, List.mem_flatten] at hi
      obtain ⟨x, hx, hi⟩ := hi
      obtain ⟨y, hy, z, hz, rfl⟩ := hus x hx
      cases hy
      cases hz
      simpa using hi
    · obtain ⟨u, hu, v, hv, rfl⟩ := hw
      cases hv
      rcases hu with hu | hu | hu | hu | hu
      · cases hu; simp at hi
      · obtain ⟨_, rfl, _, ⟨_, rfl, _, rfl, rfl⟩, rfl⟩ := hu; simp at hi
      · obtain ⟨_, rfl, _, ⟨_, rfl, _, ⟨_, rfl, _, rfl, rfl⟩, rfl⟩, rfl⟩ := hu; simp at hi
      · obtain ⟨_, rfl, _, ⟨_, rfl, _, ⟨_, rfl, _, rfl, rfl⟩, rfl⟩, rfl⟩ := hu; simp at hi
      · exact (Language.notMem_zero _ hu).elim
  subst key
  cases hc
  rintro ⟨u, hu, v, hv, he⟩
  obtain ⟨rfl, rfl⟩ := List.append_eq_nil_iff.mp he
  rcases hu with hu | hu | hu | hu | hu
  · cases hu
  · obtain ⟨_, rfl, _, _, he⟩ := hu; simp at he
  · obtain ⟨_, rfl, _, _, he⟩ := hu; simp at he
  · obtain ⟨_, rfl, _, _, he⟩ := hu; simp at he
  · exact (Language.notMem_zero _ hu).elim

/-- `311 12 1` is accepted, therefore it has a tree; `1?` cannot be cut into tokens, therefore it is not accepted. -/
example : ∃ g, compile id sampleFind textTokens (sampleThree.map some) (List.range 2) (List.range 2) (List.range 2) 100 = .done (.ok g) ∧
    (∃ toks w items, Cuts charRe textTokens [(textSource 1 "311 12 1", 0)] toks [] ∧ w ∈ lang (cSeq [cRep [.node 1]]) ∧
      Spells (fun x t => Stands g id x t ∧ g.isSideType t.type = false) (fun t => g.isSideType t.type = true)
        (fun i u => ∃ c, sampleThree[i]? = some c ∧ u ∈ lang c) w items ∧
      leavesOf (dropSides g items) = toks.filter fun t => t.type ≠ eofTokenType ∧ g.isSideType t.type = false) ∧
    (∃ N, ∀ k n, N ≤ k → N ≤ n → ∃ pc, parse (pipelineEnv (pickyEnv g) ({ g := g, lexers := textLexers } : TEnv Nat) [] k) n (textState "311 12 1") ⟨none, 0⟩ = .done (.ok pc)) ∧
    ¬ ∃ N, ∀ k n, N ≤ k → N ≤ n → ∃ pc, parse (pipelineEnv (pickyEnv g) ({ g := g, lexers := textLexers } : TEnv Nat) [] k) n (textState "1?") ⟨none, 0⟩ = .done (.ok pc) := by
  obtain ⟨g, hg, h1, h2, hmv, h3, h4, h5, h6, ⟨w, h7, h8⟩, h9⟩ := sampleThree_ready
  have hlook := sampleThree_safe hg (compiled_tables h1 h2 h3).1
  have hrun : (match compile id sampleFind textTokens (sampleThree.map some) (List.range 2) (List.range 2) (List.range 2) 100 with
      | .done (.ok g) => (match parse (textEnv g) 100 (textState "311 12 1") ⟨none, 0⟩ with
        | .done (.ok _) => true
        | _ => false)
      | _ => false) = true := by decide +kernel
  rw [hg] at hrun
  dsimp only at hrun
  have key := fun s => C77_text_accepted_iff_described_partial (a := textTokens.take 3) (b := []) (c := textTokens.drop 3) h1 h2 hmv h3 h4 h5
    ⟨by decide, by decide, by decide, by decide⟩ (by decide) (fun l => rfl) (fun j rt l _ _ _ h => h) sampleThree_used (pickyEnv g) rfl rfl rfl
    ⟨fun log e => ⟨none, rfl⟩, fun log e => ⟨false, rfl⟩⟩ hlook (h6 _ fun _ h => asksLex_asks h) ({ g := g, lexers := textLexers } : TEnv Nat) textLexers_of
    (ls := textState s) (textQueue_holds s) (by simp) rfl ⟨none, 0⟩
  refine ⟨g, hg, ?_, (key _).2 ⟨threeTokens, w, threeTree, pieces_read _ (by decide) _ 0 rfl (by simp), h7, ?_, h9⟩, ?_⟩
  · split at hrun
    · rename_i pc hpc
      obtain ⟨toks, w, items, -, -, k1, k2, -, k3, k4⟩ := C77_accepted_text_is_described_partial (a := textTokens.take 3) (b := []) (c := textTokens.drop 3) h1 h2 h3 h4
        ⟨by decide, by decide, by decide, by decide⟩ (pickyEnv g) rfl hlook rfl _ textLexers_of.lexers rfl (by decide) (textQueue_holds _) (by decide) hpc
      exact ⟨toks, w, items, k1, k2, k3, k4⟩
    · cases hrun
  · exact spells_mono (Q := fun _ => True) (fun _ _ _ h => h) (fun _ _ _ h => ⟨h.2, fun _ _ => trivial⟩) h8 fun _ _ => trivial
  · intro hno
    obtain ⟨toks, -, -, k1, -⟩ := (key _).1 hno
    have stuck : ∀ toks, ¬ Reads charRe textTokens [(textSource 1 "1?", 1)] toks [] := by
      intro toks hr
      generalize hl : [(textSource 1 "1?", 1)] = l at hr
      cases hr with
      | nil => cases hl
      | tok e1 e2 e3 e4 e5 =>
        cases hl
        obtain ⟨-, ⟨t, r, m, -, -, e6, e7⟩, -⟩ := e2
        unfold charRe at e6
        split at e6
        · cases e6
          rw [show (textSource 1 "1?").content.drop 1 = [63] from by decide] at e7
          simp at e7
        · cases e6
      | eof e1 =>
        have e2 : (textSource 1 "1?").content.length = 2 := by decide
        simp only [List.cons.injEq, Prod.mk.injEq] at hl
        obtain ⟨⟨rfl, e3⟩, -⟩ := hl
        omega
    generalize hl : [(textSource 1 "1?", 0)] = l at k1
    cases k1 with
    | nil => cases hl
    | @tok src p i n t rest l toks e1 e2 e3 e4 e5 =>
      cases hl
      obtain ⟨-, ⟨t, r, m, -, -, e6, e7⟩, -⟩ := e2
      unfold charRe at e6
      split at e6
      · cases e6
        rw [show (textSource 1 "1?").content.drop 0 = [49, 63] from by decide] at e7
        simp only at e7
        split at e7
        · cases e7
          exact stuck _ e5
        · cases e7
      · cases e6
    | eof e1 =>
      have e2 : (textSource 1 "1?").content.length = 2 := by decide
      simp only [List.cons.injEq, Prod.mk.injEq] at hl
      obtain ⟨⟨rfl, e3⟩, -⟩ := hl
      omega

end Verif.Props
