/-
C63: when one token is enough to choose a rule, accepted inputs are exactly the described ones.
-/
import Verif.Proof.OneTokenBack
import Verif.Proof.ParseFuel
import Verif.Props.OneToken

namespace Verif.Props

open Verif.Model Verif.Spec Verif.Spec.Ebnf Verif.Proof

variable {σ : Type}

theorem spells_side {rel : Sym → Token → Prop} {side side' : Token → Prop} {L : Nat → List Sym → Prop} (hs : ∀ t, side t → side' t)
    {w : List Sym} {a : List Item} (h : Spells rel side L w a) : Spells rel side' L w a := by
  induction h with
  | nil => exact .nil
  | side h1 _ ih => exact .side (hs _ h1) ih
  | tok h1 _ ih => exact .tok h1 ih
  | node h1 _ _ ih1 ih2 => exact .node h1 ih1 ih2

theorem KeyedBy.widen {g : Grammar} {R : Token → Nat → Prop} {ts : List Token} {ks : List (Token × Nat)}
    (hp : ∀ t ∈ ts, g.isSideType t.type = true → Passed g t) (h : KeyedBy R (Passed g) (ordinary g ts) ks) : KeyedBy R (Passed g) ts ks := by
  induction ts generalizing ks with
  | nil => exact h
  | cons t ts ih =>
    have hp' : ∀ t ∈ ts, g.isSideType t.type = true → Passed g t := fun t ht => hp t (by simp [ht])
    by_cases ht : t.type = eofTokenType ∨ g.isSideType t.type = true
    · rw [ordinary_skip ht] at h
      exact .side (ht.elim .inl (hp t (by simp))) (ih hp' h)
    · rw [ordinary, List.filter_cons_of_pos (by simpa using ht)] at h
      cases h with
      | side h1 h2 => exact .side h1 (ih hp' h2)
      | tok h1 h2 => exact .tok h1 (ih hp' h2)

/-- C63, partial: let the grammar be compiled and one token be enough to choose a rule in it, and let the parser be told to read
the whole input. Then the parser accepts fetched tokens if and only if ordinary ones are the leaves of a tree which is described by
the grammar and has no empty nested nodes. Any sufficient number of steps does (`C30_more_steps`).
Missing: other grammars, for which it is false (`C61_lookahead_rejects`); empty nested nodes, for which it is false
(`C61_empty_node_rejected`); caseless types not matching texts in upper case (C40), definitions which are not `LoopOk` (C29),
unsafe dropping of states (C28), tokens made by hooks. -/
theorem C63_accepted_iff_described_partial {upper : List Nat → List Nat} {find : Nat → List Nat → List Nat} {ts a b c : List GToken}
    {bodies : List Chunk} {order1 order2 order3 : List Nat} {fuel : Nat} {g : Grammar}
    (h : Compiled upper find ts bodies order1 order2 order3 fuel g) (hloop : ∀ c ∈ bodies, LoopOk true c)
    (hsafe : SafeMachines bodies order2 order3 fuel) (hd : DistinctLiterals g)
    (hlay : Layout ts a b c) (hlen : a.length + b.length ≤ 64) (hup : ∀ l, upper (upper l) = upper l)
    (hcase : ∀ (j : Nat) (rt : GToken) l, ts[j]? = some rt → rt.re.isSome = true → rt.flags.caseless = true → find j l = l →
      find j (upper l) = upper l)
    (hone : OneTokenGrammar upper find g)
    (env : PEnv σ) (henv : env.g = g) (hupper : env.upper = upper) (hfull : env.fullSource = true) (hh : HooksPass env)
    {asks : TokenTypeSet → Prop} {Q : σ → List Token → Prop} (hs : Supplies env.pull asks Q) (hre : Rereads env.pull env.unread Q)
    {root : Chunk} (hroot : bodies[rootNode]? = some root) {q : σ} {toks : List Token} (hq : Q q toks)
    (hfetched : ∀ t ∈ toks, t.type = eofTokenType ∨ (Fetched find ts t ∧ t.pos.src.isSome = true)) (pos : SrcPos) :
    (∃ fuel' pc, parse env fuel' q pos = .done (.ok pc)) ↔
      ∃ w items, w ∈ lang root ∧ Spells (fun x t => Stands g upper x t ∧ g.isSideType t.type = false) (fun _ => False)
        (fun i u => u ≠ [] ∧ ∃ c, bodies[i]? = some c ∧ u ∈ lang c) w items ∧
        leavesOf items = toks.filter fun t => t.type ≠ eofTokenType ∧ g.isSideType t.type = false := by
  subst henv hupper
  obtain ⟨node, next, after, hp, h1⟩ := hone
  obtain ⟨hm, hc, ⟨heads, ho⟩, hflen, hacc⟩ := compiled_tables h hloop hsafe
  have hord : (toks.filter fun t => decide (t.type ≠ eofTokenType ∧ env.g.isSideType t.type = false)) = ordinary env.g toks := by
    rw [ordinary]
    congr 1
    funext t
    cases env.g.isSideType t.type <;> simp
  have hside : ∀ t ∈ toks, env.g.isSideType t.type = true → Passed env.g t := by
    intro t ht
    rcases hfetched t ht with h2 | ⟨h2, -⟩
    · intro h3; rw [h2] at h3; cases h3
    · exact (fetched_known h hloop hsafe hlay hlen hup hcase h2).2
  have hfirst : env.g.firsts[rootNode]? = some (env.g.firsts[rootNode]'(by
      rw [hflen]; exact (List.getElem?_eq_some_iff.mp hroot).1)) := List.getElem?_eq_getElem _
  have hknown : AllKnown env (tableOf env.g) (Alike env.upper find env.g) toks := by
    intro t ht
    rcases hfetched t ht with h2 | ⟨h2, h3⟩
    · exact .inl h2
    · by_cases h4 : env.g.isSideType t.type = true
      · exact .inr (.inl h4)
      · rw [Bool.not_eq_true] at h4
        exact .inr (.inr ⟨h2.1, h4, h3, fun k hk => (fetched_known h hloop hsafe hlay hlen hup hcase h2).1 k hk h4⟩)
  rw [hord]
  have fwd : (∃ fuel' pc, parse env fuel' q pos = .done (.ok pc)) →
      ∃ w items, w ∈ lang root ∧ Spells (fun x t => Stands env.g env.upper x t ∧ env.g.isSideType t.type = false) (fun _ => False)
        (fun i u => u ≠ [] ∧ ∃ c, bodies[i]? = some c ∧ u ∈ lang c) w items ∧ leavesOf items = ordinary env.g toks := by
    rintro ⟨fuel', pc, hrun⟩
    obtain ⟨ks, T, h2, h3, h4⟩ := parse_back (heads := heads) ⟨hm, hd, hc, ho, hp, h1, hs, hre, hfull⟩ hfirst hq hknown hrun
    have hst : Stacked node next after [⟨((env.g.firsts[rootNode]'(by
        rw [hflen]; exact (List.getElem?_eq_some_iff.mp hroot).1) : Nat) : Int), rootNode, some (rootToken pos), []⟩] := by
      refine ⟨fun n hn => ?_, hp.root, trivial⟩
      have := Int.natCast_inj.mp hn
      rw [← this]
      exact hp.first _ _ hfirst
    obtain ⟨w, items, ks1, ks2, h5, h6, h7, h8, -, h9, -⟩ := way_spelled hp h1 ho h4 hst h3
    refine ⟨w, items, (hacc _ _ _ hroot hfirst w).mp h5, ?_, ?_⟩
    · refine spells_mono (Q := fun _ => True) (fun x t _ ⟨k, h10, h11⟩ => ?_) (fun i u _ ⟨h10, f, h11, h12⟩ => ?_) h6 (fun _ _ => trivial)
      · rw [h10]
        exact ⟨h11.meant, h11.ordinary⟩
      · have hlt : i < bodies.length := by
          rw [← hflen]; exact (List.getElem?_eq_some_iff.mp h11).1
        have hi := List.getElem?_eq_getElem hlt
        exact ⟨⟨h10, _, hi, (hacc i _ f hi h11 u).mp h12⟩, fun _ _ => trivial⟩
    · rw [h7, ← h2, h8, h9 rfl, List.append_nil]
  refine ⟨fwd, ?_⟩
  rintro ⟨w, items, hw, hsp, hl⟩
  have hsp1 := spells_side (side' := fun t => env.g.isSideType t.type = true) (fun _ h => h.elim) hsp
  obtain ⟨⟨first, hfirst', hacc'⟩, h2⟩ := described_readable h hloop hsafe hlay hlen hup hcase hroot hw hsp1 (by
    intro t ht
    rw [hl] at ht
    obtain ⟨h3, h4⟩ := List.mem_filter.mp ht
    rcases hfetched t h3 with h5 | ⟨h5, -⟩
    · simp [h5] at h4
    · exact h5)
  obtain ⟨ks, hk, -, hway⟩ := way_of_spells ho (R := fun t k => Readable env.g env.upper (tableOf env.g) (Alike env.upper find env.g) t k)
    (fun x t ⟨k, h2, h3⟩ => ⟨k, h2, h3, h3.ordinary⟩) (fun _ h => h.2) h2
  rw [hl] at hk
  obtain ⟨N, hN⟩ := run_followed hm hd (hooks_answer hh) hc ho.keys hp h1 hs hfirst' hq
    (KeyedBy.widen hside (hk.mono (P' := Passed env.g) fun _ h => h.1)) pos
    (T := started (dropSides env.g items)) (by simpa using (hway first hacc').2 rootNode (some (rootToken pos)) [] [] [] _ (.done))
  obtain ⟨pc, h2, -⟩ := hN N le_rfl
  exact ⟨N, pc, h2⟩

/-- C30: if some number of steps is sufficient for a parse to end, then any greater number gives the same outcome. -/
theorem C30_more_steps (env : PEnv σ) {n n' : Nat} (hle : n ≤ n') (src : σ) (pos : SrcPos) (h : parse env n src pos ≠ .timeout) :
    parse env n' src pos = parse env n src pos := parse_more hle src pos h

/-- A stream of tokens that may be put back. -/
theorem picky_rereads (g : Grammar) : Rereads (pickyEnv g).pull (pickyEnv g).unread Eq := by
  rintro q t ts types q1 q2 rfl - h1 h2
  simp only [pickyEnv] at h1 h2
  split at h1
  · cases h1
    exact (Option.some.inj h2).symm
  · cases h1

/-- Tokens of a text that have a source. -/
def sourceTokens (s : String) : List Token := (charTokens s).map fun t => { t with pos := ⟨some default, 0⟩ }

/-- Inputs of `sampleOne`: ` 1y x y` is accepted, therefore it has a tree; `yy` is rejected (the outcome of 100 steps is final), therefore
it has no tree. -/
example : ∃ g, sampleCompile sampleOne = .done (.ok g) ∧
    (∃ w items, w ∈ lang (cSeq [cRep [.node 1], cY]) ∧ Spells (fun x t => Stands g id x t ∧ g.isSideType t.type = false) (fun _ => False)
      (fun i u => u ≠ [] ∧ ∃ c, sampleOne[i]? = some c ∧ u ∈ lang c) w items ∧
      leavesOf items = (sourceTokens " 1y x y").filter fun t => t.type ≠ eofTokenType ∧ g.isSideType t.type = false) ∧
    ¬ ∃ w items, w ∈ lang (cSeq [cRep [.node 1], cY]) ∧ Spells (fun x t => Stands g id x t ∧ g.isSideType t.type = false) (fun _ => False)
      (fun i u => u ≠ [] ∧ ∃ c, sampleOne[i]? = some c ∧ u ∈ lang c) w items ∧
      leavesOf items = (sourceTokens "yy").filter fun t => t.type ≠ eofTokenType ∧ g.isSideType t.type = false := by
  obtain ⟨g, h1, h2, h3, h4, h5, -⟩ := sampleOne_ready
  have hrun : (match sampleCompile sampleOne with
      | .done (.ok g) => (match parse (pickyEnv g) 100 (sourceTokens " 1y x y") ⟨none, 0⟩, parse (pickyEnv g) 100 (sourceTokens "yy") ⟨none, 0⟩ with
        | .done (.ok _), .done (.error _) => true
        | _, _ => false)
      | _ => false) = true := by decide +kernel
  have hg : sampleCompile sampleOne = .done (.ok g) := h1.ok
  rw [hg] at hrun
  dsimp only at hrun
  have hfetched : ∀ s ∈ [" 1y x y", "yy"], ∀ t ∈ sourceTokens s, t.type = eofTokenType ∨ (Fetched sampleFind sampleTokens t ∧ t.pos.src.isSome = true) := by
    intro s hs t ht
    have : ∀ s ∈ [" 1y x y", "yy"], ∀ t ∈ sourceTokens s, 0 ≤ t.type ∧ ((sampleTokens[t.type.toNat]?).any (·.re.isSome)) = true ∧
        sampleFind t.type.toNat t.content = t.content ∧ t.pos.src.isSome = true := by decide
    obtain ⟨e1, e2, e3, e4⟩ := this s hs t ht
    rw [Option.any_eq_true] at e2
    exact .inr ⟨⟨e1, e2, e3⟩, e4⟩
  have key : ∀ s ∈ [" 1y x y", "yy"], _ := fun s hs =>
    C63_accepted_iff_described_partial (a := sampleTokens.take 3) (b := []) (c := sampleTokens.drop 3) h1 h2 h3 h4
      ⟨by decide, by decide, by decide, by decide⟩ (by decide) (fun l => rfl) (fun j rt l _ _ _ h => h) h5 (pickyEnv g) rfl rfl rfl
      ⟨fun log e => ⟨none, rfl⟩, fun log e => ⟨false, rfl⟩⟩ (picky_supplies g) (picky_rereads g) rfl rfl (hfetched s hs) ⟨none, 0⟩
  split at hrun
  · rename_i pc e e1 e2
    refine ⟨g, hg, (key _ (by simp)).mp ⟨100, pc, e1⟩, fun hd => ?_⟩
    obtain ⟨n, pc', e3⟩ := (key _ (by simp)).mpr hd
    have e4 := C30_more_steps (pickyEnv g) (Nat.le_max_left 100 n) (sourceTokens "yy") ⟨none, 0⟩ (by rw [e2]; simp)
    have e5 := C30_more_steps (pickyEnv g) (Nat.le_max_right 100 n) (sourceTokens "yy") ⟨none, 0⟩ (by rw [e3]; simp)
    rw [e4, e2, e3] at e5
    cases e5
  · cases hrun

end Verif.Props
