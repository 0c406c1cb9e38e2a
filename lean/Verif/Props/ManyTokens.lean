/-
C74: described inputs are accepted when tokens read ahead are enough to choose what to do.
-/
import Verif.Proof.ManyTokensParse
import Verif.Proof.ManyTokensCheck
import Verif.Proof.NoPanicTables
import Verif.Props.TextIff
import Verif.Props.ParseHalts

namespace Verif.Props

open Verif.Model Verif.Spec Verif.Spec.Ebnf Verif.Proof

variable {σ η : Type}

/-- C74, any tables in which conflicts are settled by tokens inside the current node (`Settles`), with lookahead that overwrites no branches
(C37): if the tokens left in the stream (maybe with ends of sources between them) are the leaves of a tree described by the node machines, then
the parser does not panic and does not reject them, and when it stops, hooks have been told about that tree: the same nodes and
ordinary tokens, each nested node is started by its first ordinary token. Nested nodes of the tree are not empty (see
`C61_empty_node_rejected`). -/
theorem C74_described_by_machines (env : PEnv σ) {m : Table} {heads : Nat → Int → Prop} {node : Nat → Nat} {next after : Nat → Int → Prop}
    {also : Int → Int → Prop} {asks : TokenTypeSet → Prop} {Q : σ → List Token → Prop} {P : Option Token → Prop}
    (hm : SoundTables env.g m) (hd : DistinctLiterals env.g)
    (ho : Opens env.g m heads) (hp : Predicts env.g m node next after) (h1 : ManyTokens env.g m node next after also)
    (hset : Settles env.g env.upper P env.passSides asks node after) (hsafe : SafeLookaheadOn P env.g env.upper)
    (hh : HooksPass env) (hs : Supplies env.pull asks Q) (hmono : ∀ a b, asks a → asks (a ||| b)) (hg : GivesOnly env Q P)
    {first : Nat} (hfirst : env.g.firsts[rootNode]? = some first) {w : List Sym} (hw : Accepts m first w) {items : List Item}
    (hsp : Spells (fun x t => ∃ k : Nat, x = .tok k ∧ Readable env.g env.upper m also t k)
      (fun t => Passed env.g t ∧ env.g.isSideType t.type = true)
      (fun i u => u ≠ [] ∧ ∃ f : Nat, env.g.firsts[i]? = some f ∧ Accepts m f u) w items)
    {q : σ} {ts : List Token} (hq : Q q ts) (hts : ts.filter (fun t => t.type ≠ eofTokenType) = leavesOf items) (pos : SrcPos) (fuel : Nat) :
    Fine (fun x => ∃ pc items' hooks results, x = .ok pc ∧ NodeRun env 0 (some (rootToken pos)) items' [] hooks results pc.log ∧
      dropSides env.g items' = started (dropSides env.g items)) (parse env fuel q pos) := by
  obtain ⟨ks, hk, -, hway⟩ := way_of_spells ho (R := fun t k => Readable env.g env.upper m also t k)
    (fun x t ⟨k, h2, h3⟩ => ⟨k, h2, h3, h3.ordinary⟩) (fun _ h => h.2) hsp
  rw [← hts] at hk
  refine Fine.mono (run_settled ⟨⟨hm, hd, ho.keys, hp, h1⟩, hooks_answer hh, hs, hmono, hsafe, hset, hg⟩ hfirst hq
    (hk.mono (P' := Passed env.g) fun _ h => h.1).filtered pos (T := started (dropSides env.g items))
    (by simpa using (hway first hw).2 rootNode (some (rootToken pos)) [] [] [] _ (.done)) fuel) ?_
  rintro x ⟨pc, rfl, items', ⟨hooks, results, h3, -⟩, h4⟩
  exact ⟨pc, items', hooks, results, rfl, h3, h4⟩

/-- Tokens made by lexers of the grammar, the end of input, and `none` for a token of a type that is not requested. Side tokens are
given if there are hooks for them. -/
def Known (find : Nat → List Nat → List Nat) (g : Grammar) (sides : Bool) (o : Option Token) : Prop :=
  ∀ t, o = some t → t.type = eoiTokenType ∨ (Fetched find g.tokens t ∧ (g.isSideType t.type = true → sides = true))

/-- Tokens read ahead are enough to choose what to do next in any state. `sides` says if side tokens are given to the parser, `asks`
says which requests for tokens ask for something. -/
def ManyTokensGrammar (upper : List Nat → List Nat) (find : Nat → List Nat → List Nat) (sides : Bool) (asks : TokenTypeSet → Prop)
    (g : Grammar) : Prop :=
  SafeLookaheadOn (Known find g sides) g upper ∧
  ∃ node next after, Predicts g (tableOf g) node next after ∧ ManyTokens g (tableOf g) node next after (Alike upper find g) ∧
    Settles g upper (Known find g sides) sides asks node after

theorem Supplies.keep {pull : σ → TokenTypeSet → Run (σ × Except PErr (Option Token))} {asks : TokenTypeSet → Prop} {Q : σ → List Token → Prop}
    (hs : Supplies pull asks Q) (F : Token → Prop) : Supplies pull asks (fun q ts => Q q ts ∧ ∀ t ∈ ts, F t) := by
  refine ⟨fun q t ts types hq hw => ?_, fun q t ts types hq hw => ?_, fun q types hq ht => ?_, fun q types hq ht => ?_,
    fun q ts types hq => hs.asked q ts types hq.1, hs.any⟩
  · obtain ⟨q', h1, h2⟩ := hs.given q t ts types hq.1 hw
    exact ⟨q', h1, h2, fun t ht => hq.2 t (by simp [ht])⟩
  · obtain ⟨q', h1, h2⟩ := hs.refused q t ts types hq.1 hw
    exact ⟨q', h1, h2, hq.2⟩
  · obtain ⟨q', t, h1, h2, h3⟩ := hs.ending q types hq.1 ht
    exact ⟨q', t, h1, h2, h3, by simp⟩
  · obtain ⟨q', h1, h2⟩ := hs.nothing q types hq.1 ht
    exact ⟨q', h1, h2, by simp⟩

theorem dropSides_none {g : Grammar} : ∀ {items : List Item}, (∀ t ∈ leavesOf items, g.isSideType t.type = false) → dropSides g items = items
  | [], _ => by rw [dropSides]
  | .tok t :: items, h => by
    rw [dropSides, if_neg (by simp [h t (by simp [leavesOf, Item.leaves])]), dropSides_none fun t ht => h t (by simp [leavesOf, Item.leaves, ht])]
  | .node i st its :: items, h => by
    rw [dropSides, dropSides_none fun t ht => h t (by simp [leavesOf, Item.leaves, ht]),
      dropSides_none fun t ht => h t (by simp [leavesOf, Item.leaves, ht])]

/-- C74, partial: let the grammar be compiled and tokens read ahead be enough to choose what to do. If ordinary ones of fetched tokens
are the leaves of a tree described by the grammar with no empty nested nodes, then the parser, with any hooks that do not fail, does not panic
and does not reject the tokens, and when it stops, hooks have been told about exactly that tree: the same nodes and ordinary tokens, each
nested node is started by its first ordinary token. It does stop under conditions of C30, see `C74_text_partial`.
Missing: other grammars, for which it is false (`C61_lookahead_rejects`, `C74_hidden_token_rejects`, `C74_side_tokens_reject`); empty nested nodes, for which it is
false (`C61_empty_node_rejected`); caseless types not matching texts in upper case (C40), definitions which are not `LoopOk` (C29),
unsafe dropping of states (C28), tokens made by hooks. -/
theorem C74_described_tree_is_told_partial {upper : List Nat → List Nat} {find : Nat → List Nat → List Nat} {ts a b c : List GToken}
    {bodies : List Chunk} {order1 order2 order3 : List Nat} {fuel : Nat} {g : Grammar}
    (h : Compiled upper find ts bodies order1 order2 order3 fuel g) (hloop : ∀ c ∈ bodies, LoopOk true c)
    (hsafe : SafeMachines bodies order2 order3 fuel) (hd : DistinctLiterals g) (hbelow : ∀ c ∈ bodies, c.Below ts.length)
    (hlay : Layout ts a b c) (hlen : a.length + b.length ≤ 64) (hup : ∀ l, upper (upper l) = upper l)
    (hcase : ∀ (j : Nat) (rt : GToken) l, ts[j]? = some rt → rt.re.isSome = true → rt.flags.caseless = true → find j l = l →
      find j (upper l) = upper l)
    (env : PEnv σ) (henv : env.g = g) (hupper : env.upper = upper) (hh : HooksPass env)
    {asks : TokenTypeSet → Prop} {Q : σ → List Token → Prop} (hs : Supplies env.pull asks Q) (hmono : ∀ a b, asks a → asks (a ||| b))
    (hmany : ManyTokensGrammar upper find env.passSides asks g)
    {root : Chunk} (hroot : bodies[rootNode]? = some root) {w : List Sym} (hw : w ∈ lang root) {items : List Item}
    (hsp : Spells (fun x t => Stands g upper x t ∧ g.isSideType t.type = false) (fun _ => False)
      (fun i u => u ≠ [] ∧ ∃ c, bodies[i]? = some c ∧ u ∈ lang c) w items)
    {q : σ} {toks : List Token} (hq : Q q toks) (hfetched : ∀ t ∈ toks, t.type = eofTokenType ∨ Fetched find ts t)
    (hts : leavesOf items = toks.filter fun t => t.type ≠ eofTokenType ∧ g.isSideType t.type = false) (pos : SrcPos) (fuel' : Nat) :
    Fine (fun x => ∃ pc items' hooks results, x = .ok pc ∧ NodeRun env 0 (some (rootToken pos)) items' [] hooks results pc.log ∧
      dropSides g items' = started items) (parse env fuel' q pos) := by
  subst henv hupper
  obtain ⟨hlook, node, next, after, hp, h1, hset⟩ := hmany
  obtain ⟨hm, hc, ⟨heads, ho⟩, -, -⟩ := compiled_tables h hloop hsafe
  obtain ⟨hsound, htok⟩ := compiled_sound h (fun c hc => loopOk_noEoi true c (hloop c hc)) (by rintro rfl; cases hroot) hbelow
  have hord : (toks.filter fun t => decide (t.type ≠ eofTokenType ∧ env.g.isSideType t.type = false)) = ordinary env.g toks := by
    rw [ordinary]
    congr 1
    funext t
    cases env.g.isSideType t.type <;> simp
  have hside : ∀ t ∈ toks, env.g.isSideType t.type = true → Passed env.g t := by
    intro t ht
    rcases hfetched t ht with h2 | h2
    · intro h3; rw [h2] at h3; cases h3
    · exact (fetched_known h hloop hsafe hlay hlen hup hcase h2).2
  have hsp1 := spells_side (side' := fun t => env.g.isSideType t.type = true) (fun _ h => h.elim) hsp
  obtain ⟨⟨first, hfirst, hacc⟩, h2⟩ := described_readable h hloop hsafe hlay hlen hup hcase hroot hw hsp1 (by
    intro t ht
    rw [hts] at ht
    obtain ⟨h3, h4⟩ := List.mem_filter.mp ht
    rcases hfetched t h3 with h5 | h5
    · simp [h5] at h4
    · exact h5)
  obtain ⟨ks, hk, -, hway⟩ := way_of_spells ho (R := fun t k => Readable env.g env.upper (tableOf env.g) (Alike env.upper find env.g) t k)
    (fun x t ⟨k, h2, h3⟩ => ⟨k, h2, h3, h3.ordinary⟩) (fun _ h => h.2) h2
  rw [hts, hord] at hk
  have hdrop : dropSides env.g items = items := dropSides_none (by
    intro t ht
    rw [hts] at ht
    have := (List.mem_filter.mp ht).2
    simp only [decide_eq_true_eq] at this
    exact this.2)
  have hgives : GivesOnly env (fun q toks => Q q toks ∧ ∀ t ∈ toks, t.type = eofTokenType ∨ Fetched find ts t) (Known find env.g env.passSides) := by
    refine ⟨fun t ht => (by cases ht), fun t ht t' ht' => ?_, fun q ts' hq t ht h3 h4 t' ht' => ?_⟩
    · cases ht'; exact .inl ht
    · cases ht'
      rcases hq.2 t ht with h5 | h5
      · exact absurd h5 h3
      · refine .inr ⟨by rw [htok]; exact h5, fun h6 => ?_⟩
        cases hps : env.passSides with
        | true => rfl
        | false => exact absurd ⟨h6, hps⟩ h4
  refine Fine.mono (run_settled ⟨⟨hsound, hd, ho.keys, hp, h1⟩, hooks_answer hh, Supplies.keep hs _, hmono, hlook, hset, hgives⟩ hfirst ⟨hq, hfetched⟩
    (KeyedBy.widen hside (hk.mono (P' := Passed env.g) fun _ h => h.1)) pos (T := started (dropSides env.g items))
    (by simpa using (hway first hacc).2 rootNode (some (rootToken pos)) [] [] [] _ (.done)) fuel') ?_
  rintro x ⟨pc, rfl, items', ⟨hooks, results, h3, -⟩, h4⟩
  exact ⟨pc, items', hooks, results, rfl, h3, by rw [h4, hdrop]⟩

theorem asksText_mono {ts : List GToken} (a b : TokenTypeSet) (h : AsksText ts a) : AsksText ts (a ||| b) := by
  obtain ⟨i, t, h1, h2, h3⟩ := h
  exact ⟨i, t, h1, h2, by rw [BitVec.getLsbD_or, h3, Bool.true_or]⟩

theorem lexersOf_ok {re : List Nat → Option Matcher} {ts : List GToken} {lexers : List Lexer} (h : LexersOf re ts lexers) : LexersOk lexers := by
  obtain ⟨defs, rfl, h2, -⟩ := lexers_defs h
  intro l hl
  obtain ⟨x, hx, rfl⟩ := List.mem_map.mp hl
  exact ⟨x.1, x.2, (h2 x hx).1, rfl⟩

/-- C74, partial: the same for texts; nothing that may be empty is repeated (`Moves`, see C30), so the parse stops, and the tree is told for any
sufficient number of steps. Missing: as in `C74_described_tree_is_told_partial`; definitions that are not `Moves`, token hooks, several groups
of types. -/
theorem C74_text_partial {upper : List Nat → List Nat} {find : Nat → List Nat → List Nat} {ts a b c : List GToken}
    {bodies : List Chunk} {order1 order2 order3 : List Nat} {fuel : Nat} {g : Grammar}
    (h : Compiled upper find ts bodies order1 order2 order3 fuel g) (hloop : ∀ c ∈ bodies, LoopOk true c)
    {E : Nat → Bool} (hmv : Moves E bodies)
    (hsafe : SafeMachines bodies order2 order3 fuel) (hd : DistinctLiterals g) (hbelow : ∀ c ∈ bodies, c.Below ts.length)
    (hlay : Layout ts a b c) (hlen : a.length + b.length ≤ 64) (hup : ∀ l, upper (upper l) = upper l)
    (hcase : ∀ (j : Nat) (rt : GToken) l, ts[j]? = some rt → rt.re.isSome = true → rt.flags.caseless = true → find j l = l →
      find j (upper l) = upper l)
    (env : PEnv σ) (henv : env.g = g) (hupper : env.upper = upper) (hh : HooksPass env)
    (hmany : ManyTokensGrammar upper find env.passSides (AsksText ts) g)
    {re : List Nat → Option Matcher} (tenv : TEnv η) (hx : TextLexer re find ts tenv.lexers)
    {ls : LState η} {l : SrcList.State Src} (hq : Lexer.Holds ls.ps.src l) (hl : l.length + 1 < 2 ^ 31)
    {root : Chunk} (hroot : bodies[rootNode]? = some root) {w : List Sym} (hw : w ∈ lang root) {items : List Item} {toks : List Token}
    (hr : Reads re ts l toks [])
    (hsp : Spells (fun x t => Stands g upper x t ∧ g.isSideType t.type = false) (fun _ => False)
      (fun i u => u ≠ [] ∧ ∃ c, bodies[i]? = some c ∧ u ∈ lang c) w items)
    (hts : leavesOf items = toks.filter fun t => t.type ≠ eofTokenType ∧ g.isSideType t.type = false) (pos : SrcPos) :
    ∃ N, ∀ k n, N ≤ k → N ≤ n → ∃ pc items' hooks results, parse (pipelineEnv env tenv [] k) n ls pos = .done (.ok pc) ∧
      NodeRun (pipelineEnv env tenv [] k) 0 (some (rootToken pos)) items' [] hooks results pc.log ∧ dropSides g items' = started items := by
  have hfit := layout_fit hlay hlen
  have hsome : ∃ k i, InGroup ts k i := by
    obtain ⟨t, ht, hr⟩ := hx.any
    obtain ⟨i, hi⟩ := List.mem_iff_getElem?.1 ht
    obtain ⟨r, hr⟩ := Option.ne_none_iff_exists'.mp hr
    exact ⟨t.group, i, t, r, hi, hr, rfl⟩
  obtain ⟨r, hne, N, hN⟩ := C30_compiled_partial h hmv hsafe env henv tenv (lexersOf_ok hx.lexers) ls hq hl pos
  obtain ⟨B, hB⟩ : ∃ B, ∀ x ∈ l, x.1.content.length < B := by
    refine ⟨(l.map fun x => x.1.content.length).sum + 1, fun x hx => Nat.lt_succ_of_le ?_⟩
    exact List.single_le_sum (by simp) _ (List.mem_map.mpr ⟨x, hx, rfl⟩)
  refine ⟨max N (B + 1), fun k n hk hn => ?_⟩
  have hfine := C74_described_tree_is_told_partial h hloop hsafe hd hbelow hlay hlen hup hcase (pipelineEnv env tenv [] (k - 1 + 1)) henv hupper hh
    (text_supplies env hx.lexers hx.group hfit hsome (k - 1)) asksText_mono hmany hroot hw hsp (q := ls)
    ⟨l, ⟨hq, fun x hx => by have := hB x hx; omega⟩, hr⟩ (fun t ht => (reads_fetched hx hr t ht).imp id (·.1)) hts pos n
  rw [show k - 1 + 1 = k by omega] at hfine
  have h1 := hN k n (by omega) (by omega)
  dsimp only at h1
  rw [h1] at hfine ⊢
  cases r with
  | panic => exact hfine.elim
  | timeout => exact absurd rfl hne
  | done x =>
    obtain ⟨pc, items', hooks, results, rfl, h2, h3⟩ := hfine
    exact ⟨pc, items', hooks, results, rfl, h2, h3⟩

/-- Keys of tokens of type `j`: those of the type and those of literals. -/
def typeKeys (find : Nat → List Nat → List Nat) (ts : List GToken) (j : Nat) (tt : GToken) : List (List Int) :=
  [(j : Int), anyToken] :: (if tt.flags.noLiterals then [] else (List.range ts.length).flatMap fun l => match ts[l]? with
    | some lt => if lt.flags.literal && decide (find j lt.name = lt.name) then
        [if lt.flags.reserved then [(l : Int), anyToken] else [(l : Int), (j : Int), anyToken]] else []
    | none => [])

/-- Kinds of known tokens. -/
def knownKinds (find : Nat → List Nat → List Nat) (ts : List GToken) (sides : Bool) : List Cls :=
  .nothing :: .keys eoiTokenType [eoiTokenType, anyToken] :: (List.range ts.length).flatMap fun j => match ts[j]? with
    | some tt => if tt.re.isSome then
        (if tt.flags.side then (if sides then [.side j] else []) else (typeKeys find ts j tt).map fun l => .keys j l) else []
    | none => []

theorem known_kind {upper : List Nat → List Nat} {find : Nat → List Nat → List Nat} {g : Grammar} (hd : DistinctLiterals g)
    (hcase : ∀ (j : Nat) (rt : GToken) l, g.tokens[j]? = some rt → rt.re.isSome = true → rt.flags.caseless = true → find j l = l →
      find j (upper l) = upper l) {sides : Bool} {o : Option Token} (h : Known find g sides o) :
    ∃ c ∈ knownKinds find g.tokens sides, c.Is g upper o := by
  cases o with
  | none => exact ⟨.nothing, by simp [knownKinds], rfl⟩
  | some t =>
    rcases h t rfl with h1 | ⟨⟨h1, ⟨tt, h2, h3⟩, h4⟩, h5⟩
    · refine ⟨.keys eoiTokenType [eoiTokenType, anyToken], by simp [knownKinds], t, rfl, h1, rfl, ?_⟩
      rw [possibleRuleKeys, h1, if_neg (by decide)]
      rfl
    · have hlt : t.type.toNat < g.tokens.length := (List.getElem?_eq_some_iff.mp h2).1
      have hty : ((t.type.toNat : Nat) : Int) = t.type := by omega
      have hmem : ∀ c, c ∈ (if tt.flags.side then (if sides then [Cls.side t.type.toNat] else []) else
          (typeKeys find g.tokens t.type.toNat tt).map fun l => .keys t.type.toNat l) → c ∈ knownKinds find g.tokens sides := by
        intro c hc
        refine List.mem_cons_of_mem _ (List.mem_cons_of_mem _ (List.mem_flatMap.mpr ⟨t.type.toNat, List.mem_range.mpr hlt, ?_⟩))
        rw [h2]
        dsimp only
        rw [if_pos h3]
        exact hc
      have hside : g.isSideType t.type = tt.flags.side := by rw [Grammar.isSideType, if_pos h1, h2]; rfl
      by_cases hs : tt.flags.side = true
      · rw [hs] at hside
        refine ⟨.side t.type.toNat, hmem _ ?_, t, rfl, hty.symm, by rw [hty]; exact hside⟩
        rw [if_pos hs, if_pos (h5 hside)]
        simp
      · have hs' : tt.flags.side = false := by simpa using hs
        have key : ∀ l ∈ typeKeys find g.tokens t.type.toNat tt, possibleRuleKeys g upper (some t) = some l →
            ∃ c ∈ knownKinds find g.tokens sides, c.Is g upper (some t) := by
          intro l hl hk
          refine ⟨.keys t.type.toNat l, hmem _ ?_, t, rfl, hty.symm, by rw [hty, hside, hs'], hk⟩
          rw [if_neg hs]
          exact List.mem_map.mpr ⟨l, hl, rfl⟩
        have hlit : ∀ i, IsLiteral g upper t i → ∃ lt, g.tokens[i]? = some lt ∧ tt.flags.noLiterals = false ∧ lt.flags.literal = true ∧
            find t.type.toNat lt.name = lt.name ∧ i < g.tokens.length := by
          rintro i ⟨-, tt', lt, k1, k2, k3, k4, k5⟩
          rw [h2] at k1; cases k1
          refine ⟨lt, k3, k2, k4, ?_, (List.getElem?_eq_some_iff.mp k3).1⟩
          by_cases hc : tt.flags.caseless = true
          · rw [k5, if_pos hc]; exact hcase _ tt _ h2 h3 hc h4
          · rw [k5, if_neg hc]; exact h4
        rcases keys_of (upper := upper) hd t (by omega) with ⟨i, k1, ⟨lt', k2, k2'⟩, k3⟩ | ⟨i, k1, k2, k3⟩ | ⟨-, k3⟩
        · obtain ⟨lt, l1, l2, l3, l4, l5⟩ := hlit i k1
          rw [l1] at k2; cases k2
          refine key _ (List.mem_cons_of_mem _ ?_) k3
          rw [if_neg (by simp [l2])]
          refine List.mem_flatMap.mpr ⟨i, List.mem_range.mpr l5, ?_⟩
          simp [l1, l3, l4, k2']
        · obtain ⟨lt, l1, l2, l3, l4, l5⟩ := hlit i k1
          have hr : lt.flags.reserved = false := by
            cases hx : lt.flags.reserved with
            | false => rfl
            | true => exact absurd ⟨lt, l1, hx⟩ k2
          refine key _ (List.mem_cons_of_mem _ ?_) k3
          rw [if_neg (by simp [l2])]
          refine List.mem_flatMap.mpr ⟨i, List.mem_range.mpr l5, ?_⟩
          simp [l1, l3, l4, hr, h1]
        · refine key _ ?_ k3
          simp [typeKeys, h1]

/-- C74: a check for grammars in which tokens read ahead are enough: `n` is the number of steps of searches, `k` is the limit for rules used
with one token, `S` is a set of states that lookahead may enter. -/
theorem C74_many_tokens_checked {upper : List Nat → List Nat} {find : Nat → List Nat → List Nat} {g : Grammar} (hm : Means g.tables (tableOf g))
    (hd : DistinctLiterals g)
    (hcase : ∀ (j : Nat) (rt : GToken) l, g.tokens[j]? = some rt → rt.re.isSome = true → rt.flags.caseless = true → find j l = l →
      find j (upper l) = upper l) {sides : Bool} {asks : TokenTypeSet → Prop} {asksB : TokenTypeSet → Bool}
    (hasks : ∀ types, asksB types = true → asks types) (n k : Nat) (S : List Nat)
    (h1 : predictsCheck g (certOf g n) = true) (h2 : manyTokensCheck g (certOf g n) (alikeKeys find g.tokens) = true)
    (h3 : calmCheck g S = true)
    (h4 : settleCheck g (knownKinds find g.tokens sides) sides asksB (certOf g n).nodeOf (certOf g n).afterOf k
      (pairsOf g (knownKinds find g.tokens sides) k n) = true) : ManyTokensGrammar upper find sides asks g := by
  refine ⟨?_, _, _, _, predicts_of_check hm h1, manyTokens_of_check hm (fun _ _ h => alike_keys hd hcase h) h2,
    settles_of_check hd hasks (fun o ho => known_kind hd hcase ho) (fun t ht => ?_) h4⟩
  · intro f tok0 rules _ hf hl ts L _ hr tok dead fuel _
    exact safe_of_calm hm (calm_of_check hm h3) f tok0 rules hf hl ts L hr tok dead fuel
  · rcases ht t rfl with h5 | ⟨⟨h5, ⟨tt, h6, -⟩, -⟩, h7⟩
    · rw [h5]
      refine ⟨?_, fun h => by cases h⟩
      have : eoiTokenType < 0 := by decide
      omega
    · have := (List.getElem?_eq_some_iff.mp h6).1
      exact ⟨by omega, h7⟩

/-! ### Samples -/

/-- `root = {item}; item = '1' | '1', '2' | '3', '1', '1' | '3', '1', '2'`: three tokens are needed to choose a variant, the end of an item is known
by the next token. -/
def sampleThree : List Chunk := [cSeq [cRep [.node 1]],
  cSeq [.variant [.token 5, cSeq [.token 5, .token 6], cSeq [.token 7, .token 5, .token 5], cSeq [.token 7, .token 5, .token 6]]]]

/-- A check for `AsksText`. -/
def asksLex (ts : List GToken) (types : TokenTypeSet) : Bool :=
  (List.range ts.length).any fun i => (ts[i]?).any fun t => t.re.isSome && types.getLsbD i

theorem asksLex_asks {ts : List GToken} {types : TokenTypeSet} (h : asksLex ts types = true) : AsksText ts types := by
  obtain ⟨i, -, h1⟩ := List.any_eq_true.mp h
  rcases h2 : ts[i]? with _ | t
  · rw [h2] at h1; cases h1
  · rw [h2, Option.any_some, Bool.and_eq_true] at h1
    exact ⟨i, t, h2, Option.isSome_iff_ne_none.mp h1.1, h1.2⟩

theorem asksLex_ne {ts : List GToken} {types : TokenTypeSet} (h : asksLex ts types = true) : types ≠ 0 := by
  obtain ⟨i, t, -, -, h1⟩ := asksLex_asks h
  rintro rfl
  simp at h1

/-- The token made of one character of a text. -/
def pieceToken (src : Src) (p : Nat) (c : Nat) : Token :=
  ⟨charType c, nameString (((textTokens[charType c]?).map (·.name)).getD []), [c], ⟨some src, (p : Nat)⟩⟩

/-- Tokens of the rest of a text. -/
def pieceTokens (src : Src) : Nat → List Nat → List Token
  | _, [] => [endOf src]
  | p, c :: cs => pieceToken src p c :: pieceTokens src (p + 1) cs

/-- Three items: `3 1 1`, `1 2` and `1`. -/
def threeTree : List Item :=
  let t := fun p c => Item.tok (pieceToken (textSource 1 "311 12 1") p c)
  [.node 1 none [t 0 51, t 1 49, t 2 49], .node 1 none [t 4 49, t 5 50], .node 1 none [t 7 49]]

/-- The text `311 12 1`. -/
def threeTokens : List Token := pieceTokens (textSource 1 "311 12 1") 0 (textSource 1 "311 12 1").content

/-- The sample grammar meets the conditions. -/
theorem sampleThree_ready : ∃ g, compile id sampleFind textTokens (sampleThree.map some) (List.range 2) (List.range 2) (List.range 2) 100 = .done (.ok g) ∧
    Compiled id sampleFind textTokens sampleThree (List.range 2) (List.range 2) (List.range 2) 100 g ∧
    (∀ c ∈ sampleThree, LoopOk true c) ∧ Moves (· == 0) sampleThree ∧ SafeMachines sampleThree (List.range 2) (List.range 2) 100 ∧
    DistinctLiterals g ∧ (∀ c ∈ sampleThree, c.Below textTokens.length) ∧ (∀ asks : TokenTypeSet → Prop, (∀ types, asksLex textTokens types = true → asks types) → ManyTokensGrammar id sampleFind false asks g) ∧
    (∃ w ∈ lang (cSeq [cRep [.node 1]]), Spells (fun x t => Stands g id x t ∧ g.isSideType t.type = false) (fun _ => False)
      (fun i u => u ≠ [] ∧ ∃ c, sampleThree[i]? = some c ∧ u ∈ lang c) w threeTree) ∧
    leavesOf threeTree = threeTokens.filter (fun t => t.type ≠ eofTokenType ∧ g.isSideType t.type = false) := by
  have hwf : ∀ c ∈ sampleThree, WF c ∧ IsBody c := by
    simp [sampleThree, cSeq, cRep, WF, WFs, IsBody]
  have hc : (match compile id sampleFind textTokens (sampleThree.map some) (List.range 2) (List.range 2) (List.range 2) 100 with
      | .done (.ok g) => decide (((g.tokens.filter fun t => t.flags.literal).map (·.name)).Nodup) &&
        predictsCheck g (certOf g 6) && manyTokensCheck g (certOf g 6) (alikeKeys sampleFind g.tokens) && calmCheck g [2, 3, 4, 5, 6] &&
        settleCheck g (knownKinds sampleFind g.tokens false) false (asksLex textTokens) (certOf g 6).nodeOf (certOf g 6).afterOf 4
          (pairsOf g (knownKinds sampleFind g.tokens false) 4 6) && decide (g.tokens = textTokens) &&
        decide (∀ t ∈ leavesOf threeTree, g.isSideType t.type = false) &&
        decide (leavesOf threeTree = threeTokens.filter (fun t => t.type ≠ eofTokenType ∧ g.isSideType t.type = false))
      | _ => false) = true := by decide +kernel
  split at hc
  · rename_i g hg
    simp only [Bool.and_eq_true, decide_eq_true_eq] at hc
    obtain ⟨⟨⟨⟨⟨⟨⟨h1, h3⟩, h4⟩, h5⟩, h6⟩, h7⟩, h8⟩, h9⟩ := hc
    have hcomp : Compiled id sampleFind textTokens sampleThree (List.range 2) (List.range 2) (List.range 2) 100 g :=
      ⟨hg, hwf, by simp [sampleThree, cSeq, cRep, refs, refsAll], List.Perm.refl _, List.Perm.refl _⟩
    have hloop : ∀ c ∈ sampleThree, LoopOk true c := by
      simp [sampleThree, cSeq, cRep, LoopOk, LoopOkSeq, LoopOkAny]
    have hsafe : SafeMachines sampleThree (List.range 2) (List.range 2) 100 := safe_of_check (fun c hc => (hwf c hc).1) (by decide +kernel)
    refine ⟨g, hg, hcomp, hloop, ⟨?_, ?_, fun i => 1 - i, ?_⟩, hsafe, distinct_of h1, ?_,
      fun asks ha => C74_many_tokens_checked (compiled_tables hcomp hloop hsafe).1 (distinct_of h1) (fun j rt l _ _ _ h => h) ha
        6 4 [2, 3, 4, 5, 6] h3 h4 h5 h6, ⟨[.node 1, .node 1, .node 1], ?_, ?_⟩, h9⟩
    · rintro (_ | _ | i) c hc <;> simp [sampleThree] at hc <;> subst hc <;>
        simp [cSeq, cRep, mayBeEmpty, mayBeEmptySeq, mayBeEmptyAny, NoEoi, NoEois]
    · simp [sampleThree, cSeq, cRep, LoopsMove, LoopsMoveAll, mayBeEmptySeq, mayBeEmpty]
    · rintro (_ | _ | i) c hc <;> simp [sampleThree] at hc <;> subst hc <;>
        simp [cSeq, cRep, leftNodes, leftNodesSeq, leftNodesAny, mayBeEmpty, mayBeEmptySeq, mayBeEmptyAny]
    · simp [sampleThree, cSeq, cRep, Chunk.Below, Chunk.BelowAll, textTokens, sampleTokens]
    · refine ⟨[.node 1, .node 1, .node 1], ⟨[[.node 1], [.node 1], [.node 1]], rfl, ?_⟩, [], rfl, rfl⟩
      intro u hu
      have : u = [.node 1] := by simpa using hu
      exact ⟨[.node 1], rfl, [], rfl, this.symm⟩
    · have lit : ∀ (p c k : Nat), (match textTokens[charType c]?, textTokens[k]? with
          | some tt, some lt => !tt.flags.noLiterals && !tt.flags.caseless && lt.flags.literal && decide (lt.name = [c])
          | _, _ => false) = true → MatchesAs g id (pieceToken (textSource 1 "311 12 1") p c) k := by
        intro p c k h
        split at h
        · rename_i tt lt k1 k2
          simp only [Bool.and_eq_true, Bool.not_eq_true', decide_eq_true_eq] at h
          refine .inl ⟨by simp [pieceToken], tt, lt, by rw [h7]; exact k1, h.1.1.1, by rw [h7, k2], h.1.2, ?_⟩
          rw [h.2]; simp [pieceToken]
        · cases h
      have ns : ∀ t ∈ leavesOf threeTree, g.isSideType t.type = false := h8
      refine .node ⟨by simp, _, rfl, ?_⟩ (.tok (x := .tok 7) ⟨lit 0 51 7 (by decide), ns _ (by decide)⟩ (.tok (x := .tok 5) ⟨lit 1 49 5 (by decide), ns _ (by decide)⟩
        (.tok (x := .tok 5) ⟨lit 2 49 5 (by decide), ns _ (by decide)⟩ .nil))) (.node ⟨by simp, _, rfl, ?_⟩ (.tok (x := .tok 5) ⟨lit 4 49 5 (by decide), ns _ (by decide)⟩
        (.tok (x := .tok 6) ⟨lit 5 50 6 (by decide), ns _ (by decide)⟩ .nil)) (.node ⟨by simp, _, rfl, ?_⟩ (.tok (x := .tok 5) ⟨lit 7 49 5 (by decide), ns _ (by decide)⟩ .nil) .nil))
      · exact ⟨[.tok 7, .tok 5, .tok 5], .inr (.inr (.inl ⟨[.tok 7], rfl, _, ⟨[.tok 5], rfl, _, ⟨[.tok 5], rfl, [], rfl, rfl⟩, rfl⟩, rfl⟩)), [], rfl, rfl⟩
      · exact ⟨[.tok 5, .tok 6], .inr (.inl ⟨[.tok 5], rfl, _, ⟨[.tok 6], rfl, [], rfl, rfl⟩, rfl⟩), [], rfl, rfl⟩
      · exact ⟨[.tok 5], .inl rfl, [], rfl, rfl⟩
  · cases hc

theorem pieces_read (src : Src) (h : ∀ c ∈ src.content, c ≠ 63) : ∀ (cs : List Nat) (p : Nat), src.content.drop p = cs → p ≤ src.content.length →
    Reads charRe textTokens [(src, p)] (pieceTokens src p cs) [] := by
  intro cs
  induction cs with
  | nil =>
    intro p h1 h2
    have : p = src.content.length := by
      have := List.drop_eq_nil_iff.mp h1
      omega
    rw [this, pieceTokens]
    exact .eof .nil
  | cons c cs ih =>
    intro p h1 h2
    have hlt : p < src.content.length := by
      by_contra hc
      rw [List.drop_eq_nil_of_le (by omega)] at h1
      cases h1
    have hc : c ∈ src.content := List.mem_of_mem_drop (by rw [h1]; simp)
    have h3 : charType c < 3 := by unfold charType; split <;> [decide; split <;> decide]
    have hty : ∀ j < 3, ∃ t, textTokens[j]? = some t ∧ t.re = some [[110, 100, 115].getD j 0] ∧ t.group = 0 := by decide
    obtain ⟨t, h4, h5, h6⟩ := hty _ h3
    have h7 : ∀ j < 3, ([110, 100, 115] : List Nat)[j]? = some ([110, 100, 115].getD j 0) := by decide
    have h8 := Reads.tok (re := charRe) (ts := textTokens) (rest := []) (l := []) (i := charType c) (n := 1) (t := t) (toks := pieceTokens src (p + 1) cs)
      hlt ⟨⟨t, _, h4, h5, h6⟩, ⟨t, _, _, h4, h5, rfl, ?_⟩, fun j hj _ n' hn' => ?_⟩ (by decide) h4 (ih (p + 1) ?_ (by omega))
    · rw [pieceTokens, pieceToken, h4]
      rw [h1] at h8
      exact h8
    · rw [h1]
      dsimp only
      rw [if_pos ⟨h c hc, h7 _ h3⟩]
    · obtain ⟨t', r, m, k1, k2, k3, k4⟩ := hn'
      obtain ⟨t2, l1, l2, -⟩ := hty j (by omega)
      rw [k1] at l1; cases l1
      rw [l2] at k2; cases k2
      cases k3
      rw [h1] at k4
      dsimp only at k4
      split at k4
      · rename_i hx
        rw [h7 _ h3] at hx
        have : ∀ a < 3, ∀ b < 3, ([110, 100, 115] : List Nat).getD a 0 = [110, 100, 115].getD b 0 → a = b := by decide
        have := this _ h3 j (by omega) (by simpa using hx.2)
        omega
      · cases k4
    · rw [← List.drop_drop, h1]; rfl

/-- `311 12 1` is accepted as that tree, with any token source that gives tokens when it is asked for something. -/
example : ∃ g, compile id sampleFind textTokens (sampleThree.map some) (List.range 2) (List.range 2) (List.range 2) 100 = .done (.ok g) ∧
    ∀ fuel', Fine (fun x => ∃ pc items' hooks results, x = .ok pc ∧
      NodeRun (pickyEnv g) 0 (some (rootToken ⟨none, 0⟩)) items' [] hooks results pc.log ∧ dropSides g items' = started threeTree)
      (parse (pickyEnv g) fuel' threeTokens ⟨none, 0⟩) := by
  obtain ⟨g, hg, h1, h2, -, h3, h4, h5, h6, ⟨w, h7, h8⟩, h9⟩ := sampleThree_ready
  exact ⟨g, hg, fun fuel' => C74_described_tree_is_told_partial (a := textTokens.take 3) (b := []) (c := textTokens.drop 3) h1 h2 h3 h4 h5
    ⟨by decide, by decide, by decide, by decide⟩ (by decide) (fun l => rfl) (fun j rt l _ _ _ h => h) (pickyEnv g) rfl rfl
    ⟨fun log e => ⟨none, rfl⟩, fun log e => ⟨false, rfl⟩⟩ (picky_supplies g) (fun a b h1 h2 => h1 (by
      have : a = a &&& (a ||| b) := by
        apply BitVec.eq_of_getLsbD_eq
        intro i _
        rw [BitVec.getLsbD_and, BitVec.getLsbD_or]
        cases a.getLsbD i <;> rfl
      rw [this, h2]; exact BitVec.and_zero)) (h6 _ fun _ h => asksLex_ne h) rfl h7 h8 rfl (by
        have : ∀ t ∈ threeTokens, t.type = eofTokenType ∨ (0 ≤ t.type ∧ ((textTokens[t.type.toNat]?).any fun tt => tt.re.isSome) = true ∧
          sampleFind t.type.toNat t.content = t.content) := by decide +kernel
        intro t ht
        refine (this t ht).imp id fun ⟨k1, k2, k3⟩ => ⟨k1, ?_, k3⟩
        rcases k4 : textTokens[t.type.toNat]? with _ | tt
        · rw [k4] at k2; cases k2
        · rw [k4] at k2; exact ⟨tt, rfl, k2⟩) h9 _ fuel'⟩

/-- The same with the lexer. -/
example : ∃ g, compile id sampleFind textTokens (sampleThree.map some) (List.range 2) (List.range 2) (List.range 2) 100 = .done (.ok g) ∧
    ∃ N, ∀ k n, N ≤ k → N ≤ n → ∃ pc items' hooks results,
      parse (pipelineEnv (pickyEnv g) ({ g := g, lexers := textLexers } : TEnv Nat) [] k) n (textState "311 12 1") ⟨none, 0⟩ = .done (.ok pc) ∧
      NodeRun (pipelineEnv (pickyEnv g) ({ g := g, lexers := textLexers } : TEnv Nat) [] k) 0 (some (rootToken ⟨none, 0⟩)) items' [] hooks results
        pc.log ∧ dropSides g items' = started threeTree := by
  obtain ⟨g, hg, h1, h2, hmv, h3, h4, h5, h6, ⟨w, h7, h8⟩, h9⟩ := sampleThree_ready
  exact ⟨g, hg, C74_text_partial (a := textTokens.take 3) (b := []) (c := textTokens.drop 3) h1 h2 hmv h3 h4 h5
    ⟨by decide, by decide, by decide, by decide⟩ (by decide) (fun l => rfl) (fun j rt l _ _ _ h => h) (pickyEnv g) rfl rfl
    ⟨fun log e => ⟨none, rfl⟩, fun log e => ⟨false, rfl⟩⟩ (h6 _ fun _ h => asksLex_asks h) _ textLexers_of (ls := textState "311 12 1")
    (textQueue_holds _) (by decide) rfl h7 (pieces_read _ (by decide) _ 0 rfl (by simp)) h8 h9 _⟩

/-- C74, tokens that are not requested: `root = n, $d; n = $n | ($n, $n)` describes `a1`, and its first two tokens are enough to choose a
variant. But the parser requests only `$n` as the second token, is told that there is no such token, and rejects the input; `ab1` is accepted. -/
theorem C74_hidden_token_rejects : ∃ (g : Grammar) (items : List Item) (e : PErr) (pc : PC (List Token)),
    sampleCompile [cSeq [.node 1, .token 1], cSeq [.variant [.token 0, cSeq [.token 0, .token 0]]]] = .done (.ok g) ∧
    Described g id (fun i w => ∃ c, [cSeq [.node 1, .token 1], cSeq [.variant [.token 0, cSeq [.token 0, .token 0]]]][i]? = some c ∧ w ∈ lang c)
      items ∧
    leavesOf items = charTokens "a1" ∧ parse (pickyEnv g) 100 (charTokens "a1") ⟨none, 0⟩ = .done (.error e) ∧
    parse (pickyEnv g) 100 (charTokens "ab1") ⟨none, 0⟩ = .done (.ok pc) := by
  have hc : (match sampleCompile [cSeq [.node 1, .token 1], cSeq [.variant [.token 0, cSeq [.token 0, .token 0]]]] with
      | .done (.ok g) => decide (g.tokens = sampleTokens) &&
        (match parse (pickyEnv g) 100 (charTokens "a1") ⟨none, 0⟩, parse (pickyEnv g) 100 (charTokens "ab1") ⟨none, 0⟩ with
        | .done (.error _), .done (.ok _) => true
        | _, _ => false)
      | _ => false) = true := by decide +kernel
  split at hc
  · rename_i g hg
    simp only [Bool.and_eq_true, decide_eq_true_eq] at hc
    obtain ⟨h1, h2⟩ := hc
    split at h2
    · rename_i e pc he hpc
      refine ⟨g, [.node 1 none [.tok (charToken 'a')], .tok (charToken '1')], e, pc, hg, ⟨[.node 1, .tok 1], ⟨_, rfl, ?_⟩,
        .node (u := [.tok 0]) ⟨_, rfl, ?_⟩ (.tok (sample_type (k := 0) h1 (by decide)) .nil) (.tok (sample_type (k := 1) h1 (by decide)) .nil)⟩,
        by decide, he, hpc⟩
      · exact ⟨[.node 1], rfl, [.tok 1], ⟨[.tok 1], rfl, [], rfl, rfl⟩, rfl⟩
      · exact ⟨[.tok 0], .inl rfl, [], rfl, rfl⟩
    · cases h2
  · cases hc

/-- C74, side tokens given to hooks: `root = n, 'y'; n = 'x' | ('x', 'x')` describes `x y` with a space token between, the next ordinary token is
enough to choose a variant. If side tokens are given to node hooks, then the lookahead meets the space: the branch that has left the node
cannot take it and is dropped, the other one takes it and wins before `y` is seen, so the input is rejected; without the hooks it is
accepted. -/
theorem C74_side_tokens_reject : ∃ (g : Grammar) (items : List Item) (e : PErr) (pc : PC (List Token)),
    sampleCompile [cSeq [.node 1, cY], cSeq [.variant [cX, cSeq [cX, cX]]]] = .done (.ok g) ∧
    Described g id (fun i w => ∃ c, [cSeq [.node 1, cY], cSeq [.variant [cX, cSeq [cX, cX]]]][i]? = some c ∧ w ∈ lang c) items ∧
    leavesOf items = charTokens "x y" ∧ parse { pickyEnv g with passSides := true } 100 (charTokens "x y") ⟨none, 0⟩ = .done (.error e) ∧
    parse (pickyEnv g) 100 (charTokens "x y") ⟨none, 0⟩ = .done (.ok pc) := by
  have hc : (match sampleCompile [cSeq [.node 1, cY], cSeq [.variant [cX, cSeq [cX, cX]]]] with
      | .done (.ok g) => decide (g.tokens = sampleTokens) && g.isSideType 2 &&
        (match parse { pickyEnv g with passSides := true } 100 (charTokens "x y") ⟨none, 0⟩, parse (pickyEnv g) 100 (charTokens "x y") ⟨none, 0⟩ with
        | .done (.error _), .done (.ok _) => true
        | _, _ => false)
      | _ => false) = true := by decide +kernel
  split at hc
  · rename_i g hg
    simp only [Bool.and_eq_true, decide_eq_true_eq] at hc
    obtain ⟨⟨h1, h3⟩, h2⟩ := hc
    split at h2
    · rename_i e pc he hpc
      refine ⟨g, [.node 1 none [.tok (charToken 'x')], .tok (charToken ' '), .tok (charToken 'y')], e, pc, hg, ⟨[.node 1, .tok 4], ⟨_, rfl, ?_⟩,
        .node (u := [.tok 3]) ⟨_, rfl, ?_⟩ (.tok (sample_literal (k := 3) h1 (by decide) (by decide)) .nil)
          (.side h3 (.tok (sample_literal (k := 4) h1 (by decide) (by decide)) .nil))⟩, by decide, he, hpc⟩
      · exact ⟨[.node 1], rfl, [.tok 4], ⟨[.tok 4], rfl, [], rfl, rfl⟩, rfl⟩
      · exact ⟨[.tok 3], .inl rfl, [], rfl, rfl⟩
    · cases h2
  · cases hc

end Verif.Props
