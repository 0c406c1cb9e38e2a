/-
C61: described inputs are accepted when one token is enough to choose a rule.
C62: hooks are told about the described tree, which is the only one.
-/
import Verif.Proof.OneTokenUnique
import Verif.Proof.OneTokenTables
import Verif.Proof.OneTokenCheck
import Verif.Proof.OneTokenTree
import Verif.Props.Types

namespace Verif.Props

open Verif.Model Verif.Spec Verif.Spec.Ebnf Verif.Proof

variable {σ : Type}

/-- C61, C62, any tables in which one token is enough to choose a rule: if the tokens left in the stream (maybe with ends of
sources between them) are the leaves of a tree described by the node machines, then the parser accepts them, and hooks are told
about that tree (`NodeRun`, see C33): the same nodes and ordinary tokens, each nested node is started by its first ordinary token.
Nested nodes of the tree are not empty (see `C61_empty_node_rejected`). -/
theorem C61_described_by_machines (env : PEnv σ) {m : Table} {heads : Nat → Int → Prop} {node : Nat → Nat} {next after : Nat → Int → Prop}
    {also : Int → Int → Prop} {asks : TokenTypeSet → Prop} {Q : σ → List Token → Prop} (hm : Means env.g.tables m) (hd : DistinctLiterals env.g)
    (hc : RulesClosed env.g m) (ho : Opens env.g m heads) (hp : Predicts env.g m node next after)
    (h1 : OneToken env.g m node next after also) (hh : HooksPass env) (hs : Supplies env.pull asks Q)
    {first : Nat} (hfirst : env.g.firsts[rootNode]? = some first) {w : List Sym} (hw : Accepts m first w) {items : List Item}
    (hsp : Spells (fun x t => ∃ k : Nat, x = .tok k ∧ Readable env.g env.upper m also t k)
      (fun t => Passed env.g t ∧ env.g.isSideType t.type = true)
      (fun i u => u ≠ [] ∧ ∃ f : Nat, env.g.firsts[i]? = some f ∧ Accepts m f u) w items)
    {q : σ} {ts : List Token} (hq : Q q ts) (hts : ts.filter (fun t => t.type ≠ eofTokenType) = leavesOf items) (pos : SrcPos) :
    ∃ N, ∀ fuel, N ≤ fuel → ∃ pc items' hooks results, parse env fuel q pos = .done (.ok pc) ∧
      NodeRun env 0 (some (rootToken pos)) items' [] hooks results pc.log ∧ dropSides env.g items' = started (dropSides env.g items) := by
  obtain ⟨N, hN⟩ := machines_told hm hd hc ho hp h1 (hooks_answer hh) hs hfirst hw hsp hq hts pos
  refine ⟨N, fun fuel hle => ?_⟩
  obtain ⟨pc, h2, items', ⟨hooks, results, h3, -⟩, h4⟩ := hN fuel hle
  exact ⟨pc, items', hooks, results, h2, h3, h4⟩

/-- A fetched token may be looked up both by key `k` and by key `k'`. -/
def Alike (upper : List Nat → List Nat) (find : Nat → List Nat → List Nat) (g : Grammar) (k k' : Int) : Prop :=
  k ≠ k' ∧ ∃ (i j : Nat) (t : Token), k = i ∧ k' = j ∧ Fetched find g.tokens t ∧ MatchesAs g upper t i ∧ MatchesAs g upper t j

/-- One token is enough to choose what to do next in any state. -/
def OneTokenGrammar (upper : List Nat → List Nat) (find : Nat → List Nat → List Nat) (g : Grammar) : Prop :=
  ∃ node next after, Predicts g (tableOf g) node next after ∧ OneToken g (tableOf g) node next after (Alike upper find g)

theorem spells_filled {g : Grammar} {upper : List Nat → List Nat} {L L' : Nat → List Sym → Prop} {R : Token → Nat → Prop} {P : Token → Prop}
    {w : List Sym} {items : List Item} (hL : ∀ i u, L i u → L' i u ∧ Sym.eoi ∉ u)
    (h : Spells (fun x t => Stands g upper x t ∧ g.isSideType t.type = false) (fun t => g.isSideType t.type = true) L w items)
    (hR : ∀ t ∈ leavesOf items, ∀ k : Nat, MatchesAs g upper t k → g.isSideType t.type = false → R t k)
    (hP : ∀ t ∈ leavesOf items, g.isSideType t.type = true → P t) (hw : Sym.eoi ∉ w) :
    Spells (fun x t => ∃ k : Nat, x = .tok k ∧ R t k) P L' w items := by
  induction h with
  | nil => exact .nil
  | side h1 _ ih =>
    refine .side (hP _ (by simp [leavesOf, Item.leaves]) h1) (ih (fun t ht => hR t ?_) (fun t ht => hP t ?_) hw) <;>
      simp [leavesOf, Item.leaves, ht]
  | @tok x t w items h1 _ ih =>
    refine .tok ?_ (ih (fun t ht => hR t ?_) (fun t ht => hP t ?_) (fun h => hw (by simp [h])))
    · match x, h1 with
      | .tok k, h1 => exact ⟨k, rfl, hR t (by simp [leavesOf, Item.leaves]) k h1.1 h1.2⟩
      | .eoi, _ => exact absurd List.mem_cons_self hw
    all_goals simp [leavesOf, Item.leaves, ht]
  | node h1 _ _ ih1 ih2 =>
    obtain ⟨h2, h3⟩ := hL _ _ h1
    refine .node h2 (ih1 (fun t ht => hR t ?_) (fun t ht => hP t ?_) h3) (ih2 (fun t ht => hR t ?_) (fun t ht => hP t ?_)
      (fun h => hw (by simp [h]))) <;> simp [leavesOf, Item.leaves, ht]

/-- Fetched tokens are readable by the machines or may be passed. -/
theorem fetched_known {upper : List Nat → List Nat} {find : Nat → List Nat → List Nat} {ts a b c : List GToken}
    {bodies : List Chunk} {order1 order2 order3 : List Nat} {fuel : Nat} {g : Grammar}
    (h : Compiled upper find ts bodies order1 order2 order3 fuel g) (hloop : ∀ c ∈ bodies, LoopOk true c)
    (hsafe : SafeMachines bodies order2 order3 fuel)
    (hlay : Layout ts a b c) (hlen : a.length + b.length ≤ 64) (hup : ∀ l, upper (upper l) = upper l)
    (hcase : ∀ (j : Nat) (rt : GToken) l, ts[j]? = some rt → rt.re.isSome = true → rt.flags.caseless = true → find j l = l →
      find j (upper l) = upper l) {t : Token} (hf : Fetched find ts t) :
    (∀ k : Nat, MatchesAs g upper t k → g.isSideType t.type = false → Readable g upper (tableOf g) (Alike upper find g) t k) ∧
    (g.isSideType t.type = true → Passed g t) := by
  obtain ⟨hm, -⟩ := compiled_tables h hloop hsafe
  have htok : g.tokens = ts := by obtain ⟨_, _, _, _, _, -, -, -, -, -, -, -, -, h⟩ := compile_steps h.ok; exact h
  have hwf : ∀ c, some c ∈ bodies.map some → WF c := by
    intro c hc
    obtain ⟨c', h2, h3⟩ := List.mem_map.mp hc
    cases h3
    exact (h.wf c h2).1
  have ⟨h0, ⟨tt, h2, h3⟩, _⟩ := hf
  have hre : t.type.toNat < a.length := by
    by_contra hge
    have h8 : tt ∈ b ++ c := by
      rw [hlay.eq, List.append_assoc, List.getElem?_append_right (by omega)] at h2
      exact List.mem_of_getElem? h2
    rcases List.mem_append.mp h8 with hm | hm
    · rw [(hlay.ext _ hm).1] at h3; cases h3
    · rw [(hlay.lit _ hm).1] at h3; cases h3
  refine ⟨fun k hk hside => ?_, fun hside => ?_⟩
  · refine ⟨hk, fun k' hne hk' => ⟨by omega, k, k', t, rfl, rfl, by rw [htok]; exact hf, hk, hk'⟩, ?_, hside, fun s gs hgs hne => ?_⟩
    · rw [htok]
      have := (List.getElem?_eq_some_iff.mp h2).1
      omega
    · exact (C40_expected_types_partial h.ok hwf hlay hlen hup hcase hm hgs).2 t k hf hk hne
  · have hlt : t.type < 64 := by omega
    refine .inr ⟨hside, hlt, fun s gs hgs => ?_⟩
    refine (C40_expected_types_partial h.ok hwf hlay hlen hup hcase hm hgs).1 t.type.toNat tt (by omega) h2 ?_
    rw [Grammar.isSideType, if_pos h0, htok, h2] at hside
    simpa using hside

/-- Fetched tokens of a described tree are readable by the machines. -/
theorem described_readable {upper : List Nat → List Nat} {find : Nat → List Nat → List Nat} {ts a b c : List GToken}
    {bodies : List Chunk} {order1 order2 order3 : List Nat} {fuel : Nat} {g : Grammar}
    (h : Compiled upper find ts bodies order1 order2 order3 fuel g) (hloop : ∀ c ∈ bodies, LoopOk true c)
    (hsafe : SafeMachines bodies order2 order3 fuel)
    (hlay : Layout ts a b c) (hlen : a.length + b.length ≤ 64) (hup : ∀ l, upper (upper l) = upper l)
    (hcase : ∀ (j : Nat) (rt : GToken) l, ts[j]? = some rt → rt.re.isSome = true → rt.flags.caseless = true → find j l = l →
      find j (upper l) = upper l)
    {root : Chunk} (hroot : bodies[rootNode]? = some root) {w : List Sym} (hw : w ∈ lang root) {items : List Item}
    (hsp : Spells (fun x t => Stands g upper x t ∧ g.isSideType t.type = false) (fun t => g.isSideType t.type = true)
      (fun i u => u ≠ [] ∧ ∃ c, bodies[i]? = some c ∧ u ∈ lang c) w items)
    (hfetched : ∀ t ∈ leavesOf items, Fetched find ts t) :
    (∃ first, g.firsts[rootNode]? = some first ∧ Accepts (tableOf g) first w) ∧
    Spells (fun x t => ∃ k : Nat, x = .tok k ∧ Readable g upper (tableOf g) (Alike upper find g) t k)
      (fun t => Passed g t ∧ g.isSideType t.type = true)
      (fun i u => u ≠ [] ∧ ∃ f : Nat, g.firsts[i]? = some f ∧ Accepts (tableOf g) f u) w items := by
  obtain ⟨-, -, -, hflen, hacc⟩ := compiled_tables h hloop hsafe
  have heoi : ∀ (i : Nat) (c : Chunk) (u : List Sym), bodies[i]? = some c → u ∈ lang c → Sym.eoi ∉ u := fun i c u hc hu =>
    lang_noEoi _ (loopOk_noEoi true _ (hloop c (List.mem_of_getElem? hc))) u hu
  have hfirst : g.firsts[rootNode]? = some (g.firsts[rootNode]'(by
      rw [hflen]; exact (List.getElem?_eq_some_iff.mp hroot).1)) := List.getElem?_eq_getElem _
  refine ⟨⟨_, hfirst, (hacc _ _ _ hroot hfirst w).mpr hw⟩, ?_⟩
  refine spells_filled (fun i u hu => ?_) hsp (fun t ht k hk hside => ?_) (fun t ht hside => ?_) (heoi _ _ _ hroot hw)
  · obtain ⟨h2, c, h3, h4⟩ := hu
    have hf : g.firsts[i]? = some (g.firsts[i]'(by
      rw [hflen]; exact (List.getElem?_eq_some_iff.mp h3).1)) := List.getElem?_eq_getElem _
    exact ⟨⟨h2, _, hf, (hacc i c _ h3 hf u).mpr h4⟩, heoi i c u h3 h4⟩
  · exact (fetched_known h hloop hsafe hlay hlen hup hcase (hfetched t ht)).1 k hk hside
  · exact ⟨(fetched_known h hloop hsafe hlay hlen hup hcase (hfetched t ht)).2 hside, hside⟩

/-- C62, partial: let the grammar be compiled and one token be enough to choose a rule in it. If fetched tokens are the leaves
of a tree described by the grammar with no empty nested nodes, then the parser accepts them, with any hooks that do not fail, and
hooks are told about exactly that tree: the same nodes and ordinary tokens, each nested node is started by its first ordinary token
(a side token may be told in another node).
Missing: other grammars, for which it is false (`C61_lookahead_rejects`); empty nested nodes, for which it is false
(`C61_empty_node_rejected`); caseless types not matching texts in upper case (C40), definitions which are not `LoopOk` (C29),
unsafe dropping of states (C28), tokens made by hooks. -/
theorem C62_described_tree_is_told_partial {upper : List Nat → List Nat} {find : Nat → List Nat → List Nat} {ts a b c : List GToken}
    {bodies : List Chunk} {order1 order2 order3 : List Nat} {fuel : Nat} {g : Grammar}
    (h : Compiled upper find ts bodies order1 order2 order3 fuel g) (hloop : ∀ c ∈ bodies, LoopOk true c)
    (hsafe : SafeMachines bodies order2 order3 fuel) (hd : DistinctLiterals g)
    (hlay : Layout ts a b c) (hlen : a.length + b.length ≤ 64) (hup : ∀ l, upper (upper l) = upper l)
    (hcase : ∀ (j : Nat) (rt : GToken) l, ts[j]? = some rt → rt.re.isSome = true → rt.flags.caseless = true → find j l = l →
      find j (upper l) = upper l)
    (hone : OneTokenGrammar upper find g)
    (env : PEnv σ) (henv : env.g = g) (hupper : env.upper = upper) (hh : HooksPass env) {asks : TokenTypeSet → Prop} {Q : σ → List Token → Prop} (hs : Supplies env.pull asks Q)
    {root : Chunk} (hroot : bodies[rootNode]? = some root) {w : List Sym} (hw : w ∈ lang root) {items : List Item}
    (hsp : Spells (fun x t => Stands g upper x t ∧ g.isSideType t.type = false) (fun t => g.isSideType t.type = true)
      (fun i u => u ≠ [] ∧ ∃ c, bodies[i]? = some c ∧ u ∈ lang c) w items)
    (hfetched : ∀ t ∈ leavesOf items, Fetched find ts t)
    {q : σ} {toks : List Token} (hq : Q q toks) (hts : toks.filter (fun t => t.type ≠ eofTokenType) = leavesOf items) (pos : SrcPos) :
    ∃ N, ∀ fuel', N ≤ fuel' → ∃ pc items' hooks results, parse env fuel' q pos = .done (.ok pc) ∧
      NodeRun env 0 (some (rootToken pos)) items' [] hooks results pc.log ∧ dropSides g items' = started (dropSides g items) := by
  subst henv hupper
  obtain ⟨node, next, after, hp, h1⟩ := hone
  obtain ⟨hm, hc, ⟨heads, ho⟩, -, -⟩ := compiled_tables h hloop hsafe
  obtain ⟨⟨first, hfirst, hacc⟩, hsp'⟩ := described_readable h hloop hsafe hlay hlen hup hcase hroot hw hsp hfetched
  exact C61_described_by_machines env hm hd hc ho hp h1 hh hs hfirst hacc hsp' hq hts pos

/-- C61, partial: under the same conditions the parser accepts the input. Missing: the same as in `C62_described_tree_is_told_partial`. -/
theorem C61_described_is_accepted_partial {upper : List Nat → List Nat} {find : Nat → List Nat → List Nat} {ts a b c : List GToken}
    {bodies : List Chunk} {order1 order2 order3 : List Nat} {fuel : Nat} {g : Grammar}
    (h : Compiled upper find ts bodies order1 order2 order3 fuel g) (hloop : ∀ c ∈ bodies, LoopOk true c)
    (hsafe : SafeMachines bodies order2 order3 fuel) (hd : DistinctLiterals g)
    (hlay : Layout ts a b c) (hlen : a.length + b.length ≤ 64) (hup : ∀ l, upper (upper l) = upper l)
    (hcase : ∀ (j : Nat) (rt : GToken) l, ts[j]? = some rt → rt.re.isSome = true → rt.flags.caseless = true → find j l = l →
      find j (upper l) = upper l)
    (hone : OneTokenGrammar upper find g)
    (env : PEnv σ) (henv : env.g = g) (hupper : env.upper = upper) (hh : HooksPass env) {asks : TokenTypeSet → Prop} {Q : σ → List Token → Prop} (hs : Supplies env.pull asks Q)
    {root : Chunk} (hroot : bodies[rootNode]? = some root) {w : List Sym} (hw : w ∈ lang root) {items : List Item}
    (hsp : Spells (fun x t => Stands g upper x t ∧ g.isSideType t.type = false) (fun t => g.isSideType t.type = true)
      (fun i u => u ≠ [] ∧ ∃ c, bodies[i]? = some c ∧ u ∈ lang c) w items)
    (hfetched : ∀ t ∈ leavesOf items, Fetched find ts t)
    {q : σ} {toks : List Token} (hq : Q q toks) (hts : toks.filter (fun t => t.type ≠ eofTokenType) = leavesOf items) (pos : SrcPos) :
    ∃ N, ∀ fuel', N ≤ fuel' → ∃ pc, parse env fuel' q pos = .done (.ok pc) := by
  obtain ⟨N, hN⟩ := C62_described_tree_is_told_partial h hloop hsafe hd hlay hlen hup hcase hone env henv hupper hh hs hroot hw hsp hfetched
    hq hts pos
  exact ⟨N, fun f hf => let ⟨pc, _, _, _, h1, _⟩ := hN f hf; ⟨pc, h1⟩⟩

/-- C62: a grammar in which one token is enough to choose a rule is unambiguous: two described trees (without empty nested nodes) with
the same ordinary tokens are the same. -/
theorem C62_unambiguous {upper : List Nat → List Nat} {find : Nat → List Nat → List Nat} {ts a b c : List GToken}
    {bodies : List Chunk} {order1 order2 order3 : List Nat} {fuel : Nat} {g : Grammar}
    (h : Compiled upper find ts bodies order1 order2 order3 fuel g) (hloop : ∀ c ∈ bodies, LoopOk true c)
    (hsafe : SafeMachines bodies order2 order3 fuel) (hd : DistinctLiterals g)
    (hlay : Layout ts a b c) (hlen : a.length + b.length ≤ 64) (hup : ∀ l, upper (upper l) = upper l)
    (hcase : ∀ (j : Nat) (rt : GToken) l, ts[j]? = some rt → rt.re.isSome = true → rt.flags.caseless = true → find j l = l →
      find j (upper l) = upper l)
    (hone : OneTokenGrammar upper find g) {root : Chunk} (hroot : bodies[rootNode]? = some root) {w w' : List Sym} (hw : w ∈ lang root)
    (hw' : w' ∈ lang root) {items items' : List Item}
    (hsp : Spells (fun x t => Stands g upper x t ∧ g.isSideType t.type = false) (fun t => g.isSideType t.type = true)
      (fun i u => u ≠ [] ∧ ∃ c, bodies[i]? = some c ∧ u ∈ lang c) w items)
    (hsp' : Spells (fun x t => Stands g upper x t ∧ g.isSideType t.type = false) (fun t => g.isSideType t.type = true)
      (fun i u => u ≠ [] ∧ ∃ c, bodies[i]? = some c ∧ u ∈ lang c) w' items')
    (hfetched : ∀ t ∈ leavesOf items, Fetched find ts t) (hfetched' : ∀ t ∈ leavesOf items', Fetched find ts t)
    (hsame : leavesOf (dropSides g items) = leavesOf (dropSides g items')) :
    started (dropSides g items) = started (dropSides g items') := by
  obtain ⟨node, next, after, hp, h1⟩ := hone
  obtain ⟨hm, hc, ⟨heads, ho⟩, -, -⟩ := compiled_tables h hloop hsafe
  obtain ⟨⟨first, hfirst, hacc⟩, h2⟩ := described_readable h hloop hsafe hlay hlen hup hcase hroot hw hsp hfetched
  obtain ⟨⟨first', hfirst', hacc'⟩, h2'⟩ := described_readable h hloop hsafe hlay hlen hup hcase hroot hw' hsp' hfetched'
  rw [hfirst] at hfirst'
  cases hfirst'
  obtain ⟨ks, hk, hl, hway⟩ := way_of_spells ho (R := fun t k => Readable g upper (tableOf g) (Alike upper find g) t k)
    (fun x t ⟨k, h2, h3⟩ => ⟨k, h2, h3, h3.ordinary⟩) (fun _ h => h.2) h2
  obtain ⟨ks', hk', hl', hway'⟩ := way_of_spells ho (R := fun t k => Readable g upper (tableOf g) (Alike upper find g) t k)
    (fun x t ⟨k, h2, h3⟩ => ⟨k, h2, h3, h3.ordinary⟩) (fun _ h => h.2) h2'
  have hst : Stacked node next after [⟨(first : Int), rootNode, none, []⟩] := by
    refine ⟨fun n hn => ?_, hp.root, trivial⟩
    have : first = n := by simpa using hn
    subst this
    exact hp.first _ _ hfirst
  have hlt : ∀ (s : Nat) (k : Int), tableOf g s k ≠ [] → s < g.tables.states.length := by
    intro s k hne
    by_contra hge
    apply hne
    rw [tableOf, List.getElem?_eq_none (by omega)]
  refine way_unique hm hd hlt hp h1 (by simpa using (hway first hacc).2 rootNode none [] [] [] _ .done) ks' _
    (by simpa using (hway' first hacc').2 rootNode none [] [] [] _ .done) (by rw [← hl, ← hl', hsame]) (keyed_readable hk) (keyed_readable hk') hst

/-- Tokens of type `j` may be literal `l` which is not reserved. -/
def meets (find : Nat → List Nat → List Nat) (ts : List GToken) (l j : Nat) : Bool :=
  match ts[l]?, ts[j]? with
  | some lt, some tt => lt.flags.literal && !lt.flags.reserved && tt.re.isSome && !tt.flags.noLiterals &&
    decide (find j lt.name = lt.name)
  | _, _ => false

/-- Keys that a token may have along with key `k`. -/
def alikeKeys (find : Nat → List Nat → List Nat) (ts : List GToken) (k : Int) : List Int :=
  if k < 0 then [] else ((List.range ts.length).filter fun j => decide (j ≠ k.toNat) &&
    (meets find ts k.toNat j || meets find ts j k.toNat)).map Int.ofNat

theorem alike_keys {upper : List Nat → List Nat} {find : Nat → List Nat → List Nat} {g : Grammar} (hd : DistinctLiterals g)
    (hcase : ∀ (j : Nat) (rt : GToken) l, g.tokens[j]? = some rt → rt.re.isSome = true → rt.flags.caseless = true → find j l = l →
      find j (upper l) = upper l) {k k' : Int} (h : Alike upper find g k k') : k' ∈ alikeKeys find g.tokens k := by
  obtain ⟨hne, i, j, t, rfl, rfl, ⟨h0, ⟨tt, h1, h2⟩, h3⟩, h4, h5⟩ := h
  have key : ∀ l n : Nat, IsLiteral g upper t l → t.type = n → (∀ i, IsLiteral g upper t i → ¬ IsReserved g i) →
      meets find g.tokens l n = true := by
    intro l n hl hn hr
    have hnr := hr l hl
    obtain ⟨-, tt', lt, h6, h7, h8, h9, h10⟩ := hl
    rw [h1] at h6; cases h6
    have hn' : t.type.toNat = n := by omega
    rw [hn'] at h1 h3
    have h11 : lt.flags.reserved = false := by
      cases hx : lt.flags.reserved with
      | false => rfl
      | true => exact absurd ⟨lt, h8, hx⟩ hnr
    rw [meets, h8, h1]
    simp only [h9, h11, h2, h7, Bool.not_false, Bool.and_true]
    by_cases hcl : tt.flags.caseless = true
    · rw [h10, if_pos hcl]
      simpa using hcase n tt _ h1 h2 hcl h3
    · rw [h10, if_neg hcl]; simpa using h3
  have hlen : ∀ n : Nat, MatchesAs g upper t n → n < g.tokens.length := by
    rintro n (⟨-, _, lt, -, -, h6, -⟩ | ⟨h6, -⟩)
    · exact (List.getElem?_eq_some_iff.mp h6).1
    · have := (List.getElem?_eq_some_iff.mp h1).1
      omega
  rw [alikeKeys, if_neg (by omega), List.mem_map]
  refine ⟨j, List.mem_filter.mpr ⟨List.mem_range.mpr (hlen j h5), ?_⟩, rfl⟩
  rw [Bool.and_eq_true, Bool.or_eq_true, decide_eq_true_eq]
  refine ⟨by omega, ?_⟩
  simp only [Int.toNat_natCast]
  rcases h4 with h4 | ⟨h4, h4'⟩
  · rcases h5 with h5 | ⟨h5, h5'⟩
    · exact absurd (congrArg (Nat.cast (R := Int)) (isLiteral_unique hd h4 h5)) hne
    · exact .inl (key i j h4 h5 h5')
  · rcases h5 with h5 | ⟨h5, -⟩
    · exact .inr (key j i h5 h4 h4')
    · omega

/-- C61: a check for grammars in which one token is enough; `n` is the number of steps of the search for keys to come. -/
theorem C61_one_token_checked {upper : List Nat → List Nat} {find : Nat → List Nat → List Nat} {g : Grammar} (hm : Means g.tables (tableOf g))
    (hd : DistinctLiterals g)
    (hcase : ∀ (j : Nat) (rt : GToken) l, g.tokens[j]? = some rt → rt.re.isSome = true → rt.flags.caseless = true → find j l = l →
      find j (upper l) = upper l) (n : Nat)
    (h : predictsCheck g (certOf g n) = true) (h' : oneTokenCheck g (certOf g n) (alikeKeys find g.tokens) = true) :
    OneTokenGrammar upper find g :=
  ⟨_, _, _, predicts_of_check hm h, oneToken_of_check hm (fun _ _ h => alike_keys hd hcase h) h'⟩

/-- A token stream without hooks: the next token is given if its type is requested. -/
def pickyEnv (g : Grammar) : PEnv (List Token) where
  g := g
  upper := id
  pull := fun s types => match s with
    | [] => .done ([], .ok (if types = 0 then none else some eoiToken))
    | t :: ts => if Wanted (· ≠ 0) types t then .done (ts, .ok (some t)) else .done (t :: ts, .ok none)
  unread := fun s t => some (t :: s)
  fullSource := true

theorem picky_supplies (g : Grammar) : Supplies (pickyEnv g).pull (· ≠ 0) Eq := by
  refine ⟨fun q t ts types hq hw => ?_, fun q t ts types hq hw => ?_, fun q types hq ht => ?_, fun q types hq ht => ?_,
    fun q ts types _ t _ _ hb h0 => ?_, by decide⟩
  · subst hq
    exact ⟨ts, by rw [pickyEnv]; exact if_pos hw, rfl⟩
  · subst hq
    exact ⟨t :: ts, by rw [pickyEnv]; exact if_neg hw, rfl⟩
  · subst hq
    exact ⟨[], eoiToken, by simpa [pickyEnv] using ht, rfl, rfl⟩
  · subst hq
    exact ⟨[], by simpa [pickyEnv] using ht, rfl⟩
  · rw [h0] at hb
    simp at hb

/-- `root = {item}, 'y'; item = $d, ['y'], item | 'x'`. -/
def sampleOne : List Chunk :=
  [cSeq [cRep [.node 1], cY], cSeq [.variant [cSeq [.token 1, cOpt [cY], .node 1], cX]]]

theorem sample_literal {g : Grammar} (hg : g.tokens = sampleTokens) {t : Token} {k : Nat} (h0 : 0 ≤ t.type)
    (h : (match sampleTokens[t.type.toNat]?, sampleTokens[k]? with
      | some tt, some lt => !tt.flags.noLiterals && !tt.flags.caseless && lt.flags.literal && decide (lt.name = t.content)
      | _, _ => false) = true) : MatchesAs g id t k := by
  split at h
  · rename_i tt lt h1 h2
    simp only [Bool.and_eq_true, Bool.not_eq_true', decide_eq_true_eq] at h
    refine .inl ⟨h0, tt, lt, by rw [hg, h1], h.1.1.1, by rw [hg, h2], h.1.2, ?_⟩
    rw [h.2]; simp
  · cases h

theorem sample_type {g : Grammar} (hg : g.tokens = sampleTokens) {t : Token} {k : Nat} (h : t.type = k) : MatchesAs g id t k := by
  refine .inr ⟨h, ?_⟩
  rintro i - ⟨lt, h1, h2⟩
  rw [hg] at h1
  have : ∀ x ∈ sampleTokens, x.flags.reserved = false := by decide
  rw [this lt (List.mem_of_getElem? h1)] at h2
  cases h2

/-- A token made of one character. -/
def charToken (c : Char) : Token := { type := charType c.toNat, typeName := "", content := [c.toNat], pos := ⟨none, 0⟩ }

/-- The tree of the input `1yx y`: `{item}` is one item `1 y item`, where the inner one is `x`. -/
def oneTree : List Item :=
  [.node 1 (charToken '1') [.tok (charToken '1'), .tok (charToken 'y'), .node 1 (charToken 'x') [.tok (charToken 'x')]],
    .tok (charToken ' '), .tok (charToken 'y')]

/-- `oneTree` without side tokens. -/
def onePlain : List Item := [.node 1 (charToken '1') [.tok (charToken '1'), .tok (charToken 'y'),
  .node 1 (charToken 'x') [.tok (charToken 'x')]], .tok (charToken 'y')]

/-- All hypotheses of the theorems hold for the sample grammar and the tree. -/
theorem sampleOne_ready : ∃ g, Compiled id sampleFind sampleTokens sampleOne (List.range 2) (List.range 2) (List.range 2) 100 g ∧
    (∀ c ∈ sampleOne, LoopOk true c) ∧ SafeMachines sampleOne (List.range 2) (List.range 2) 100 ∧ DistinctLiterals g ∧
    OneTokenGrammar id sampleFind g ∧ ([.node 1, .tok 4] : List Sym) ∈ lang (cSeq [cRep [.node 1], cY]) ∧
    Spells (fun x t => Stands g id x t ∧ g.isSideType t.type = false) (fun t => g.isSideType t.type = true)
      (fun i u => u ≠ [] ∧ ∃ c, sampleOne[i]? = some c ∧ u ∈ lang c) [.node 1, .tok 4] oneTree ∧
    (∀ t ∈ leavesOf oneTree, Fetched sampleFind sampleTokens t) ∧ started (dropSides g oneTree) = onePlain := by
  have hwf : ∀ c ∈ sampleOne, WF c ∧ IsBody c := by
    simp [sampleOne, cSeq, cRep, cOpt, cX, cY, WF, WFs, IsBody]
  have hc : (match sampleCompile sampleOne with
      | .done (.ok g) => decide (((g.tokens.filter fun t => t.flags.literal).map (·.name)).Nodup) && decide (g.tokens = sampleTokens) &&
        predictsCheck g (certOf g 6) && oneTokenCheck g (certOf g 6) (alikeKeys sampleFind g.tokens)
      | _ => false) = true := by decide +kernel
  split at hc
  · rename_i g hg
    simp only [Bool.and_eq_true, decide_eq_true_eq] at hc
    obtain ⟨⟨⟨h1, h2⟩, h3⟩, h4⟩ := hc
    have hcomp : Compiled id sampleFind sampleTokens sampleOne (List.range 2) (List.range 2) (List.range 2) 100 g :=
      ⟨hg, hwf, by simp [sampleOne, cSeq, cRep, cOpt, cX, cY, refs, refsAll], List.Perm.refl _, List.Perm.refl _⟩
    have hloop : ∀ c ∈ sampleOne, LoopOk true c := by
      simp [sampleOne, cSeq, cRep, cOpt, cX, cY, LoopOk, LoopOkSeq, LoopOkAny]
    have hsafe : SafeMachines sampleOne (List.range 2) (List.range 2) 100 := safe_of_check (fun c hc => (hwf c hc).1) (by decide +kernel)
    have hone : OneTokenGrammar id sampleFind g :=
      C61_one_token_checked (compiled_tables hcomp hloop hsafe).1 (distinct_of h1) (fun j rt l _ _ _ h => h) 6 h3 h4
    refine ⟨g, hcomp, hloop, hsafe, distinct_of h1, hone, ?_, ?_, ?_, ?_⟩
    · refine ⟨[.node 1], ⟨[[.node 1]], rfl, ?_⟩, [.tok 4], ⟨[.tok 4], rfl, [], rfl, rfl⟩, rfl⟩
      intro y hy
      cases List.mem_singleton.mp hy
      exact ⟨[.node 1], rfl, [], rfl, rfl⟩
    · have hn : ∀ t : Token, charType 32 ≠ t.type → t.type < 8 → 0 ≤ t.type → g.isSideType t.type = false := by
        intro t h5 h6 h7
        rw [Grammar.isSideType, if_pos h7, h2]
        have h8 : ∀ n < 8, n ≠ 2 → (sampleTokens[n]?).any (·.flags.side) = false := by decide
        refine h8 _ (by omega) fun h9 => h5 ?_
        have : charType 32 = 2 := by decide
        omega
      have h8 : Spells (fun x t => Stands g id x t ∧ g.isSideType t.type = false) (fun t => g.isSideType t.type = true)
          (fun i u => u ≠ [] ∧ ∃ c, sampleOne[i]? = some c ∧ u ∈ lang c) [.tok 3] [.tok (charToken 'x')] :=
        .tok ⟨sample_literal h2 (by decide) (by decide), hn _ (by decide) (by decide) (by decide)⟩ .nil
      refine .node (u := [.tok 1, .tok 4, .node 1]) ⟨by simp, _, rfl, ?_⟩ (.tok ⟨sample_type h2 rfl, hn _ (by decide) (by decide) (by decide)⟩
        (.tok ⟨sample_literal (k := 4) h2 (by decide) (by decide), hn _ (by decide) (by decide) (by decide)⟩
          (.node (u := [.tok 3]) ⟨by simp, _, rfl, ?_⟩ h8 .nil))) ?_
      · refine ⟨[.tok 1, .tok 4, .node 1], .inl ⟨[.tok 1], rfl, [.tok 4, .node 1], ⟨[.tok 4], ?_, [.node 1], ?_, rfl⟩, rfl⟩, [], rfl, rfl⟩
        · exact .inr ⟨[.tok 4], rfl, [], rfl, rfl⟩
        · exact ⟨[.node 1], rfl, [], rfl, rfl⟩
      · exact ⟨[.tok 3], .inr (.inl rfl), [], rfl, rfl⟩
      · refine .side ?_ (.tok ⟨sample_literal h2 (by decide) (by decide), hn _ (by decide) (by decide) (by decide)⟩ .nil)
        rw [Grammar.isSideType, h2]
        decide
    · intro t ht
      have : ∀ t ∈ leavesOf oneTree, 0 ≤ t.type ∧ ((sampleTokens[t.type.toNat]?).any (·.re.isSome)) = true ∧
          sampleFind t.type.toNat t.content = t.content := by decide
      obtain ⟨h5, h6, h7⟩ := this t ht
      refine ⟨h5, ?_, h7⟩
      rw [Option.any_eq_true] at h6
      exact h6
    · have e : ∀ c : Char, g.isSideType (charToken c).type = (sampleTokens[charType c.toNat]?).any (·.flags.side) := by
        intro c
        rw [Grammar.isSideType, h2, if_pos]
        · rfl
        · simp [charToken]
      have e1 : ∀ c ∈ ['1', 'x', 'y'], (sampleTokens[charType c.toNat]?).any (·.flags.side) = false := by decide
      have e2 : (sampleTokens[charType ' '.toNat]?).any (·.flags.side) = true := by decide
      simp only [onePlain, oneTree, dropSides, e, e1 '1' (by simp), e1 'x' (by simp), e1 'y' (by simp), e2, if_true, Bool.false_eq_true, if_false,
        started, leavesOf, Item.leaves, List.nil_append, List.cons_append, List.append_nil, List.head?_cons]
  · cases hc

/-- The input is accepted, hooks are told about the tree. -/
example : ∃ g, sampleCompile sampleOne = .done (.ok g) ∧ leavesOf oneTree = charTokens "1yx y" ∧
    ∃ N, ∀ fuel, N ≤ fuel → ∃ pc items' hooks results, parse (pickyEnv g) fuel (charTokens "1yx y") ⟨none, 0⟩ = .done (.ok pc) ∧
      NodeRun (pickyEnv g) 0 (some (rootToken ⟨none, 0⟩)) items' [] hooks results pc.log ∧ dropSides g items' = onePlain := by
  obtain ⟨g, h1, h2, h3, h4, h5, h6, h7, h8, h9⟩ := sampleOne_ready
  refine ⟨g, h1.ok, by decide, ?_⟩
  rw [← h9]
  exact C62_described_tree_is_told_partial (a := sampleTokens.take 3) (b := []) (c := sampleTokens.drop 3) h1 h2 h3 h4
    ⟨by decide, by decide, by decide, by decide⟩ (by decide) (fun l => rfl) (fun j rt l _ _ _ h => h) h5 (pickyEnv g) rfl rfl
    ⟨fun log e => ⟨none, rfl⟩, fun log e => ⟨false, rfl⟩⟩ (picky_supplies g) rfl h6 h7 h8 rfl (by decide) _

/-- Every described tree of the input is that one. -/
example : ∃ g, sampleCompile sampleOne = .done (.ok g) ∧ ∀ (w : List Sym) (items : List Item), w ∈ lang (cSeq [cRep [.node 1], cY]) →
    Spells (fun x t => Stands g id x t ∧ g.isSideType t.type = false) (fun t => g.isSideType t.type = true)
      (fun i u => u ≠ [] ∧ ∃ c, sampleOne[i]? = some c ∧ u ∈ lang c) w items →
    leavesOf items = charTokens "1yx y" → leavesOf (dropSides g items) = leavesOf (dropSides g oneTree) →
    started (dropSides g items) = onePlain := by
  obtain ⟨g, h1, h2, h3, h4, h5, h6, h7, h8, h9⟩ := sampleOne_ready
  refine ⟨g, h1.ok, fun w items hw hsp hl hd => ?_⟩
  rw [← h9]
  exact C62_unambiguous (a := sampleTokens.take 3) (b := []) (c := sampleTokens.drop 3) h1 h2 h3 h4
    ⟨by decide, by decide, by decide, by decide⟩ (by decide) (fun l => rfl) (fun j rt l _ _ _ h => h) h5 rfl hw h6 hsp h7
    (by rw [hl]; exact h8) h8 hd

/-- C61, grammars in which one token is not enough: `root = ('1', ['2']), '2'` describes `1 2`, but the parser takes `2` as the
optional item and rejects the input. -/
theorem C61_lookahead_rejects : ∃ (g : Grammar) (items : List Item) (e : PErr),
    sampleCompile [cSeq [cSeq [.token 5, cOpt [.token 6]], .token 6]] = .done (.ok g) ∧
    Described g id (fun i w => ∃ c, [cSeq [cSeq [.token 5, cOpt [.token 6]], .token 6]][i]? = some c ∧ w ∈ lang c) items ∧
    leavesOf items = charTokens "12" ∧ parse (pickyEnv g) 100 (charTokens "12") ⟨none, 0⟩ = .done (.error e) := by
  have hc : (match sampleCompile [cSeq [cSeq [.token 5, cOpt [.token 6]], .token 6]] with
      | .done (.ok g) => decide (g.tokens = sampleTokens) &&
        (match parse (pickyEnv g) 100 (charTokens "12") ⟨none, 0⟩ with
        | .done (.error _) => true
        | _ => false)
      | _ => false) = true := by decide +kernel
  split at hc
  · rename_i g hg
    simp only [Bool.and_eq_true, decide_eq_true_eq] at hc
    obtain ⟨h1, h2⟩ := hc
    split at h2
    · rename_i e he
      refine ⟨g, [.tok (charToken '1'), .tok (charToken '2')], e, hg, ⟨[.tok 5, .tok 6], ⟨_, rfl, ?_⟩,
        .tok (sample_literal (k := 5) h1 (by decide) (by decide)) (.tok (sample_literal (k := 6) h1 (by decide) (by decide)) .nil)⟩, by decide, he⟩
      exact ⟨[.tok 5], ⟨[.tok 5], rfl, [], ⟨[], .inl rfl, [], rfl, rfl⟩, rfl⟩, [.tok 6], ⟨[.tok 6], rfl, [], rfl, rfl⟩, rfl⟩
    · cases h2
  · cases hc

/-- C61, empty nested nodes: `root = a, 'y'; a = ['x']` describes `y`, but the parser rejects it: a nested node is opened by its
first token only. One token is enough to choose a rule in this grammar. -/
theorem C61_empty_node_rejected : ∃ (g : Grammar) (items : List Item) (e : PErr),
    sampleCompile [cSeq [.node 1, cY], cSeq [cOpt [cX]]] = .done (.ok g) ∧ OneTokenGrammar id sampleFind g ∧
    Described g id (fun i w => ∃ c, [cSeq [.node 1, cY], cSeq [cOpt [cX]]][i]? = some c ∧ w ∈ lang c) items ∧
    leavesOf items = charTokens "y" ∧ parse (pickyEnv g) 100 (charTokens "y") ⟨none, 0⟩ = .done (.error e) := by
  have hwf : ∀ c ∈ [cSeq [.node 1, cY], cSeq [cOpt [cX]]], WF c ∧ IsBody c := by
    simp [cSeq, cOpt, cX, cY, WF, WFs, IsBody]
  have hc : (match sampleCompile [cSeq [.node 1, cY], cSeq [cOpt [cX]]] with
      | .done (.ok g) => decide (((g.tokens.filter fun t => t.flags.literal).map (·.name)).Nodup) && decide (g.tokens = sampleTokens) &&
        predictsCheck g (certOf g 6) && oneTokenCheck g (certOf g 6) (alikeKeys sampleFind g.tokens) &&
        (match parse (pickyEnv g) 100 (charTokens "y") ⟨none, 0⟩ with
        | .done (.error _) => true
        | _ => false)
      | _ => false) = true := by decide +kernel
  split at hc
  · rename_i g hg
    simp only [Bool.and_eq_true, decide_eq_true_eq] at hc
    obtain ⟨⟨⟨⟨h0, h1⟩, h2⟩, h3⟩, h4⟩ := hc
    split at h4
    · rename_i e he
      have hcomp : Compiled id sampleFind sampleTokens [cSeq [.node 1, cY], cSeq [cOpt [cX]]] (List.range 2) (List.range 2) (List.range 2) 100 g :=
        ⟨hg, hwf, by simp [cSeq, cOpt, cX, cY, refs, refsAll], List.Perm.refl _, List.Perm.refl _⟩
      have hm := (compiled_tables hcomp (by simp [cSeq, cOpt, cX, cY, LoopOk, LoopOkSeq])
        (safe_of_check (fun c hc => (hwf c hc).1) (by decide +kernel))).1
      refine ⟨g, [.node 1 none [], .tok (charToken 'y')], e, hg, C61_one_token_checked hm (distinct_of h0) (fun j rt l _ _ _ h => h) 6 h2 h3,
        ⟨[.node 1, .tok 4], ⟨_, rfl, ?_⟩,
        .node (u := []) ⟨_, rfl, ?_⟩ .nil (.tok (sample_literal (k := 4) h1 (by decide) (by decide)) .nil)⟩, by decide, he⟩
      · exact ⟨[.node 1], rfl, [.tok 4], ⟨[.tok 4], rfl, [], rfl, rfl⟩, rfl⟩
      · exact ⟨[], .inl rfl, [], rfl, rfl⟩
    · cases h4
  · cases hc

end Verif.Props
