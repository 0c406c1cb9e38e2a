/-
When one token is enough to choose a rule, a successful parse is a run of the node machines, and the run gives a described tree.
-/
import Verif.Proof.OneTokenUnique
import Verif.Proof.Calm

namespace Verif.Proof

open Verif.Model Verif.Spec Verif.Props
open Verif.Model.Tree (bindRun)

section Spelled

variable {g : Grammar} {m : Table} {heads : Nat → Int → Prop} {node : Nat → Nat} {next after : Nat → Int → Prop} {also : Int → Int → Prop}

/-- Keys to come are spelled by words that lead open nodes (their states are given) to the end, one after another. -/
def Spelled (g : Grammar) (m : Table) (R : Token → Nat → Prop) : List Int → List (Token × Nat) → Prop
  | [], _ => False
  | s :: rest, ks => ∃ w items ks1 ks2, Accepts m s w ∧
      Spells (fun x t => ∃ k : Nat, x = .tok k ∧ R t k) (fun _ => False)
        (fun i u => u ≠ [] ∧ ∃ f : Nat, g.firsts[i]? = some f ∧ Accepts m f u) w items ∧
      leavesOf items = ks1.map (·.1) ∧ ks = ks1 ++ ks2 ∧
      (∀ (n : Nat) (t : Token) (k : Nat) (ks' : List (Token × Nat)), s = n → ks = (t, k) :: ks' → Leads m n k → w ≠ []) ∧
      (rest = [] → ks2 = []) ∧ (rest ≠ [] → Spelled g m R rest ks2)

theorem leads_next (hp : Predicts g m node next after) {s : Nat} {k : Int} (h : Leads m s k) : next s k := by
  induction h with
  | here h0 h1 => exact hp.key _ _ (by unfold anyToken; omega) h1
  | skip hr hs h1 ih =>
    refine hp.skip _ _ hr _ ?_
    rw [comes, if_neg (by rw [hs]; unfold finalState; omega), hs]
    exact ih

theorem way_spelled (hp : Predicts g m node next after) (hone : OneToken g m node next after also) (ho : Opens g m heads)
    {R : Token → Nat → Prop} {fr : List Part} {ks : List (Token × Nat)} {T : List Item} (h : Way g m fr ks T) :
    Stacked node next after fr → (∀ x ∈ ks, R x.1 x.2) → Spelled g m R (fr.map (·.state)) ks := by
  induction h with
  | done =>
    intro _ _
    refine ⟨[], [], [], [], .final, .nil, rfl, rfl, fun n t k ks' h => ?_, fun _ => rfl, fun h => absurd rfl h⟩
    dsimp only [finalState] at h; omega
  | @pop i st its q rest ks T _ ih =>
    intro hst hR
    refine ⟨[], [], [], ks, .final, .nil, rfl, rfl, fun n t k ks' h => ?_, fun h => by simp at h, fun _ => ih hst.2.2.content hR⟩
    dsimp only [finalState] at h; omega
  | @skip s r i st its rest ks T hr hn hw ih =>
    intro hst hR
    obtain ⟨w, items, ks1, ks2, h1, h2, h3, h4, h5, h6, h7⟩ := ih (hst.moved hp hr) hR
    have hrd : Rule.reads r = none := by
      unfold Rule.reads
      rw [if_pos hn, if_pos (ho.token _ _ _ hr)]
    refine ⟨w, items, ks1, ks2, .skip hr hrd h1, h2, h3, h4, fun n t k ks' hs hks hl => ?_, h6, h7⟩
    have : s = n := by simpa using hs
    subst this
    subst hks
    have hskip := skip_needed hp hone (p := ⟨(s : Int), i, st, its⟩) rfl hst hr hw
    cases hl with
    | here _ hne => exact absurd hskip.1 hne
    | @skip _ s' _ r' hr' hs' hl' =>
      rw [single_of (hone.single s anyToken) hr] at hr'
      cases List.mem_singleton.mp hr'
      exact h5 s' t k ks' hs' rfl hl'
  | @read s t k r i st its rest ks T hr hn hw ih =>
    intro hst hR
    obtain ⟨w, items, ks1, ks2, h1, h2, h3, h4, h5, h6, h7⟩ := ih (hst.moved hp hr) (fun x hx => hR x (by simp [hx]))
    have hrd : Rule.reads r = some (.tok k) := by
      unfold Rule.reads
      have := ho.token _ _ _ hr
      rw [if_pos hn, if_neg (by rw [this]; unfold anyToken; omega), this, if_pos (by omega)]
      rfl
    refine ⟨.tok k :: w, .tok t :: items, (t, k) :: ks1, ks2, .read hr hrd h1, .tok ⟨k, rfl, hR (t, k) (by simp)⟩ h2, ?_, by rw [h4]; rfl,
      fun _ _ _ _ _ _ _ => by simp, h6, h7⟩
    simp [leavesOf, Item.leaves, h3]
  | @push s t k r n f i st its rest ks T hr hn hf hw ih =>
    intro hst hR
    obtain ⟨u, items1, ks1, ks2, h1, h2, h3, h4, h5, -, h7⟩ := ih (hst.pushed hp hr hn hf) hR
    obtain ⟨w, items2, ks3, ks4, j1, j2, j3, j4, -, j6, j7⟩ := h7 (by simp)
    have hrd : Rule.reads r = some (.node n) := by
      unfold Rule.reads
      rw [if_neg (by rw [hn]; unfold sameNode; omega), hn]
      rfl
    have hu : u ≠ [] := h5 f t k ks rfl rfl (ho.exact s n f k r hr hn hf)
    refine ⟨.node n :: w, .node n (some t) items1 :: items2, ks1 ++ ks3, ks4, .read hr hrd j1, .node ⟨hu, f, hf, h1⟩ h2 j2, ?_, ?_,
      fun _ _ _ _ _ _ _ => by simp, j6, j7⟩
    · simp [leavesOf, Item.leaves, h3, j3]
    · rw [h4, j4, List.append_assoc]

end Spelled

section Back

variable {σ : Type} {env : PEnv σ} {m : Table} {heads : Nat → Int → Prop} {node : Nat → Nat} {next after : Nat → Int → Prop}
  {also : Int → Int → Prop} {asks : TokenTypeSet → Prop} {Q : σ → List Token → Prop} {st0 : Option Token}

/-- Ordinary tokens. -/
def ordinary (g : Grammar) (ts : List Token) : List Token := ts.filter fun t => decide (t.type ≠ eofTokenType) && !g.isSideType t.type

theorem ordinary_skip {g : Grammar} {t : Token} {ts : List Token} (h : t.type = eofTokenType ∨ g.isSideType t.type = true) :
    ordinary g (t :: ts) = ordinary g ts := by
  rw [ordinary, List.filter_cons_of_neg]
  · rfl
  · rcases h with h | h <;> simp [h]

theorem ordinary_take {g : Grammar} {t : Token} {ts : List Token} (h : 0 ≤ t.type) (h1 : g.isSideType t.type = false) :
    ordinary g (t :: ts) = t :: ordinary g ts := by
  rw [ordinary, List.filter_cons_of_pos]
  · rfl
  · have : t.type ≠ eofTokenType := by unfold eofTokenType; omega
    simp [h1, this]

/-- What is known about tokens to come. -/
def Known (g : Grammar) (upper : List Nat → List Nat) (m : Table) (also : Int → Int → Prop) (t : Token) : Prop :=
  t.type = eofTokenType ∨ g.isSideType t.type = true ∨ (0 ≤ t.type ∧ g.isSideType t.type = false ∧ t.pos.src.isSome = true ∧
    ∀ k : Nat, MatchesAs g upper t k → Readable g upper m also t k)

/-- What a token request gives. -/
theorem fetch_back (hsup : Supplies env.pull asks Q) (hre : Rereads env.pull env.unread Q) {types : TokenTypeSet} (f : Nat) {pc pc1 : PC σ}
    {o : Option Token} {ts : List Token} (hq : Q pc.src ts) (hk : ∀ t ∈ ts, Known env.g env.upper m also t)
    (h : nextLoop env types f pc = .done (pc1, .ok o)) :
    ∃ src ts', pc1 = { pc with src := src, delivered := pc.delivered ++ [o] } ∧ Q src ts' ∧
      (∀ t ∈ ts', Known env.g env.upper m also t) ∧
      ((o = none ∧ ordinary env.g ts' = ordinary env.g ts) ∨
       (∃ t, o = some t ∧ env.g.isSideType t.type = true ∧ ordinary env.g ts' = ordinary env.g ts) ∨
       (∃ t, o = some t ∧ 0 ≤ t.type ∧ env.g.isSideType t.type = false ∧ t.pos.src.isSome = true ∧
        (∀ k : Nat, MatchesAs env.g env.upper t k → Readable env.g env.upper m also t k) ∧
        ordinary env.g ts = t :: ordinary env.g ts' ∧ ∀ q', env.unread src t = some q' → Q q' (t :: ts')) ∨
       (∃ t, o = some t ∧ t.type = eoiTokenType ∧ ordinary env.g ts = [] ∧ ts' = [])) := by
  induction f generalizing pc ts with
  | zero => simp [nextLoop] at h
  | succ f ih =>
    rw [nextLoop, bindRun_done] at h
    obtain ⟨⟨src, x⟩, hp, h⟩ := h
    have hnone : ∀ src', env.pull pc.src types = .done (src', .ok none) → pc1 = { pc with src := src', delivered := pc.delivered ++ [o] } ∧ o = none := by
      intro src' hp'
      rw [hp] at hp'
      cases hp'
      dsimp only at h
      rw [if_neg (by simp [Grammar.isSideToken])] at h
      cases h
      exact ⟨rfl, rfl⟩
    cases ts with
    | nil =>
      by_cases h0 : ¬ asks types
      · obtain ⟨q', h1, h2⟩ := hsup.nothing _ _ hq h0
        obtain ⟨h3, h4⟩ := hnone _ h1
        exact ⟨q', [], h3, h2, by simp, .inl ⟨h4, rfl⟩⟩
      · obtain ⟨q', t, h1, h2, h3⟩ := hsup.ending _ _ hq (not_not.mp h0)
        rw [hp] at h1
        cases h1
        dsimp only at h
        rw [if_neg (by simp [Grammar.isSideToken, Grammar.isSideType, h2, eoiTokenType, eofTokenType])] at h
        cases h
        exact ⟨src, [], rfl, h3, by simp, .inr (.inr (.inr ⟨t, rfl, h2, rfl, rfl⟩))⟩
    | cons t ts =>
      by_cases hw : Wanted asks types t
      · obtain ⟨q', h1, h2⟩ := hsup.given _ _ _ _ hq hw
        rw [hp] at h1
        cases h1
        dsimp only at h
        have hk' : ∀ t ∈ ts, Known env.g env.upper m also t := fun t ht => hk t (by simp [ht])
        split at h
        · rename_i hskip
          obtain ⟨src', ts', h3, h4, h5, h6⟩ := ih (pc := { pc with src := src }) h2 hk' h
          have he : ordinary env.g (t :: ts) = ordinary env.g ts := by
            refine ordinary_skip ?_
            simp only [Grammar.isSideToken, Option.any_some, decide_eq_true_eq] at hskip
            exact hskip.imp id (·.1)
          rw [he]
          exact ⟨src', ts', h3, h4, h5, h6⟩
        · rename_i hskip
          cases h
          refine ⟨src, ts, rfl, h2, hk', .inr ?_⟩
          rcases hk t (by simp) with h3 | h3 | ⟨h3, h4, h5, h6⟩
          · exact absurd (.inl (by simpa using h3)) hskip
          · exact .inl ⟨t, rfl, h3, (ordinary_skip (.inr h3)).symm⟩
          · exact .inr (.inl ⟨t, rfl, h3, h4, h5, h6, ordinary_take h3 h4, fun q' hq' => hre _ _ _ _ _ _ hq h3 hp hq'⟩)
      · obtain ⟨q', h1, h2⟩ := hsup.refused _ _ _ _ hq hw
        obtain ⟨h3, h4⟩ := hnone _ h1
        exact ⟨q', t :: ts, h3, h2, hk, .inl ⟨h4, rfl⟩⟩

/-- Only side tokens are left after a full parse. -/
theorem restLoop_back (hsup : Supplies env.pull asks Q) (hre : Rereads env.pull env.unread Q) (f : Nat) {pc pc' : PC σ} {ts : List Token}
    (hq : Q pc.src ts) (ht : pc.tokens = []) (hk : ∀ t ∈ ts, Known env.g env.upper m also t) (h : restLoop env f pc = .done (.ok pc')) :
    ordinary env.g ts = [] := by
  induction f generalizing pc ts with
  | zero => simp [restLoop] at h
  | succ f ih =>
    rw [restLoop, bindRun_done] at h
    obtain ⟨⟨pc1, x⟩, h1, h⟩ := h
    rw [nextToken_direct ht] at h1
    cases x with
    | error e => cases h
    | ok o =>
      obtain ⟨src, ts', rfl, h3, h4, h5⟩ := fetch_back hsup hre f hq hk h1
      rcases h5 with ⟨rfl, -⟩ | ⟨t, rfl, h6, h7⟩ | ⟨t, rfl, h6, h7, -⟩ | ⟨t, rfl, -, h6, -⟩
      · cases h
      · dsimp only at h
        rw [← h7]
        have hne : t.type ≠ eoiTokenType := by
          intro he
          rw [he] at h6; cases h6
        rw [if_neg hne, if_pos h6] at h
        exact ih (pc := { pc with src := src, delivered := pc.delivered ++ [some t] }) h3 ht h4 h
      · dsimp only at h
        rw [if_neg (by unfold eoiTokenType; omega), if_neg (by rw [h7]; simp)] at h
        cases h
      · exact h6

/-- The context shows parts, nothing is put off. -/
structure Holds (env : PEnv σ) (st0 : Option Token) (Q : σ → List Token → Prop) (pc : PC σ) (x : List Part ⊕ List Item) (ts : List Token) :
    Prop where
  tree : Shown env st0 pc.stack pc.log pc.lastResult x
  tokens : pc.tokens = []
  applied : pc.applied = []
  src : Q pc.src ts

theorem Holds.fetched {pc : PC σ} {x : List Part ⊕ List Item} {ts ts' : List Token} (h : Holds env st0 Q pc x ts) {src : σ} (hq : Q src ts')
    {o : Option Token} : Holds env st0 Q { pc with src := src, delivered := pc.delivered ++ [o] } x ts' :=
  ⟨h.tree, h.tokens, h.applied, hq⟩

/-- A rule that opens a node has been applied. -/
theorem applyRule_first {pc pc' : PC σ} {tok : Option Token} {r : Rule} {b : Bool} (h : applyRule env pc tok r = .done (.ok (pc', b)))
    (hn : r.node ≠ sameNode) : 0 ≤ r.node ∧ ∃ first, env.g.firsts[r.node.toNat]? = some first := by
  rw [applyRule] at h
  cases hs : pc.stack with
  | nil => rw [hs] at h; cases h
  | cons nd rest =>
    rw [hs] at h
    obtain ⟨f, -, h⟩ := orPanic_done.mp h
    dsimp only at h
    rw [bindRes_ok] at h
    obtain ⟨pc1, h1, -⟩ := h
    rw [if_pos hn] at h1
    split at h1
    · rename_i hpos
      refine ⟨hpos, ?_⟩
      rw [pushNode] at h1
      dsimp only at h1
      split at h1
      · cases h1
      · split at h1
        · cases h1
        · rw [addNode] at h1
          split at h1
          · cases h1
          · obtain ⟨first', hfirst, -⟩ := orPanic_done.mp h1
            exact ⟨first', hfirst⟩
    · cases h1

theorem Holds.apply {pc pc' : PC σ} {ps : List Part} {ts : List Token} (h : Holds env st0 Q pc (.inl ps) ts) {tok : Option Token} {r : Rule}
    {b : Bool} (ha : applyRule env pc tok r = .done (.ok (pc', b))) {first : Nat} (hf : 0 ≤ r.node → env.g.firsts[r.node.toNat]? = some first) :
    b = consumes r tok ∧ pc'.src = pc.src ∧ Holds env st0 Q pc' (shut [] (grown env.g tok r first ps)) ts := by
  have h1 := applyRule_shown hf h.tree ha
  obtain ⟨h2, stack, log, last, h3⟩ := applyRule_spec ha
  subst h3
  exact ⟨h2, rfl, h1, h.tokens, h.applied, h.src⟩

theorem way_shut {g : Grammar} {fr ps : List Part} {ks : List (Token × Nat)} {T : List Item} (h : shut [] fr = .inl ps) (hw : Way g m ps ks T) :
    Way g m fr ks T := by
  induction hn : fr.length generalizing fr with
  | zero => rw [List.length_eq_zero_iff.mp hn] at h; cases h
  | succ n ih =>
    match fr, h, hn with
    | [p], h, _ =>
      rw [shut] at h
      split at h
      · cases h
      · cases h
        simpa using hw
    | p :: q :: rest, h, hn =>
      by_cases hp : p.state = finalState
      · rw [shut_closed hp] at h
        have := ih h (by simpa using hn)
        obtain ⟨ps, pi, pst, pits⟩ := p
        dsimp only at hp
        subst hp
        exact .pop this
      · rw [shut_open hp] at h
        cases h
        exact hw

theorem way_shut_done {g : Grammar} {fr : List Part} {its : List Item} (hne : fr ≠ []) (h : shut [] fr = .inr its) : Way g m fr [] its := by
  induction hn : fr.length generalizing fr with
  | zero => exact absurd (List.length_eq_zero_iff.mp hn) hne
  | succ n ih =>
    match fr, h, hn with
    | [p], h, _ =>
      rw [shut] at h
      split at h
      · rename_i hp
        cases h
        obtain ⟨ps, pi, pst, pits⟩ := p
        dsimp only at hp
        subst hp
        simpa using Way.done
      · cases h
    | p :: q :: rest, h, hn =>
      by_cases hp : p.state = finalState
      · rw [shut_closed hp] at h
        have := ih (by simp) h (by simpa using hn)
        obtain ⟨ps, pi, pst, pits⟩ := p
        dsimp only at hp
        subst hp
        exact .pop this
      · rw [shut_open hp] at h
        cases h

theorem findRules_nat {g : Grammar} {upper : List Nat → List Nat} {tok : Option Token} {s : Int} {rules : List Rule}
    (h : findRules g upper tok s = some rules) : ∃ n : Nat, s = n ∧ n < g.tables.states.length := by
  rw [findRules, Option.bind_eq_some_iff] at h
  obtain ⟨st, hst, -⟩ := h
  unfold Go.index at hst
  split at hst
  · rename_i h0
    have := (List.getElem?_eq_some_iff.mp hst).1
    exact ⟨s.toNat, by omega, this⟩
  · cases hst

theorem noRule_fails {f : Nat} {pc : PC σ} {tok : Option Token} {s : Int} {x : PC σ × Bool} : noRule env f pc tok s ≠ .done (.ok x) := by
  have hu : ∀ t, unexpected env s t ≠ .done (.ok x) := by
    intro t h
    rw [unexpected] at h
    obtain ⟨_, -, h⟩ := orPanic_done.mp h
    cases h
  intro h
  cases tok with
  | some t => exact hu t h
  | none =>
    rw [noRule, bindRun_done] at h
    obtain ⟨⟨pc1, y⟩, -, h⟩ := h
    rcases y with _ | (_ | t)
    · cases h
    · cases h
    · exact hu t h

/-- One step of a successful inner loop. -/
theorem inner_step (hm : Means env.g.tables m) (hone : OneToken env.g m node next after also) {f : Nat} {pc pc' : PC σ} {p : Part}
    {rest : List Part} {ts : List Token} (hh : Holds env st0 Q pc (.inl (p :: rest)) ts) {tok : Option Token} {b : Bool}
    (h : inner env f pc tok = .done (.ok (pc', b))) :
    ∃ f' r pc2 c, f = f' + 1 ∧ findRules env.g env.upper tok p.state = some [r] ∧ applyRule env pc tok r = .done (.ok (pc2, c)) ∧
      ((c = true ∧ pc' = pc2 ∧ b = true) ∨ (c = false ∧ inner env f' pc2 tok = .done (.ok (pc', b)))) := by
  cases f with
  | zero => simp [inner] at h
  | succ f =>
    obtain ⟨nd, nds, infos, hs, ho, hp, -, -⟩ := hh.tree
    obtain ⟨a, b', c, rfl⟩ := ho.info
    rw [hs, partsOf] at hp
    have hst : nd.state = p.state := by
      simp only [List.cons.injEq] at hp
      rw [← hp.1]
    rw [inner, hs] at h
    dsimp only at h
    rw [bindRun_done, hst] at h
    obtain ⟨⟨pc1, o⟩, h1, h⟩ := h
    rw [nextRule, hh.applied] at h1
    obtain ⟨rules, hr, h1⟩ := orPanic_done.mp h1
    have hlen : rules.length ≤ 1 := by
      rcases findRules_table hm hr with ⟨t, -, -, rfl⟩ | ⟨n, -, -, rfl | ⟨k, rfl⟩⟩
      · simp
      · simp
      · exact hone.single n k
    match rules, hlen, hr, h1 with
    | [], _, hr, h1 =>
      cases h1
      exact absurd h noRule_fails
    | [r], _, hr, h1 =>
      cases h1
      dsimp only at h
      rw [bindRes_ok] at h
      obtain ⟨⟨pc2, c⟩, h2, h⟩ := h
      refine ⟨f, r, pc2, c, rfl, hr, h2, ?_⟩
      cases c with
      | true =>
        cases h
        exact .inl ⟨rfl, rfl, rfl⟩
      | false => exact .inr ⟨rfl, h⟩

theorem findRules_mem {g : Grammar} {upper : List Nat → List Nat} (hm : Means g.tables m) (hd : DistinctLiterals g) {tok : Option Token}
    {s : Nat} {r : Rule} (h : findRules g upper tok s = some [r]) (hside : ∀ t, tok = some t → g.isSideType t.type = false) :
    r ∈ m s r.token ∧ (r.token = anyToken ∨ ∃ t, tok = some t ∧ ((∃ i : Nat, r.token = i ∧ MatchesAs g upper t i) ∨
      (r.token < 0 ∧ t.type = r.token))) := by
  rcases findRules_usable hm hd h (List.mem_singleton.mpr rfl) with ⟨t, h1, h2, -⟩ | ⟨n, k, h1, h2, h3, -, h4⟩
  · rw [hside t h1] at h2; cases h2
  · have : s = n := by omega
    subst this
    rw [h3]
    exact ⟨h2, h4⟩

/-- A rule for a token that may be the next one. -/
theorem leads_rule {g : Grammar} {upper : List Nat → List Nat} (hm : Means g.tables m) (hd : DistinctLiterals g)
    (hp : Predicts g m node next after) (hone : OneToken g m node next after also) {t : Token} {k : Nat} (h : Readable g upper m also t k)
    {s : Nat} (hl : Leads m s k) {r : Rule} (hr : findRules g upper (some t) s = some [r]) :
    r.token = k ∨ (r.token = anyToken ∧ ∃ s' : Nat, r.state = s' ∧ Leads m s' k) := by
  obtain ⟨n, hn, hlt⟩ := findRules_nat hr
  have : s = n := by omega
  subst this
  have htok := hm.token
  cases hl with
  | here _ hne =>
    rw [findRules_takes hm hd h hlt hne (fun k' h7 h8 => hone.literal s k k' hne h7 h8)] at hr
    left
    refine htok s k r ?_
    rw [Option.some.inj hr]
    simp
  | @skip _ s' _ r' hr' hs' hl' =>
    have hnext : comes next after r'.state (node s) k := by
      rw [comes, if_neg (by rw [hs']; unfold finalState; omega), hs']
      exact leads_next hp hl'
    obtain ⟨h0, h1⟩ := hone.skip s r' hr' k hnext
    rw [findRules_skips hm hd h hlt h0 h1, single_of (hone.single s anyToken) hr'] at hr
    have : r' = r := by simpa using hr
    subst this
    exact .inr ⟨htok s _ _ hr', s', hs', hl'⟩

/-- What is needed to go back from a parse to a run. -/
structure Backed (env : PEnv σ) (m : Table) (heads : Nat → Int → Prop) (node : Nat → Nat) (next after : Nat → Int → Prop)
    (also : Int → Int → Prop) (asks : TokenTypeSet → Prop) (Q : σ → List Token → Prop) : Prop where
  means : Means env.g.tables m
  distinct : DistinctLiterals env.g
  closed : RulesClosed env.g m
  opens : Opens env.g m heads
  predicts : Predicts env.g m node next after
  one : OneToken env.g m node next after also
  supplies : Supplies env.pull asks Q
  rereads : Rereads env.pull env.unread Q
  full : env.fullSource = true

abbrev AllKnown (env : PEnv σ) (m : Table) (also : Int → Int → Prop) (ts : List Token) : Prop := ∀ t ∈ ts, Known env.g env.upper m also t

/-- There is a run for the tokens left. -/
def Found (env : PEnv σ) (m : Table) (also : Int → Int → Prop) (ts : List Token) : List Part ⊕ List Item → Prop
  | .inl ps => ∃ ks T, ks.map (·.1) = ordinary env.g ts ∧ AllReadable env.g env.upper m also ks ∧ Way env.g m ps ks T
  | .inr _ => ordinary env.g ts = []

theorem found_shut {ts : List Token} {fr : List Part} (hne : fr ≠ []) (h : Found env m also ts (shut [] fr)) : Found env m also ts (.inl fr) := by
  cases hs : shut [] fr with
  | inl ps =>
    rw [hs] at h
    obtain ⟨ks, T, h1, h2, h3⟩ := h
    exact ⟨ks, T, h1, h2, way_shut hs h3⟩
  | inr its =>
    rw [hs] at h
    exact ⟨[], its, h.symm, (by intro x hx; cases hx), way_shut_done hne hs⟩

/-- The parse has ended well. -/
def Ended (env : PEnv σ) (f f' : Nat) (pc : PC σ) (tok : Option Token) (c : Bool) : Prop :=
  ∃ pc1 tok1 c1 pc', outer env f pc tok c = .done (.ok (pc1, tok1, c1)) ∧ finish env f' pc1 tok1 c1 = .done (.ok pc')

/-- Claim about the outer loop. -/
def OuterBack (env : PEnv σ) (st0 : Option Token) (m : Table) (also : Int → Int → Prop) (Q : σ → List Token → Prop) (f f' : Nat) : Prop :=
  ∀ pc x ts tok c, Holds env st0 Q pc x ts → AllKnown env m also ts → ((∃ ps, x = .inl ps) ∨ (c = true ∧ ∀ t, tok = some t → t.type ≠ eoiTokenType)) →
    Ended env f f' pc tok c → Found env m also ts x

theorem ended_empty {f f' : Nat} {pc : PC σ} {tok : Option Token} {c : Bool} (hs : pc.stack = []) (h : Ended env f f' pc tok c) :
    ∃ pc', finish env f' pc tok c = .done (.ok pc') := by
  obtain ⟨pc1, tok1, c1, pc', h1, h2⟩ := h
  cases f with
  | zero => simp [outer] at h1
  | succ f =>
    rw [outer, hs] at h1
    cases h1
    exact ⟨pc', h2⟩

theorem inner_empty {f : Nat} {pc pc' : PC σ} {tok : Option Token} {b : Bool} (hs : pc.stack = [])
    (h : inner env f pc tok = .done (.ok (pc', b))) : pc' = pc ∧ b = false := by
  cases f with
  | zero => simp [inner] at h
  | succ f =>
    rw [inner, hs] at h
    cases h
    exact ⟨rfl, rfl⟩

/-- A rule that takes no token. -/
theorem any_rule (hb : Backed env m heads node next after also asks Q) {s : Nat} {r : Rule} (hr : r ∈ m s r.token) (ht : r.token = anyToken) :
    r.node = sameNode := by
  rcases hb.opens.node s _ r hr with h | ⟨-, h⟩
  · exact h
  · rw [ht] at h; exact absurd h (by decide)

theorem Holds.skipped (hb : Backed env m heads node next after also asks Q) {pc pc2 : PC σ} {s i : Nat} {st : Option Token} {its : List Item}
    {rest : List Part} {ts : List Token} (h : Holds env st0 Q pc (.inl (⟨(s : Int), i, st, its⟩ :: rest)) ts) {tok : Option Token} {r : Rule}
    {c : Bool} (hr : r ∈ m s r.token) (ht : r.token = anyToken) (ha : applyRule env pc tok r = .done (.ok (pc2, c))) :
    c = decide (tok = none) ∧ pc2.src = pc.src ∧ Holds env st0 Q pc2 (shut [] (⟨r.state, i, st, its⟩ :: rest)) ts := by
  have hn := any_rule hb hr ht
  obtain ⟨h1, h2, h3⟩ := h.apply ha (first := 0) (fun h => absurd h (by rw [hn]; decide))
  have hgr : grown env.g tok r 0 (⟨(s : Int), i, st, its⟩ :: rest) = ⟨r.state, i, st, its⟩ :: rest := by
    cases tok <;> simp [grown, hn, ht, after_closed hb.closed hr]
  rw [hgr] at h3
  exact ⟨by rw [h1]; simp [consumes, ht], h2, h3⟩

/-- The end of input is being handled. -/
theorem eoi_back (hb : Backed env m heads node next after also asks Q) {t : Token} (ht : t.type = eoiTokenType) (f : Nat) {pc pc' : PC σ}
    {x : List Part ⊕ List Item} (hh : Holds env st0 Q pc x []) {b : Bool} (h : inner env f pc (some t) = .done (.ok (pc', b))) :
    Found env m also [] x := by
  induction f generalizing pc x with
  | zero => simp [inner] at h
  | succ f ih =>
    match x, hh with
    | .inr its, _ => exact rfl
    | .inl [], hh =>
      obtain ⟨nd, nds, infos, hs, ho, hp, -, -⟩ := hh.tree
      obtain ⟨a, b', c, rfl⟩ := ho.info
      rw [hs, partsOf] at hp; cases hp
    | .inl (p :: rest), hh =>
      obtain ⟨f', r, pc2, c, hf, hr, ha, hcase⟩ := inner_step hb.means hb.one hh h
      cases hf
      obtain ⟨ps, pi, pst, pits⟩ := p
      dsimp only at hr
      obtain ⟨s, rfl, hlt⟩ := findRules_nat hr
      have hside : env.g.isSideType t.type = false := by rw [ht]; rfl
      obtain ⟨hmem, hkey⟩ := findRules_mem hb.means hb.distinct hr (by rintro _ ⟨⟩; exact hside)
      have hany : r.token = anyToken := by
        rcases hkey with h1 | ⟨_, ⟨⟩, ⟨i, -, h1⟩ | ⟨h1, h2⟩⟩
        · exact h1
        · have := matches_nonneg h1
          rw [ht] at this; exact absurd this (by decide)
        · rcases hb.opens.keys s _ (List.ne_nil_of_mem hmem) with h3 | h3
          · omega
          · exact h3
      obtain ⟨h1, -, h3⟩ := hh.skipped hb hmem hany ha
      rcases hcase with ⟨rfl, -⟩ | ⟨-, h4⟩
      · simp at h1
      · obtain ⟨ks, T, h5, h6, h7⟩ := found_shut (by simp) (ih h3 h4)
        exact ⟨ks, T, h5, h6, .skip (hany ▸ hmem) (any_rule hb hmem hany) h7⟩

theorem finish_rest {f : Nat} {pc pc' : PC σ} {tok : Option Token} (hfull : env.fullSource = true)
    (ht : ∀ t, tok = some t → t.type ≠ eoiTokenType) (h : finish env f pc tok true = .done (.ok pc')) : restLoop env f pc = .done (.ok pc') := by
  rw [finish, putBack.eq_def] at h
  simp only [if_true, bindRun] at h
  rwa [if_pos] at h
  refine ⟨hfull, ?_⟩
  cases tok with
  | none => simp
  | some t => simpa using ht t rfl

theorem finish_unread {f : Nat} {pc pc' : PC σ} {t : Token} (hfull : env.fullSource = true) (ht : t.type ≠ eoiTokenType)
    (hsrc : t.pos.src.isSome = true) (h : finish env f pc (some t) false = .done (.ok pc')) :
    ∃ q, env.unread pc.src t = some q ∧ restLoop env f { pc with src := q } = .done (.ok pc') := by
  rw [finish, putBack.eq_def] at h
  simp only [Bool.false_eq_true, if_false] at h
  rw [if_neg ht, if_neg (by cases hx : t.pos.src <;> simp_all), bindRun_done] at h
  obtain ⟨pc1, h1, h⟩ := h
  obtain ⟨q, hq, h1⟩ := orPanic_done.mp h1
  cases h1
  rw [if_pos ⟨hfull, by simpa using ht⟩] at h
  exact ⟨q, hq, h⟩

/-- An ordinary token is being handled. -/
theorem token_back (hb : Backed env m heads node next after also asks Q) {f1 f2 : Nat} (hout : OuterBack env st0 m also Q f1 f2) {t : Token}
    (h0 : 0 ≤ t.type) (hside : env.g.isSideType t.type = false) (hsrc : t.pos.src.isSome = true)
    (hread : ∀ k : Nat, MatchesAs env.g env.upper t k → Readable env.g env.upper m also t k) (f : Nat) {pc pc' : PC σ}
    {x : List Part ⊕ List Item} {ts : List Token} (hh : Holds env st0 Q pc x ts) (hk : AllKnown env m also ts)
    (hun : ∀ q', env.unread pc.src t = some q' → Q q' (t :: ts)) {b : Bool} (h : inner env f pc (some t) = .done (.ok (pc', b)))
    (hend : Ended env f1 f2 pc' (some t) b) :
    ∃ p rest k ks T, x = .inl (p :: rest) ∧ Readable env.g env.upper m also t k ∧ ks.map (·.1) = ordinary env.g ts ∧
      AllReadable env.g env.upper m also ks ∧ Way env.g m (p :: rest) ((t, k) :: ks) T ∧
      ∀ (k0 s : Nat), p.state = s → Readable env.g env.upper m also t k0 → Leads m s k0 → k = k0 := by
  have hne : t.type ≠ eoiTokenType := by unfold eoiTokenType; omega
  induction f generalizing pc x with
  | zero => simp [inner] at h
  | succ f ih =>
    match x, hh with
    | .inr its, hh =>
      exfalso
      have hs := hh.tree.1
      obtain ⟨rfl, rfl⟩ := inner_empty hs h
      obtain ⟨pc1, h1⟩ := ended_empty hs hend
      obtain ⟨q, h2, h3⟩ := finish_unread hb.full hne hsrc h1
      have := restLoop_back hb.supplies hb.rereads (m := m) (also := also) f2 (ts := t :: ts) (by exact hun q h2) (by exact hh.tokens)
        (List.forall_mem_cons.mpr ⟨.inr (.inr ⟨h0, hside, hsrc, hread⟩), hk⟩) h3
      rw [ordinary_take h0 hside] at this
      cases this
    | .inl [], hh =>
      obtain ⟨nd, nds, infos, hs, ho, hp, -, -⟩ := hh.tree
      obtain ⟨a, b', c, rfl⟩ := ho.info
      rw [hs, partsOf] at hp; cases hp
    | .inl (p :: rest), hh =>
      obtain ⟨f', r, pc2, c, hf, hr, ha, hcase⟩ := inner_step hb.means hb.one hh h
      cases hf
      obtain ⟨ps, i, st, its⟩ := p
      dsimp only at hr
      obtain ⟨s, rfl, hlt⟩ := findRules_nat hr
      obtain ⟨hmem, hkey⟩ := findRules_mem hb.means hb.distinct hr (by rintro _ ⟨⟩; exact hside)
      refine ⟨⟨(s : Int), i, st, its⟩, rest, ?_⟩
      have hlead : ∀ (k0 s' : Nat), (s : Int) = s' → Readable env.g env.upper m also t k0 → Leads m s' k0 →
          r.token = k0 ∨ (r.token = anyToken ∧ ∃ s'' : Nat, r.state = s'' ∧ Leads m s'' k0) := by
        intro k0 s' hs' hk0 hl
        have : s = s' := by omega
        subst this
        exact leads_rule hb.means hb.distinct hb.predicts hb.one hk0 hl hr
      by_cases hany : r.token = anyToken
      · obtain ⟨h1, h2, h3⟩ := hh.skipped hb hmem hany ha
        rcases hcase with ⟨rfl, -⟩ | ⟨-, h4⟩
        · simp at h1
        · obtain ⟨p', rest', k, ks, T, h5, h6, h7, h8, h9, h10⟩ := ih h3 (by rw [h2]; exact hun) h4
          refine ⟨k, ks, T, rfl, h6, h7, h8, .skip (hany ▸ hmem) (any_rule hb hmem hany) (way_shut h5 h9), ?_⟩
          intro k0 s' hs' hk0 hl
          rcases hlead k0 s' hs' hk0 hl with h11 | ⟨-, s'', h12, h13⟩
          · rw [hany] at h11; unfold anyToken at h11; omega
          · rw [h12, shut_nat] at h5
            cases h5
            exact h10 k0 s'' rfl hk0 h13
      · obtain ⟨k, hrk, hmat⟩ : ∃ k : Nat, r.token = k ∧ MatchesAs env.g env.upper t k := by
          rcases hkey with h1 | ⟨_, ⟨⟩, h1 | ⟨h1, h2⟩⟩
          · exact absurd h1 hany
          · exact h1
          · omega
        have hR := hread k hmat
        have hlead' : ∀ (k0 s' : Nat), (s : Int) = s' → Readable env.g env.upper m also t k0 → Leads m s' k0 → k = k0 := by
          intro k0 s' hs' hk0 hl
          rcases hlead k0 s' hs' hk0 hl with h11 | ⟨h11, -⟩
          · omega
          · exact absurd h11 hany
        rw [hrk] at hmem
        by_cases hn : r.node = sameNode
        · obtain ⟨h1, h2, h3⟩ := hh.apply ha (first := 0) (fun h => absurd h (by rw [hn]; decide))
          have hgr : grown env.g (some t) r 0 (⟨(s : Int), i, st, its⟩ :: rest) = ⟨r.state, i, st, its ++ [.tok t]⟩ :: rest := by
            simp [grown, hn, hany, after_closed hb.closed hmem, hside]
          rw [hgr] at h3
          have hc : c = true := by rw [h1]; simp [consumes, hn, hany]
          rcases hcase with ⟨-, rfl, rfl⟩ | ⟨h4, -⟩
          · obtain ⟨ks, T, h5, h6, h7⟩ := found_shut (by simp) (hout _ _ _ _ _ h3 hk (.inr ⟨rfl, by rintro _ ⟨⟩; exact hne⟩) hend)
            exact ⟨k, ks, T, rfl, hR, h5, h6, .read hmem hn h7, hlead'⟩
          · rw [hc] at h4; cases h4
        · obtain ⟨hpos, first, hfirst⟩ := applyRule_first ha hn
          obtain ⟨h1, h2, h3⟩ := hh.apply ha (first := first) (fun _ => hfirst)
          obtain ⟨n, hn'⟩ : ∃ n : Nat, r.node = n := ⟨r.node.toNat, by omega⟩
          have hf' : env.g.firsts[n]? = some first := by rw [hn'] at hfirst; exact hfirst
          have hgr : grown env.g (some t) r first (⟨(s : Int), i, st, its⟩ :: rest) = ⟨first, n, some t, []⟩ :: ⟨r.state, i, st, its⟩ :: rest := by
            have : (n : Int) ≠ sameNode := by unfold sameNode; omega
            simp [grown, hn', after_closed hb.closed hmem, this]
          rw [hgr, shut_nat] at h3
          have hc : c = false := by rw [h1]; simp [consumes, hn]
          rcases hcase with ⟨h4, -⟩ | ⟨-, h4⟩
          · rw [hc] at h4; cases h4
          · obtain ⟨p', rest', k', ks, T, h5, h6, h7, h8, h9, h10⟩ := ih h3 (by rw [h2]; exact hun) h4
            cases h5
            have : k' = k := h10 k first rfl hR (hb.opens.exact s n first k r hmem hn' hf')
            subst this
            exact ⟨k', ks, T, rfl, hR, h7, h8, .push hmem hn' hf' h9, hlead'⟩

/-- The outer loop. -/
theorem outer_back (hb : Backed env m heads node next after also asks Q) (f f2 : Nat) : OuterBack env st0 m also Q f f2 := by
  induction f with
  | zero =>
    rintro pc x ts tok c - - - ⟨_, _, _, _, h, -⟩
    simp [outer] at h
  | succ f ih =>
    intro pc x ts tok c hh hk hx hend
    match x, hh with
    | .inr its, hh =>
      obtain ⟨pc', h1⟩ := ended_empty hh.tree.1 hend
      rcases hx with ⟨_, h2⟩ | ⟨rfl, h2⟩
      · cases h2
      · exact restLoop_back hb.supplies hb.rereads f2 hh.src hh.tokens hk (finish_rest hb.full h2 h1)
    | .inl [], hh =>
      obtain ⟨nd, nds, infos, hs, ho, hp, -, -⟩ := hh.tree
      obtain ⟨a, b', c, rfl⟩ := ho.info
      rw [hs, partsOf] at hp; cases hp
    | .inl (p :: rest), hh =>
      obtain ⟨pc1, tok1, c1, pc', h1, h2⟩ := hend
      obtain ⟨nd, nds, infos, hs, -⟩ := hh.tree
      rw [outer, hs] at h1
      dsimp only at h1
      rw [bindRun_done] at h1
      obtain ⟨⟨pc3, y⟩, h3, h1⟩ := h1
      cases y with
      | error e => cases h1
      | ok o =>
        dsimp only at h1
        rw [bindRes_ok] at h1
        obtain ⟨⟨pc4, b⟩, h4, h1⟩ := h1
        have hend : Ended env f f2 pc4 o b := ⟨_, _, _, _, h1, h2⟩
        rw [nextToken_direct hh.tokens] at h3
        obtain ⟨src, ts', rfl, h5, h6, h7⟩ := fetch_back hb.supplies hb.rereads f hh.src hk h3
        have hh' := hh.fetched h5 (o := o)
        rcases h7 with ⟨rfl, h8⟩ | ⟨t, rfl, h8, h9⟩ | ⟨t, rfl, h8, h9, h10, h11, h12, h13⟩ | ⟨t, rfl, h8, h9, rfl⟩
        · obtain ⟨f', r, pc2, c, -, hr, ha, hcase⟩ := inner_step hb.means hb.one hh' h4
          obtain ⟨ps, i, st, its⟩ := p
          dsimp only at hr
          obtain ⟨s, rfl, hlt⟩ := findRules_nat hr
          obtain ⟨hmem, hkey⟩ := findRules_mem hb.means hb.distinct hr (by rintro _ ⟨⟩)
          have hany : r.token = anyToken := by
            rcases hkey with h1 | ⟨_, ⟨⟩, -⟩
            exact h1
          obtain ⟨e1, -, e3⟩ := hh'.skipped hb hmem hany ha
          rcases hcase with ⟨-, rfl, rfl⟩ | ⟨e4, -⟩
          · obtain ⟨ks, T, e5, e6, e7⟩ := found_shut (by simp) (ih _ _ _ _ _ e3 h6 (.inr ⟨rfl, by rintro _ ⟨⟩⟩) hend)
            exact ⟨ks, T, e5.trans h8, e6, .skip (hany ▸ hmem) (any_rule hb hmem hany) e7⟩
          · rw [e4] at e1; simp at e1
        · obtain ⟨f', r, pc2, c, -, hr, ha, hcase⟩ := inner_step hb.means hb.one hh' h4
          obtain ⟨ps, i, st, its⟩ := p
          dsimp only at hr
          obtain ⟨s, rfl, hlt⟩ := findRules_nat hr
          have h0 : 0 ≤ t.type := by
            by_contra hc
            rw [Grammar.isSideType, if_neg hc] at h8; cases h8
          have hre : r = ⟨t.type, repeatState, sameNode⟩ := by
            rcases findRules_usable hb.means hb.distinct hr (List.mem_singleton.mpr rfl) with ⟨_, ⟨⟩, -, e⟩ | ⟨_, _, -, -, -, e, -⟩
            · exact e
            · rw [e t rfl] at h8; cases h8
          subst hre
          obtain ⟨e1, -, e3⟩ := hh'.apply ha (first := 0) (fun h => absurd h (by simp only; decide))
          have hany : t.type ≠ anyToken := by unfold anyToken; omega
          have hgr : grown env.g (some t) ⟨t.type, repeatState, sameNode⟩ 0 (⟨(s : Int), i, st, its⟩ :: rest) = ⟨(s : Int), i, st, its⟩ :: rest := by
            simp [grown, h8, Spec.after, repeatState, sameNode]
          rw [hgr] at e3
          have hc : c = true := by rw [e1]; simp [consumes, hany]
          rcases hcase with ⟨-, rfl, rfl⟩ | ⟨e4, -⟩
          · obtain ⟨ks, T, e5, e6, e7⟩ := found_shut (by simp) (ih _ _ _ _ _ e3 h6 (.inr ⟨rfl, by rintro _ ⟨⟩; unfold eoiTokenType; omega⟩) hend)
            exact ⟨ks, T, e5.trans h9, e6, e7⟩
          · rw [hc] at e4; cases e4
        · obtain ⟨p', rest', k, ks, T, e1, e2, e3, e4, e5, -⟩ := token_back hb ih h8 h9 h10 h11 f hh' h6 h13 h4 hend
          cases e1
          refine ⟨(t, k) :: ks, T, by rw [h12, ← e3]; rfl, ?_, e5⟩
          exact List.forall_mem_cons.mpr ⟨e2, e4⟩
        · obtain ⟨ks, T, e1, e2, e3⟩ := eoi_back hb h8 f hh' h4
          exact ⟨ks, T, by rw [h9, e1]; rfl, e2, e3⟩

/-- A successful parse is a run. -/
theorem parse_back (hb : Backed env m heads node next after also asks Q) {first : Nat} (hfirst : env.g.firsts[rootNode]? = some first)
    {q : σ} {ts : List Token} (hq : Q q ts) (hk : AllKnown env m also ts) {f : Nat} {pos : SrcPos} {pc : PC σ}
    (h : parse env f q pos = .done (.ok pc)) :
    ∃ ks T, ks.map (·.1) = ordinary env.g ts ∧ AllReadable env.g env.upper m also ks ∧
      Way env.g m [⟨(first : Int), rootNode, some (rootToken pos), []⟩] ks T := by
  rw [parse, bindRes_ok] at h
  obtain ⟨pc1, h1, h⟩ := h
  rw [show (some { type := anyToken, typeName := "", content := [], pos := pos } : Option Token) = some (rootToken pos) from rfl] at h1
  have h4 := shown_start h1 hfirst
  obtain ⟨stack, log, last, h3⟩ := pushNode_spec h1
  rw [parseLoop, bindRes_ok] at h
  obtain ⟨⟨pc2, tok, c⟩, h5, h6⟩ := h
  exact outer_back hb f f pc1 _ ts none false ⟨h4, by rw [h3], by rw [h3], by rw [h3]; exact hq⟩ hk (.inl ⟨_, rfl⟩) ⟨_, _, _, _, h5, h6⟩

end Back

end Verif.Proof
